import Verif.Cst.Toks
import Verif.Tokenizer.Local

/-! # Documents can be cut after a line break -/

namespace Styx.Cst

open Styx Styx.Spec

/-- The tokens from a state of the tokenizer. -/
def toks (t : Tok) : List Token := Tok.run (t.measure + 1) t

theorem tokenize_toks (s : List Char) : tokenize s = toks ⟨s, 0, none⟩ :=
  run_fuel _ _ _ (by simp [Tok.new, Tok.measure]) (by simp [Tok.new])

theorem toks_cons {t : Tok} (hk : t.next.1.kind ≠ .eof) : toks t = t.next.1 :: toks t.next.2 := by
  have hm := next_measure t hk
  unfold toks
  rw [Tok.run]
  simp only [if_neg hk]
  rw [run_fuel t.measure (t.next.2.measure + 1) t.next.2 (by omega) (by omega)]

theorem toks_nil {t : Tok} (hk : t.next.1.kind = .eof) : toks t = [] := by
  unfold toks
  rw [Tok.run]
  simp only [if_pos hk]

theorem toks_text (t : Tok) : (toks t).flatMap (·.text) = t.remaining := (run_spec _ t (by omega)).1

/-- A token further on. -/
def shiftTok (k : Nat) (t : Token) : Token := ⟨t.kind, t.start + k, t.stop + k, t.text⟩

theorem toks_further (k : Nat) : ∀ (n : Nat) (s : List Char) (p : Nat) (h : Option HeredocState),
    Tok.measure ⟨s, p, h⟩ < n → toks ⟨s, p + k, h⟩ = (toks ⟨s, p, h⟩).map (shiftTok k) := by
  intro n
  induction n with
  | zero => intro s p h hn; omega
  | succ n ih =>
    intro s p h hn
    have e := next_further s p k h
    by_cases hk : (Tok.next ⟨s, p, h⟩).1.kind = .eof
    · rw [toks_nil hk, toks_nil (by rw [e]; exact hk)]
      rfl
    · have hm := next_measure _ hk
      rw [toks_cons hk, toks_cons (by rw [e]; exact hk), e]
      rw [List.map_cons]
      congr 1
      exact ih _ _ _ (by simp only [Tok.measure] at hm hn ⊢; omega)

theorem next_newline_none {t : Tok} (h : t.next.1.kind = .newline) : t.next.2.heredoc = none := by
  revert h
  refine next_ind t (fun x => x.1.kind = .newline → x.2.heredoc = none) ?_ ?_ ?_ ?_ ?_
    ?_ ?_ ?_ ?_ ?_ ?_ ?_ ?_ ?_ ?_
  case refine_1 =>
    intro h _
    unfold Tok.heredocContent
    split
    · exact fun _ => rfl
    · split
      · exact nofun
      · exact nofun
  case refine_4 =>
    intro cs _ _
    unfold Tok.atOrTag
    split
    · split <;> exact nofun
    · exact nofun
  case refine_9 =>
    intro d ds _ _ _
    unfold Tok.heredocStart
    simp only
    split <;> exact nofun
  case refine_11 =>
    intro cs _ _ _
    unfold Tok.rawString
    simp only
    split
    · split <;> exact nofun
    · exact nofun
  all_goals
    intros
    rfl

theorem newline_text {t : Tok} (h : t.next.1.kind = .newline) (hi : TokInv t) : EndsNl t.next.1.text := by
  have := (next_kind t hi).2
  rw [h] at this
  rcases this with h | h <;> rw [h] <;> rfl

theorem endsNl_append {a b : List Char} (h : EndsNl b) : EndsNl (a ++ b) := by
  unfold EndsNl at *
  rw [List.getLast?_append, h]
  rfl

theorem toks_newline_ne {T : Tok} (hi : TokInv T) {t : Token} (ht : t ∈ toks T) (hk : t.kind = .newline) : t.text ≠ [] := by
  have := (run_kind _ _ hi t ht).1
  rw [hk] at this
  rcases this with h | h <;> rw [h] <;> simp

/-- The tokens before a line break stay with other text behind. -/
theorem toks_more (y : List Char) : ∀ (pre : List Token) (t : Token) (x : List Char) (p : Nat) (h : Option HeredocState),
    EndsNl x → TokInv ⟨x, p, h⟩ → toks ⟨x, p, h⟩ = pre ++ [t] → t.kind = .newline →
    toks ⟨x ++ y, p, h⟩ = pre ++ t :: toks ⟨y, p + utf8Len x, none⟩ := by
  intro pre
  induction pre with
  | nil =>
    intro t x p h hx hi ht hk
    by_cases he : (Tok.next ⟨x, p, h⟩).1.kind = .eof
    · rw [toks_nil he] at ht; cases ht
    · rw [toks_cons he] at ht
      simp only [List.nil_append, List.cons.injEq] at ht
      obtain ⟨rfl, ht⟩ := ht
      have e := next_more y p hx (fun s hs => delimiter_nl (hi s hs)) (.inr (.inl hk))
      have h0 : (Tok.next ⟨x, p, h⟩).2.remaining = [] := by rw [← toks_text, ht]; rfl
      have hs := next_step ⟨x, p, h⟩
      rw [toks_cons (by rw [e]; exact he), e]
      simp only [moreText, List.nil_append]
      congr 2
      rw [h0, next_newline_none hk, hs.len]
      have := hs.text
      rw [h0, List.append_nil] at this
      rw [this]
      rfl
  | cons k pre ih =>
    intro t x p h hx hi ht hk
    by_cases he : (Tok.next ⟨x, p, h⟩).1.kind = .eof
    · rw [toks_nil he] at ht; cases ht
    · rw [toks_cons he] at ht
      simp only [List.cons_append, List.cons.injEq] at ht
      obtain ⟨rfl, ht⟩ := ht
      have hs := next_step ⟨x, p, h⟩
      have h0 : (Tok.next ⟨x, p, h⟩).2.remaining ≠ [] := by
        intro h0
        have ht' := toks_text (Tok.next ⟨x, p, h⟩).2
        rw [ht, h0, List.flatMap_eq_nil_iff] at ht'
        exact toks_newline_ne (next_kind _ hi).1 (t := t) (by rw [ht]; simp) hk (ht' t (by simp))
      have e := next_more y p hx (fun s hs => delimiter_nl (hi s hs)) (.inl h0)
      have hx' : EndsNl (Tok.next ⟨x, p, h⟩).2.remaining := by
        have := hs.text
        simp only at this
        rw [← this] at hx
        exact hx.right h0
      rw [toks_cons (by rw [e]; exact he), e]
      simp only [moreText, List.cons_append]
      have := ih t _ _ _ hx' (next_kind _ hi).1 ht hk
      rw [this, hs.len]
      have ht := congrArg utf8Len hs.text
      rw [utf8Len_append] at ht
      simp only at ht
      rw [← ht, Nat.add_assoc]

theorem kind_nl {k : TokenKind} {s : List Char} (h : KindText k s) (hs : EndsNl s) :
    k = .newline ∨ k = .heredocStart ∨ k = .heredocContent ∨ k = .error := by
  have hmem : '\n' ∈ s := List.mem_of_getLast? hs
  cases k <;> simp only [KindText] at h <;> simp
  case tag =>
    obtain ⟨n, ns, rfl, h1, h2⟩ := h
    have hn : ∀ m : List Char, TagName m → '\n' ∉ m := by
      rintro m ⟨c, r, rfl, h1, h2⟩ hm
      rcases List.mem_cons.1 hm with rfl | hm
      · revert h1; decide
      · have := h2 _ hm; revert this; decide
    simp only [List.cons_append, List.mem_cons, List.mem_append, List.mem_flatten, List.mem_map] at hmem
    rcases hmem with h | h | ⟨l, ⟨m, hm, rfl⟩, h⟩
    · revert h; decide
    · exact hn _ h1 h
    · simp at h; exact hn _ (h2 m hm) h
  case bareScalar =>
    have := (h.2 _ hmem).2
    revert this; decide
  case quotedScalar =>
    obtain ⟨b, rfl, -⟩ := h
    rw [EndsNl, List.getLast?_append] at hs
    simp at hs
  case rawScalar =>
    obtain ⟨n, b, rfl, -⟩ := h
    rw [EndsNl, List.getLast?_append, List.getLast?_cons] at hs
    simp only [Option.some_or, Option.some.injEq] at hs
    cases hl : (List.replicate (min n 255) '#').getLast? with
    | none => rw [hl] at hs; simp at hs
    | some c =>
      rw [hl] at hs
      have := List.mem_of_getLast? hl
      rw [List.mem_replicate] at this
      simp [this.2] at hs
  case heredocEnd =>
    obtain ⟨ind, d, rfl, h1, h2⟩ := h
    rcases List.mem_append.1 hmem with h | h
    · have := h1 _ h; revert this; decide
    · exact delimiter_nl h2 h
  case lineComment =>
    obtain ⟨r, rfl, -, h, -⟩ := h
    simp at hmem; exact h hmem
  case docComment =>
    obtain ⟨r, rfl, h, -⟩ := h
    simp at hmem; exact h hmem
  case whitespace =>
    have := h.2 _ hmem
    revert this; decide
  all_goals subst h; revert hmem; decide

/-- A step that is within the text does not depend on what follows. -/
theorem next_within {x y x' : List Char} {p : Nat} {h : Option HeredocState} (hx : EndsNl x) (hi : TokInv ⟨x, p, h⟩)
    (ht : (Tok.next ⟨x ++ y, p, h⟩).1.text ++ x' = x)
    (hk : x' ≠ [] ∨ (Tok.next ⟨x ++ y, p, h⟩).1.kind = .newline) :
    Tok.next ⟨x ++ y, p, h⟩ = moreText y (Tok.next ⟨x, p, h⟩) := by
  have hD := fun s hs => delimiter_nl (hi s hs)
  by_cases h1 : (Tok.next ⟨x, p, h⟩).2.remaining = []
  · have hs := (next_step ⟨x, p, h⟩).text
    rw [h1, List.append_nil] at hs
    have hkt := (next_kind ⟨x, p, h⟩ hi).2
    simp only at hs
    rw [hs] at hkt
    have hlen := congrArg List.length ht
    rw [List.length_append] at hlen
    rcases kind_nl hkt hx with h2 | h2 | h2
    · exact next_more y p hx hD (.inr (.inl h2))
    · exact next_more y p hx hD (.inr (.inr h2))
    · by_cases hn : x.head? = some '\n' ∧ h = none
      · exfalso
        obtain ⟨c, cs, rfl⟩ := List.exists_cons_of_ne_nil hx.ne
        obtain ⟨hn, rfl⟩ := hn
        have : c = '\n' := by simpa using hn
        subst this
        have : (Tok.next ⟨'\n' :: cs, p, none⟩).1.kind = .newline := rfl
        rw [this] at h2
        rcases h2 with h2 | h2 <;> cases h2
      · exfalso
        obtain ⟨k1, k2⟩ := next_takes y p hx hi hn h1 (by rcases h2 with h | h; exact .inr h; exact .inl h)
        rcases hk with hk | hk
        · have : 0 < x'.length := List.length_pos_iff.2 hk
          omega
        · exact k2 hk
  · exact next_more y p hx hD (.inl h1)

/-- The tokens before a line break are there without the text behind. -/
theorem toks_less {y : List Char} : ∀ (pre : List Token) (t : Token) (post : List Token) (x : List Char) (p : Nat)
    (h : Option HeredocState), TokInv ⟨x, p, h⟩ → toks ⟨x ++ y, p, h⟩ = pre ++ t :: post → t.kind = .newline →
    (pre ++ [t]).flatMap (·.text) = x → toks ⟨x, p, h⟩ = pre ++ [t] := by
  intro pre
  induction pre with
  | nil =>
    intro t post x p h hi ht hk htx
    have hi' : TokInv ⟨x ++ y, p, h⟩ := hi
    by_cases he : (Tok.next ⟨x ++ y, p, h⟩).1.kind = .eof
    · rw [toks_nil he] at ht; cases ht
    · rw [toks_cons he] at ht
      simp only [List.nil_append, List.cons.injEq] at ht
      obtain ⟨rfl, ht⟩ := ht
      have htx' : (Tok.next ⟨x ++ y, p, h⟩).1.text = x := by simpa using htx
      have hx : EndsNl x := by
        have := newline_text hk hi'
        rwa [htx'] at this
      have e := next_within (x' := []) hx hi (by rw [htx']; simp) (.inr hk)
      rw [e] at he hk htx' ⊢
      have he' : (Tok.next ⟨x, p, h⟩).1.kind ≠ .eof := he
      have hs := (next_step ⟨x, p, h⟩).text
      have h0 : (Tok.next ⟨x, p, h⟩).2.remaining = [] := by
        have h3 : (Tok.next ⟨x, p, h⟩).1.text = x := htx'
        rw [h3] at hs
        simpa using hs
      have hn := next_newline_none (t := ⟨x, p, h⟩) hk
      rw [toks_cons he']
      rw [toks_nil (t := (Tok.next ⟨x, p, h⟩).2)]
      · rfl
      · exact (next_eof_iff _).2 ⟨h0, hn⟩
  | cons k pre ih =>
    intro t post x p h hi ht hk htx
    have hi' : TokInv ⟨x ++ y, p, h⟩ := hi
    have htn : EndsNl t.text := by
      have := (run_kind _ _ hi' t (show t ∈ toks _ by rw [ht]; simp)).1
      rw [hk] at this
      rcases this with h | h <;> rw [h] <;> rfl
    have hx : EndsNl x := by
      rw [← htx, List.flatMap_append]
      exact endsNl_append (by simpa using htn)
    by_cases he : (Tok.next ⟨x ++ y, p, h⟩).1.kind = .eof
    · rw [toks_nil he] at ht; cases ht
    · rw [toks_cons he] at ht
      simp only [List.cons_append, List.cons.injEq] at ht
      obtain ⟨rfl, ht⟩ := ht
      rw [List.cons_append, List.flatMap_cons] at htx
      have hne : (pre ++ [t]).flatMap (·.text) ≠ [] := by
        rw [List.flatMap_append]
        have := htn.ne
        simp [this]
      have e := next_within hx hi htx (.inl hne)
      rw [e] at he ht htx ⊢
      have he' : (Tok.next ⟨x, p, h⟩).1.kind ≠ .eof := he
      have hs := (next_step ⟨x, p, h⟩).text
      have hrem : (pre ++ [t]).flatMap (·.text) = (Tok.next ⟨x, p, h⟩).2.remaining := by
        have h3 : (Tok.next ⟨x, p, h⟩).1.text ++ (pre ++ [t]).flatMap (·.text) = x := htx
        exact List.append_cancel_left (h3.trans hs.symm)
      rw [toks_cons he']
      rw [ih t post _ _ _ (next_kind _ hi).1 ht hk hrem]
      rfl

end Styx.Cst
