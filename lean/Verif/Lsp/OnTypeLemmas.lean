import Verif.Lsp.OnType
import Verif.Lsp.OnTypeSpec
import Verif.Cst.Shape
import Verif.Props.Cst
import Verif.Lsp.TokenLemmas

/-! # The nesting of the tokens in the tree is that of the brackets -/

namespace Styx.Lsp

open Styx Styx.Spec Styx.Cst

theorem leavesAtL_append (d : Nat) (a b : List Green) : leavesAtL d (a ++ b) = leavesAtL d a ++ leavesAtL d b := by
  induction a with
  | nil => simp [leavesAtL]
  | cons g gs ih => simp [leavesAtL, ih]

/-- The leaves of tokens, with the brackets open around them. -/
inductive Marked : List Bracket → List Token → List Leaf → Prop
  | nil {s} : Marked s [] []
  | cons {s t ts kl l ls} : TokenLeaves t kl → l.map (fun x => (x.kind, x.text)) = kl →
      (t.kind ≠ .eof → ∀ x ∈ l, x.depth = max s.length (afterToken s t.kind).length) →
      Marked (afterToken s t.kind) ts ls → Marked s (t :: ts) (l ++ ls)

theorem openAfter_append (s : List Bracket) (a b : List Token) : openAfter s (a ++ b) = openAfter (openAfter s a) b := by
  induction a generalizing s with
  | nil => rfl
  | cons t a ih => exact ih _

theorem Marked.append {s : List Bracket} {a b : List Token} {la lb : List Leaf} (ha : Marked s a la)
    (hb : Marked (openAfter s a) b lb) : Marked s (a ++ b) (la ++ lb) := by
  induction ha with
  | nil => exact hb
  | cons h1 h2 h3 _ ih =>
    rw [List.append_assoc]
    exact .cons h1 h2 h3 (ih hb)

/-- The tokens of a source, with the one at the end. -/
def Good (source : List Char) (st : St) : Prop := ∃ p, tokenIter source = p ++ st.toks

/-- From `st` to `st'` the tokens that are gone are the leaves of `g`, at the depth of the open brackets `s`; these
are open afterwards unless the end is reached. -/
def Deep (st : St) (g : List Green) (st' : St) (s : List Bracket) : Prop :=
  ∃ pre, st.toks = pre ++ st'.toks ∧ Marked s pre (leavesAtL s.length g) ∧ (openAfter s pre = s ∨ st'.peek = .eof)

theorem good_suffix {source : List Char} {st st' : St} {pre : List Token} (h : Good source st)
    (he : st.toks = pre ++ st'.toks) : Good source st' := by
  obtain ⟨p, hp⟩ := h
  exact ⟨p ++ pre, by rw [hp, he, List.append_assoc]⟩

theorem Deep.good {source : List Char} {st st' : St} {g : List Green} {s : List Bracket} (h : Deep st g st' s)
    (hg : Good source st) : Good source st' := good_suffix hg h.choose_spec.1

theorem tokenize_kind (source : List Char) : ∀ t ∈ tokenize source, KindText t.kind t.text ∧ t.kind ≠ .eof :=
  fun t ht => ⟨Styx.Props.C04_kind_text source t ht, (run_kind _ _ (by simp [TokInv, Tok.new]) t ht).2⟩

/-- At the end there is at most the token of the end. -/
theorem good_eof {source : List Char} {st : St} (h : Good source st) (hk : st.peek = .eof) :
    st.toks = [] ∨ ∃ t, st.toks = [t] ∧ t.kind = .eof := by
  obtain ⟨p, hp⟩ := h
  cases ht : st.toks with
  | nil => exact .inl rfl
  | cons t ts =>
    have hke : t.kind = .eof := by simpa [St.peek, ht] using hk
    rw [ht, tokenIter] at hp
    cases ts with
    | nil => exact .inr ⟨t, rfl, hke⟩
    | cons u us =>
      exfalso
      have : t ∈ tokenize source := by
        rcases List.append_eq_append_iff.1 hp with ⟨x, h1, h2⟩ | ⟨x, h1, h2⟩
        · have := congrArg List.length h2
          simp at this
          omega
        · cases x with
          | nil => simp at h2
          | cons y x =>
            simp only [List.cons_append, List.cons.injEq] at h2
            rw [h1, h2.1]
            simp
      exact (tokenize_kind source t this).2 hke

theorem marked_eof {s s' : List Bracket} {pre : List Token} {ls : List Leaf} (h : Marked s pre ls)
    (he : ∀ t ∈ pre, t.kind = .eof) : Marked s' pre ls := by
  induction h generalizing s' with
  | nil => exact .nil
  | cons h1 h2 _ _ ih =>
    exact .cons h1 h2 (fun hk => absurd (he _ (by simp)) hk) (ih fun t ht => he t (by simp [ht]))

theorem eof_split {source : List Char} {st st' : St} {pre : List Token} (hg : Good source st) (hk : st.peek = .eof)
    (he : st.toks = pre ++ st'.toks) : (∀ t ∈ pre, t.kind = .eof) ∧ st'.peek = .eof := by
  rcases good_eof hg hk with h | ⟨t, h, ht⟩
  · rw [h] at he
    obtain ⟨rfl, h2⟩ := List.nil_eq_append_iff.1 he
    exact ⟨by simp, by simp [St.peek, h2]⟩
  · rw [h] at he
    cases pre with
    | nil => exact ⟨by simp, by simp [St.peek, ← show [t] = st'.toks from he, ht]⟩
    | cons x pre =>
      simp only [List.cons_append, List.cons.injEq] at he
      obtain ⟨rfl, he⟩ := he
      obtain ⟨rfl, h2⟩ := List.nil_eq_append_iff.1 he
      exact ⟨by simpa using ht, by simp [St.peek, h2]⟩

theorem Deep.trans {source : List Char} {st st' st'' : St} {g g' : List Green} {s : List Bracket}
    (hg : Good source st) (h : Deep st g st' s) (h' : Deep st' g' st'' s) : Deep st (g ++ g') st'' s := by
  have hg' := h.good hg
  obtain ⟨p, h1, h2, h3⟩ := h
  obtain ⟨q, k1, k2, k3⟩ := h'
  refine ⟨p ++ q, by rw [h1, k1, List.append_assoc], ?_, ?_⟩
  · rw [leavesAtL_append]
    rcases h3 with h3 | h3
    · exact h2.append (by rw [h3]; exact k2)
    · exact h2.append (marked_eof k2 (eof_split hg' h3 k1).1)
  · rcases h3 with h3 | h3
    · rw [openAfter_append, h3]
      exact k3
    · exact .inr (eof_split hg' h3 k1).2

theorem Deep.refl {st st' : St} {s : List Bracket} (h : st'.toks = st.toks) : Deep st [] st' s :=
  ⟨[], by simp [h], .nil, .inl rfl⟩

theorem Deep.congr {st st' st₁ st₂ : St} {g : List Green} {s : List Bracket} (h : Deep st g st' s)
    (h1 : st₁.toks = st.toks) (h2 : st₂.toks = st'.toks) : Deep st₁ g st₂ s := by
  obtain ⟨p, h3, h4, h5⟩ := h
  exact ⟨p, by rw [h1, h2, h3], h4, by simpa [St.peek, h2] using h5⟩

theorem Deep.node {st st' : St} {g : List Green} {s : List Bracket} {k : SyntaxKind} (hk : k ≠ .OBJECT ∧ k ≠ .SEQUENCE)
    (h : Deep st g st' s) : Deep st [.node k g] st' s := by
  obtain ⟨p, h1, h2, h3⟩ := h
  exact ⟨p, h1, by simpa [leavesAtL, leavesAt, hk] using h2, h3⟩

/-- The token changes no brackets. -/
def Flat (s : List Bracket) (k : TokenKind) : Prop := afterToken s k = s

theorem deep_cons {t : Token} {ts : List Token} {e e' : List PErr} {s : List Bracket} (hk : t.kind ≠ .tag)
    (hf : Flat s t.kind) : Deep ⟨t :: ts, e⟩ [.token (SyntaxKind.ofToken t.kind) t.text] ⟨ts, e'⟩ s := by
  refine ⟨[t], rfl, ?_, .inl hf⟩
  have := Marked.cons (s := s) (l := [⟨SyntaxKind.ofToken t.kind, t.text, s.length⟩]) (.one hk) rfl
    (fun _ x hx => by rw [List.mem_singleton] at hx; subst hx; rw [hf]; simp) (.nil (s := afterToken s t.kind))
  simpa [leavesAtL, leavesAt] using this

theorem bump_deep {st : St} {s : List Bracket} (hk : st.peek ≠ .tag) (hf : Flat s st.peek) :
    Deep st st.bump.1 st.bump.2 s := by
  obtain ⟨ts, e⟩ := st
  cases ts with
  | nil => exact Deep.refl rfl
  | cons t ts => exact deep_cons (by simpa [St.peek] using hk) (by simpa [St.peek] using hf)

theorem bumpIf_deep {st st' : St} {s : List Bracket} (c : Prop) [Decidable c] (hc : c → st.peek ≠ .tag ∧ Flat s st.peek)
    (h : st'.toks = st.toks) :
    Deep st (if c then st.bump else ([], st')).1 (if c then st.bump else ([], st')).2 s := by
  split
  · rename_i h'
    exact bump_deep (hc h').1 (hc h').2
  · exact Deep.refl h

theorem bumpWhile_deep (source : List Char) (p : TokenKind → Bool) (s : List Bracket)
    (hp : ∀ k, p k = true → k ≠ .tag ∧ Flat s k) (ts : List Token) (e e' : List PErr) :
    Good source ⟨ts, e⟩ → Deep ⟨ts, e⟩ (bumpWhile p ts).1 ⟨(bumpWhile p ts).2, e'⟩ s := by
  induction ts with
  | nil => intro _; exact Deep.refl rfl
  | cons t ts ih =>
    intro hg
    rw [bumpWhile]
    split
    · rename_i h
      have h1 := deep_cons (ts := ts) (e := e) (e' := e) (hp _ h).1 (hp _ h).2
      exact h1.trans hg (ih (h1.good hg))
    · exact Deep.refl rfl

theorem bumpDocs_deep (source : List Char) (s : List Bracket) (ts : List Token) : ∀ (a : Bool) (e e' : List PErr),
    Good source ⟨ts, e⟩ → Deep ⟨ts, e⟩ (bumpDocs a ts).1 ⟨(bumpDocs a ts).2, e'⟩ s := by
  induction ts with
  | nil => intro a e e' _; exact Deep.refl rfl
  | cons t ts ih =>
    intro a e e' hg
    rw [bumpDocs]
    split
    · rename_i h
      have hk : t.kind ≠ .tag ∧ Flat s t.kind := by
        rcases h with h | ⟨-, h | h⟩ <;> rw [h] <;> exact ⟨by simp, rfl⟩
      have h1 := deep_cons (ts := ts) (e := e) (e' := e) hk.1 hk.2
      exact h1.trans hg (ih true e e' (h1.good hg))
    · exact Deep.refl rfl

theorem skipTrivia_deep {source : List Char} {st : St} (s : List Bracket) (hg : Good source st) :
    Deep st st.skipTrivia.1 st.skipTrivia.2 s :=
  bumpWhile_deep source _ s (by intro k hk; cases k <;> simp [isTrivia] at hk <;> exact ⟨by simp, rfl⟩) _ _ _ hg

theorem skipWs_deep {source : List Char} {st : St} (s : List Bracket) (hg : Good source st) :
    Deep st st.skipWs.1 st.skipWs.2 s :=
  bumpWhile_deep source _ s (by intro k hk; cases k <;> simp at hk; exact ⟨by simp, rfl⟩) _ _ _ hg

theorem skipIf_deep {source : List Char} {st : St} (s : List Bracket) (c : Prop) [Decidable c] (m : Cst.Msg)
    (hg : Good source st) :
    Deep st (if c then (st.err m).skipWs else ([], st)).1 (if c then (st.err m).skipWs else ([], st)).2 s := by
  split
  · exact (skipWs_deep s (st := st.err m) hg).congr rfl rfl
  · exact Deep.refl rfl

theorem heredoc_deep {source : List Char} {st : St} (s : List Bracket) (hg : Good source st)
    (h : st.peek = .heredocStart) : Deep st st.heredoc.1 st.heredoc.2 s := by
  simp only [St.heredoc]
  have h1 : Deep st st.bump.1 st.bump.2 s := bump_deep (by simp [h]) (by rw [h]; rfl)
  have h2 := bumpIf_deep (st := st.bump.2) (st' := st.bump.2) (s := s) (st.bump.2.peek = .heredocContent)
    (by intro h; rw [h]; exact ⟨by simp, rfl⟩) rfl
  have h3 := bumpIf_deep (st := (if st.bump.2.peek = .heredocContent then st.bump.2.bump else ([], st.bump.2)).2)
    (s := s) (st' := (if st.bump.2.peek = .heredocContent then st.bump.2.bump else ([], st.bump.2)).2.err .unterminatedHeredoc)
    ((if st.bump.2.peek = .heredocContent then st.bump.2.bump else ([], st.bump.2)).2.peek = .heredocEnd)
    (by intro h; rw [h]; exact ⟨by simp, rfl⟩) rfl
  exact Deep.node (by simp) (((h1.trans hg h2)).trans hg h3)

/-! ## Tags -/

theorem tagTree_deep (d : Nat) (seg : List Char) (segs : List (List Char)) (payload : List Green) :
    leavesAt d (tagTree (seg :: segs) payload) =
      ((SyntaxKind.TAG_TOKEN, segmentText seg) ::
        (segs.map (fun m => [(SyntaxKind.SLASH, ['/']), (SyntaxKind.TAG_TOKEN, segmentText m)])).flatten).map
          (fun p => ⟨p.1, p.2, d⟩) ++ leavesAtL d payload := by
  induction segs generalizing seg with
  | nil => simp [tagTree, leavesAt, leavesAtL]
  | cons s segs ih =>
    rw [tagTree]
    simp [leavesAt, leavesAtL, ih s]

theorem tag_deep (t : Token) (ts : List Token) (e : List PErr) (st' : St) (payload : List Green) (s : List Bracket)
    (hk : t.kind = .tag) (ht : KindText .tag t.text) (h : Deep ⟨ts, e⟩ payload st' s) :
    Deep ⟨t :: ts, e⟩ [tagTree (Cst.splitSlashAt t.text) payload] st' s := by
  have hf : afterToken s t.kind = s := by rw [hk]; rfl
  obtain ⟨p, h1, h2, h3⟩ := h
  refine ⟨t :: p, by simpa using h1, ?_, by simpa [openAfter, hf] using h3⟩
  obtain ⟨n, ns, hs, hn, hns⟩ := ht
  have e1 : t.text = ('@' :: n) ++ (ns.map (['/', '@'] ++ ·)).flatten := hs
  have hn' := tagName_slash hn
  rw [e1, splitSlashAt_chain _ _ (by simpa using hn'.1) (fun m hm => (tagName_slash (hns m hm)).1)]
  simp only [leavesAtL, List.append_nil]
  rw [tagTree_deep]
  have e2 : segmentText ('@' :: n) = '@' :: n := by simp [segmentText]
  have e3 : ns.map (fun m => [(SyntaxKind.SLASH, ['/']), (SyntaxKind.TAG_TOKEN, segmentText m)]) =
      ns.map (fun m => [(SyntaxKind.SLASH, ['/']), (SyntaxKind.TAG_TOKEN, '@' :: m)]) := by
    apply List.map_congr_left
    intro m hm
    simp [segmentText, (tagName_slash (hns m hm)).2]
  rw [e2, e3]
  refine .cons (.chain n ns hk hs hn'.1 (fun m hm => (tagName_slash (hns m hm)).1)) ?_ ?_ (by rw [hf]; exact h2)
  · simp [Function.comp_def]
  · intro _ x hx
    obtain ⟨y, -, rfl⟩ := List.mem_map.1 hx
    simp [hf]

/-! ## After the name of an attribute -/

theorem contiguous_stop {a b : Nat} {p q : List Token} {t : Token} (h : Contiguous a (p ++ t :: q) b)
    (hl : ∀ x ∈ p ++ t :: q, x.stop = x.start + utf8Len x.text) : t.stop = a + utf8Len ((p ++ [t]).flatMap (·.text)) := by
  induction p generalizing a with
  | nil =>
    obtain ⟨h1, -⟩ := h
    have := hl t (by simp)
    simp
    omega
  | cons x p ih =>
    obtain ⟨h1, h2⟩ := h
    have h3 := ih h2 (fun y hy => hl y (by simp at hy ⊢; exact .inr hy))
    have := hl x (by simp)
    simp only [List.cons_append, List.flatMap_cons, utf8Len_append]
    omega

theorem good_split {source : List Char} {st : St} (h : Good source st) {t : Token} {ts : List Token}
    (ht : st.toks = t :: ts) (hk : t.kind ≠ .eof) : ∃ p q, tokenize source = p ++ t :: q ∧
      ts = q ++ [⟨.eof, utf8Len source, utf8Len source, []⟩] := by
  obtain ⟨p, hp⟩ := h
  rw [ht, tokenIter] at hp
  rcases List.append_eq_append_iff.1 hp with ⟨x, h1, h2⟩ | ⟨x, h1, h2⟩
  · cases x with
    | nil =>
      simp only [List.nil_append, List.cons.injEq] at h2
      rw [← h2.1] at hk
      exact absurd rfl hk
    | cons y x => simp at h2
  · cases x with
    | nil =>
      simp only [List.nil_append, List.cons.injEq] at h2
      rw [h2.1] at hk
      exact absurd rfl hk
    | cons y x =>
      simp only [List.cons_append, List.cons.injEq] at h2
      obtain ⟨rfl, rfl⟩ := h2
      exact ⟨p, x, h1, rfl⟩

theorem good_texts {source : List Char} {st : St} (h : Good source st) {t : Token} {ts : List Token}
    (ht : st.toks = t :: ts) (hk : t.kind ≠ .eof) : dropBytes t.stop source = some (ts.flatMap (·.text)) := by
  obtain ⟨p, q, h1, h2⟩ := good_split h ht hk
  obtain ⟨h3, h4⟩ := Styx.Props.C02_spans_exact source
  have h5 := Styx.Props.C01_tokenize_lossless source
  rw [h1] at h3 h4 h5
  have h6 := contiguous_stop h3 (fun x hx => (h4 x hx).2)
  have e : source = (p ++ [t]).flatMap (·.text) ++ ts.flatMap (·.text) := by
    rw [h2, ← h5]
    simp
  have := dropBytes_app ((p ++ [t]).flatMap (·.text)) (ts.flatMap (·.text))
  rw [← e, show utf8Len ((p ++ [t]).flatMap (·.text)) = t.stop by omega] at this
  exact this

/-- A closing bracket of the innermost open bracket. -/
def Closes (s : List Bracket) (k : TokenKind) : Prop :=
  (k = .rbrace ∧ ∃ r, s = .brace :: r) ∨ (k = .rparen ∧ ∃ r, s = .paren :: r)

theorem good_text {source : List Char} {st : St} (h : Good source st) : ∀ t ∈ st.toks, KindText t.kind t.text := by
  intro t ht
  obtain ⟨p, hp⟩ := h
  have : t ∈ tokenIter source := by rw [hp]; simp [ht]
  rcases List.mem_append.1 this with h | h
  · exact (tokenize_kind source t h).1
  · rw [List.mem_singleton] at h
    subst h
    rfl

/-- The text of the tokens to come starts with blanks and `>`. -/
theorem gtFollows_peek {ts : List Token} {e : List PErr} (hk : ∀ t ∈ ts, KindText t.kind t.text)
    (h : gtFollows (ts.flatMap (·.text)) = true) : ¬ Closer (St.skipWs ⟨ts, e⟩).2.peek := by
  induction ts with
  | nil => simp [gtFollows] at h
  | cons t ts ih =>
    have ht := hk t (by simp)
    by_cases hw : t.kind = .whitespace
    · rw [hw] at ht
      have hg : gtFollows (ts.flatMap (·.text)) = true := by
        have : ∀ (b r : List Char), (∀ c ∈ b, c = ' ' ∨ c = '\t') → gtFollows (b ++ r) = gtFollows r := by
          intro b
          induction b with
          | nil => intro r _; rfl
          | cons c b ih =>
            intro r hb
            have hc := hb c (by simp)
            rw [List.cons_append, gtFollows, if_pos (by simpa using hc), ih r fun x hx => hb x (by simp [hx])]
        rw [List.flatMap_cons, this _ _ ht.2] at h
        exact h
      have := ih (fun x hx => hk x (by simp [hx])) hg
      simpa [St.skipWs, St.bumpWhile, bumpWhile, hw, St.peek] using this
    · have : (St.skipWs ⟨t :: ts, e⟩).2.peek = t.kind := by
        simp [St.skipWs, St.bumpWhile, bumpWhile, hw, St.peek]
      rw [this]
      rintro (hc | hc) <;> rw [hc] at ht <;> simp only [KindText] at ht <;> rw [List.flatMap_cons, ht] at h <;>
        simp [gtFollows] at h

/-! ## The functions that call each other -/

/-- What closes the list of entries is what is innermost open. -/
def Top (c : Option TokenKind) (s : List Bracket) : Prop :=
  (c = none ∧ s = []) ∨ (c = some .rbrace ∧ ∃ r, s = .brace :: r)

/-- How each function nests the tokens, at fuel `n`. -/
def AllDeep (source : List Char) (n : Nat) : Prop :=
  (∀ c st s r, Good source st → Top c s → parseEntries source n c st = some r →
    Deep st r.1 r.2 s ∧ (r.2.peek = .eof ∨ c = some r.2.peek)) ∧
  (∀ c st s r, Good source st → Top c s → parseEntry source n c st = some r → Deep st [r.1] r.2 s) ∧
  (∀ c k st s r, Good source st → Top c s → parseValues source n c k st = some r → Deep st r.1 r.2 s) ∧
  (∀ c st s r, Good source st → parseAttributes source n c st = some r → Deep st r.1 r.2 s) ∧
  (∀ st s r, Good source st → st.atAttribute source = true → parseAttribute source n st = some r → Deep st [r.1] r.2 s) ∧
  (∀ st s r, Good source st → ¬ Closes s st.peek → Cst.parseAtom source n st = some r → Deep st r.1 r.2 s) ∧
  (∀ st s r, Good source st → (∃ q, s = .paren :: q) → parseItems source n st = some r →
    Deep st r.1 r.2 s ∧ (r.2.peek = .eof ∨ r.2.peek = .rparen))

theorem flat_of {s : List Bracket} {k : TokenKind} (h : ¬ Closes s k) (ho : ¬ Opener k) : Flat s k := by
  cases k <;> try rfl
  · exact absurd (.inl rfl) ho
  · rcases s with _ | ⟨_ | _, r⟩
    · rfl
    · exact absurd (.inl ⟨rfl, r, rfl⟩) h
    · rfl
  · exact absurd (.inr rfl) ho
  · rcases s with _ | ⟨_ | _, r⟩
    · rfl
    · rfl
    · exact absurd (.inr ⟨rfl, r, rfl⟩) h

/-- A node between brackets. -/
theorem bracket_deep {source : List Char} {st st1 st2 : St} {g : List Green} {s : List Bracket} {b : Bracket}
    {k : SyntaxKind} {ko kc : TokenKind} (hg : Good source st) (hk : k = .OBJECT ∨ k = .SEQUENCE) (ho : st.peek = ko)
    (hb : (b = .brace ∧ ko = .lbrace ∧ kc = .rbrace) ∨ (b = .paren ∧ ko = .lparen ∧ kc = .rparen))
    (h : Deep st.bump.2 g st1 (b :: s)) (hend : st1.peek = .eof ∨ st1.peek = kc) (h2 : st2.toks = st1.toks) :
    Deep st [.node k (st.bump.1 ++ g ++ (if st1.peek = kc then st1.bump else ([], st2)).1)]
      (if st1.peek = kc then st1.bump else ([], st2)).2 s := by
  obtain ⟨ts, e⟩ := st
  cases ts with
  | nil =>
    simp [St.peek] at ho
    subst ho
    rcases hb with ⟨_, h, _⟩ | ⟨_, h, _⟩ <;> cases h
  | cons t ts =>
    have htk : t.kind = ko := by simpa [St.peek] using ho
    have hopen : afterToken s t.kind = b :: s := by
      rw [htk]
      rcases hb with ⟨rfl, rfl, _⟩ | ⟨rfl, rfl, _⟩ <;> rfl
    have hnt : t.kind ≠ .tag := by rw [htk]; rcases hb with ⟨_, rfl, _⟩ | ⟨_, rfl, _⟩ <;> simp
    have hg1 : Good source (St.bump ⟨t :: ts, e⟩).2 := good_suffix (pre := [t]) hg rfl
    have hg2 := h.good hg1
    obtain ⟨p, k1, k2, k3⟩ := h
    have hfirst : Marked s [t] (leavesAtL (s.length + 1) (St.bump ⟨t :: ts, e⟩).1) := by
      have := Marked.cons (s := s) (l := [⟨SyntaxKind.ofToken t.kind, t.text, s.length + 1⟩]) (.one hnt) rfl
        (fun _ x hx => by rw [List.mem_singleton] at hx; subst hx; rw [hopen]; simp)
        (.nil (s := afterToken s t.kind))
      simpa [leavesAtL, leavesAt, St.bump] using this
    have hmid : Marked s (t :: p) (leavesAtL (s.length + 1) ((St.bump ⟨t :: ts, e⟩).1 ++ g)) := by
      rw [leavesAtL_append]
      refine hfirst.append ?_
      simp only [openAfter, hopen]
      exact k2
    by_cases hc : st1.peek = kc
    · rw [if_pos hc]
      obtain ⟨ts1, e1⟩ := st1
      cases ts1 with
      | nil =>
        simp [St.peek] at hc
        subst hc
        rcases hb with ⟨_, _, h⟩ | ⟨_, _, h⟩ <;> cases h
      | cons u us =>
        have huk : u.kind = kc := by simpa [St.peek] using hc
        have hne : (St.peek ⟨u :: us, e1⟩) ≠ .eof := by
          rw [hc]
          rcases hb with ⟨_, _, rfl⟩ | ⟨_, _, rfl⟩ <;> simp
        have hst : openAfter (b :: s) p = b :: s := k3.resolve_right hne
        have hclose : afterToken (b :: s) u.kind = s := by
          rw [huk]
          rcases hb with ⟨rfl, _, rfl⟩ | ⟨rfl, _, rfl⟩ <;> rfl
        have hut : u.kind ≠ .tag := by rw [huk]; rcases hb with ⟨_, _, rfl⟩ | ⟨_, _, rfl⟩ <;> simp
        have hopenp : openAfter s (t :: p) = b :: s := by simp only [openAfter, hopen, hst]
        refine ⟨t :: p ++ [u], by simpa [St.bump] using k1, ?_, .inl ?_⟩
        · have hlast : Marked (b :: s) [u] (leavesAtL (s.length + 1) (St.bump ⟨u :: us, e1⟩).1) := by
            have := Marked.cons (s := b :: s) (l := [⟨SyntaxKind.ofToken u.kind, u.text, s.length + 1⟩]) (.one hut) rfl
              (fun _ x hx => by rw [List.mem_singleton] at hx; subst hx; rw [hclose]; simp)
              (.nil (s := afterToken (b :: s) u.kind))
            simpa [leavesAtL, leavesAt, St.bump] using this
          have := hmid.append (by rw [hopenp]; exact hlast)
          rw [← leavesAtL_append] at this
          simpa [leavesAtL, leavesAt, hk] using this
        · rw [openAfter_append, hopenp]
          simp only [openAfter, hclose]
    · rw [if_neg hc]
      have he := hend.resolve_right hc
      refine ⟨t :: p, by simpa [St.bump, h2] using k1, ?_, .inr (by simpa [St.peek, h2] using he)⟩
      simpa [leavesAtL, leavesAt, hk] using hmid

/-- No closing bracket follows a `>`. -/
theorem not_closer_after {source : List Char} (hl : ¬ LooseGt (tokenize source)) {st : St} (hg : Good source st)
    (hk : st.peek = .gt) {st' : St} (h' : st'.toks = st.bump.2.skipWs.2.toks) : ¬ Closer st'.peek := by
  intro hc
  obtain ⟨ts, e⟩ := st
  cases ts with
  | nil => simp [St.peek] at hk
  | cons g ts =>
    have hgk : g.kind = .gt := by simpa [St.peek] using hk
    obtain ⟨p, q, h1, h2⟩ := good_split hg rfl (by rw [hgk]; simp)
    have hw : ∀ (ts : List Token) (e : List PErr), ∃ ws, ts = ws ++ (St.skipWs ⟨ts, e⟩).2.toks ∧
        ∀ w ∈ ws, w.kind = .whitespace := by
      intro ts e
      induction ts with
      | nil => exact ⟨[], rfl, by simp⟩
      | cons t ts ih =>
        by_cases ht : t.kind = .whitespace
        · obtain ⟨ws, h1, h2⟩ := ih
          refine ⟨t :: ws, ?_, by simpa [ht] using h2⟩
          simpa [St.skipWs, St.bumpWhile, bumpWhile, ht] using h1
        · exact ⟨[], by simp [St.skipWs, St.bumpWhile, bumpWhile, ht], by simp⟩
    obtain ⟨ws, h3, h4⟩ := hw ts e
    have h5 : st'.toks = (St.skipWs ⟨ts, e⟩).2.toks := h'
    rw [← h5] at h3
    cases ht : st'.toks with
    | nil => rcases hc with hc | hc <;> simp [St.peek, ht] at hc
    | cons t us =>
      have hck : Closer t.kind := by simpa [St.peek, ht] using hc
      have hte : t.kind ≠ .eof := by rcases hck with h | h <;> rw [h] <;> simp
      rw [ht, h2] at h3
      rcases List.append_eq_append_iff.1 h3 with ⟨x, k1, k2⟩ | ⟨x, k1, k2⟩
      · cases x with
        | nil =>
          simp only [List.nil_append, List.cons.injEq] at k2
          rw [← k2.1] at hte
          exact hte rfl
        | cons y x => simp at k2
      · cases x with
        | nil =>
          simp only [List.nil_append, List.cons.injEq] at k2
          rw [k2.1] at hte
          exact hte rfl
        | cons y x =>
          simp only [List.cons_append, List.cons.injEq] at k2
          obtain ⟨rfl, -⟩ := k2
          exact hl ⟨p, g, ws, t, x, by rw [h1, k1], hgk, h4, hck⟩

theorem closes_closer {s : List Bracket} {k : TokenKind} (h : Closes s k) : Closer k := by
  rcases h with ⟨h, -⟩ | ⟨h, -⟩
  · exact .inl h
  · exact .inr h

theorem skipTrivia_id {st : St} (h : isTrivia st.peek = false) : st.skipTrivia = ([], st) := by
  obtain ⟨ts, e⟩ := st
  cases ts with
  | nil => rfl
  | cons t ts =>
    have : isTrivia t.kind = false := by simpa [St.peek] using h
    simp [St.skipTrivia, St.bumpWhile, bumpWhile, this]

theorem atEntryEnd_not {st : St} {c : Option TokenKind} {s : List Bracket} (h : st.atEntryEnd c = false)
    (ht : Top c s) : ¬ Closes s st.peek := by
  rintro (⟨h1, r, rfl⟩ | ⟨h1, r, rfl⟩)
  · rcases ht with ⟨-, h2⟩ | ⟨rfl, -⟩
    · cases h2
    · simp [St.atEntryEnd, h1] at h
  · rcases ht with ⟨-, h2⟩ | ⟨rfl, q, h2⟩ <;> cases h2

theorem allDeep (source : List Char) (hl : ¬ LooseGt (tokenize source)) : ∀ n, AllDeep source n := by
  intro n
  induction n with
  | zero =>
    refine ⟨?_, ?_, ?_, ?_, ?_, ?_, ?_⟩ <;> intros <;>
      simp_all [parseEntries, parseEntry, parseValues, parseAttributes, parseAttribute, Cst.parseAtom, parseItems]
  | succ n ih =>
    obtain ⟨iEntries, iEntry, iValues, iAttrs, iAttr, iAtom, iItems⟩ := ih
    refine ⟨?_, ?_, ?_, ?_, ?_, ?_, ?_⟩
    · intro c st s r hg ht h
      rw [parseEntries] at h
      simp only [Option.bind_eq_bind] at h
      have h0 := skipTrivia_deep s hg
      have h1 := h0.trans hg (bumpDocs_deep source s st.skipTrivia.2.toks false
        st.skipTrivia.2.errors st.skipTrivia.2.errors (h0.good hg))
      split at h
      · rename_i hc
        cases h
        refine ⟨h1, ?_⟩
        rw [Bool.or_eq_true] at hc
        rcases hc with hc | hc
        · exact .inl (by simpa [St.atEof] using hc)
        · exact .inr (by simpa using hc)
      · simp only [Option.bind_eq_some_iff, Prod.exists, Option.some.injEq] at h
        obtain ⟨g3, st3, h3, g6, st6, h6, rfl⟩ := h
        have h2 := h1.trans hg (iEntry _ _ s _ (h1.good hg) ht h3)
        have h4 := h2.trans hg (skipWs_deep s (h2.good hg))
        have h5 := h4.trans hg (bumpIf_deep (st' := st3.skipWs.2) (s := s)
          (st3.skipWs.2.peek = .comma ∨ st3.skipWs.2.peek = .newline)
          (by intro h; rcases h with h | h <;> rw [h] <;> exact ⟨by simp, rfl⟩) rfl)
        have h7 := iEntries _ _ s _ (h5.good hg) ht h6
        exact ⟨h5.trans hg h7.1, h7.2⟩
    · intro c st s r hg ht h
      rw [parseEntry] at h
      simp only [Option.bind_eq_bind] at h
      split at h
      · simp only [Option.bind_eq_some_iff, Prod.exists, Option.some.injEq] at h
        obtain ⟨g, st1, h1, rfl⟩ := h
        exact ((iAttrs _ _ s _ hg h1).node (by simp)).node (by simp)
      · simp only [Option.bind_eq_some_iff, Prod.exists, Option.some.injEq] at h
        obtain ⟨g1, st1, h1, g3, st3, h3, rfl⟩ := h
        have e1 : Deep st g1 st1 s := by
          split at h1
          · cases h1; exact Deep.refl rfl
          · rename_i he
            simp only [Option.bind_eq_some_iff, Prod.exists, Option.some.injEq, Prod.mk.injEq] at h1
            obtain ⟨g, st', h1, rfl, rfl⟩ := h1
            exact (iAtom _ s _ hg (atEntryEnd_not (by simpa using he) ht) h1).node (by simp)
        have e2 := e1.trans hg (skipWs_deep s (e1.good hg))
        exact (e2.trans hg (iValues _ _ _ s _ (e2.good hg) ht h3)).node (by simp)
    · intro c k st s r hg ht h
      rw [parseValues] at h
      simp only [Option.bind_eq_bind] at h
      split at h
      · cases h; exact Deep.refl rfl
      · rename_i he
        simp only [Option.bind_eq_some_iff, Prod.exists, Option.some.injEq] at h
        obtain ⟨g1, st1, h1, g3, st3, h3, rfl⟩ := h
        have e1 : Deep st g1 st1 s := by
          split at h1
          · simp only [Option.bind_eq_some_iff, Prod.exists, Option.some.injEq, Prod.mk.injEq] at h1
            obtain ⟨g, st', h1, rfl, rfl⟩ := h1
            exact ((iAttrs _ _ s _ hg h1).node (by simp)).node (by simp)
          · simp only [Option.bind_eq_some_iff, Prod.exists, Option.some.injEq, Prod.mk.injEq] at h1
            obtain ⟨g, st', h1, rfl, rfl⟩ := h1
            have hn := atEntryEnd_not (by simpa using he) ht
            refine Deep.node (by simp) ?_
            split at h1
            · exact (iAtom (st.err .tooManyAtoms) s _ (good_suffix (pre := []) hg rfl) (by simpa [St.err, St.peek] using hn) h1).congr rfl rfl
            · exact iAtom _ s _ hg hn h1
        have e2 := e1.trans hg (skipWs_deep s (e1.good hg))
        exact e2.trans hg (iValues _ _ _ s _ (e2.good hg) ht h3)
    · intro c st s r hg h
      rw [parseAttributes] at h
      simp only [Option.bind_eq_bind] at h
      split at h
      · rename_i hat
        simp only [Option.bind_eq_some_iff, Prod.exists] at h
        obtain ⟨g1, st1, h1, h⟩ := h
        have e0 := iAttr _ s _ hg hat h1
        have e1 := e0.trans hg (skipWs_deep s (e0.good hg))
        split at h
        · cases h; exact e1
        · simp only [Option.bind_eq_some_iff, Prod.exists, Option.some.injEq] at h
          obtain ⟨g3, st3, h3, rfl⟩ := h
          exact e1.trans hg (iAttrs _ _ s _ (e1.good hg) h3)
      · cases h; exact Deep.refl rfl
    · intro st s r hg hat h
      have hk := atAttribute_peek hat
      rw [parseAttribute] at h
      simp only [Option.bind_eq_bind, Option.bind_eq_some_iff, Prod.exists, Option.some.injEq] at h
      obtain ⟨g4, st4, h4, rfl⟩ := h
      have h1 : Deep st st.bump.1 st.bump.2 s := bump_deep (by simp [hk]) (by rw [hk]; rfl)
      have hg1 := h1.good hg
      have hgt : ∀ e : List PErr, ¬ Closer (St.skipWs ⟨st.bump.2.toks, e⟩).2.peek := by
        intro e
        obtain ⟨ts, e0⟩ := st
        cases ts with
        | nil => simp [St.atAttribute] at hat
        | cons t ts =>
          have htk : t.kind = .bareScalar := by simpa [St.peek] using hk
          have := good_texts hg rfl (by rw [htk]; simp)
          simp only [St.atAttribute, this, htk] at hat
          exact gtFollows_peek (ts := ts) (fun x hx => good_text hg x (by simp [hx])) (by simpa using hat)
      have h2 := bumpIf_deep (st := st.bump.2) (st' := st.bump.2.err .expectedGt) (s := s) (st.bump.2.peek = .gt)
        (by intro h; rw [h]; exact ⟨by simp, rfl⟩) rfl
      have hg2 := h2.good hg1
      have h3 := skipIf_deep (st := (if st.bump.2.peek = .gt then st.bump.2.bump else ([], st.bump.2.err .expectedGt)).2) s
        ((if st.bump.2.peek = .gt then st.bump.2.bump else ([], st.bump.2.err .expectedGt)).2.peek = .whitespace ∨
          (if st.bump.2.peek = .gt then st.bump.2.bump else ([], st.bump.2.err .expectedGt)).2.peek = .newline)
        .spaceAfterGt hg2
      have hg3 := h3.good hg2
      have hn : ¬ Closer (if (if st.bump.2.peek = .gt then st.bump.2.bump else ([], st.bump.2.err .expectedGt)).2.peek = .whitespace ∨
          (if st.bump.2.peek = .gt then st.bump.2.bump else ([], st.bump.2.err .expectedGt)).2.peek = .newline
          then ((if st.bump.2.peek = .gt then st.bump.2.bump else ([], st.bump.2.err .expectedGt)).2.err .spaceAfterGt).skipWs
          else ([], (if st.bump.2.peek = .gt then st.bump.2.bump else ([], st.bump.2.err .expectedGt)).2)).2.peek := by
        by_cases hp : st.bump.2.peek = .gt
        · simp only [if_pos hp]
          split
          · exact not_closer_after hl hg1 hp rfl
          · rename_i hnw
            refine not_closer_after hl hg1 hp ?_
            rw [skipWs_id]
            exact fun hw => hnw (.inl hw)
        · simp only [if_neg hp]
          split
          · exact hgt _
          · rename_i hnw
            have := hgt (st.bump.2.err .expectedGt).errors
            change ¬ Closer (St.skipWs (st.bump.2.err .expectedGt)).2.peek at this
            rw [skipWs_id (fun hw => hnw (.inl hw))] at this
            exact this
      have h5 := iAtom _ s _ hg3 (fun hc => hn (closes_closer hc)) h4
      exact Deep.node (by simp) (Deep.trans hg (Deep.trans hg (h1.trans hg h2) h3) h5)
    · intro st s r hg hn h
      rw [Cst.parseAtom.eq_def] at h
      simp only [Option.bind_eq_bind] at h
      split at h
      · rename_i hk
        simp only [Option.bind_eq_some_iff, Prod.exists, Option.some.injEq] at h
        obtain ⟨g2, st2, h2, rfl⟩ := h
        have hg1 : Good source st.bump.2 := by
          obtain ⟨ts, e⟩ := st
          cases ts with
          | nil => exact hg
          | cons t ts => exact good_suffix (pre := [t]) hg rfl
        obtain ⟨e1, e2⟩ := iEntries _ _ (.brace :: s) _ hg1 (.inr ⟨rfl, s, rfl⟩) h2
        have e2' : st2.peek = .eof ∨ st2.peek = .rbrace := by
          rcases e2 with e | e
          · exact .inl e
          · exact .inr (by simpa using e.symm)
        have hid : st2.skipTrivia = ([], st2) := by
          apply skipTrivia_id
          rcases e2' with e | e <;> rw [e] <;> rfl
        rw [hid]
        have := bracket_deep (k := .OBJECT) (kc := .rbrace) (st2 := st2.err .unclosedObject) hg (.inl rfl) hk
          (.inl ⟨rfl, rfl, rfl⟩) e1 e2' rfl
        simpa using this
      · rename_i hk
        simp only [Option.bind_eq_some_iff, Prod.exists, Option.some.injEq] at h
        obtain ⟨g2, st2, h2, rfl⟩ := h
        have hg1 : Good source st.bump.2 := by
          obtain ⟨ts, e⟩ := st
          cases ts with
          | nil => exact hg
          | cons t ts => exact good_suffix (pre := [t]) hg rfl
        obtain ⟨e1, e2⟩ := iItems _ (.paren :: s) _ hg1 ⟨s, rfl⟩ h2
        exact bracket_deep (k := .SEQUENCE) (kc := .rparen) (st2 := st2) hg (.inr rfl) hk
          (.inr ⟨rfl, rfl, rfl⟩) e1 e2 rfl
      · rename_i hk
        cases h
        exact Deep.node (by simp) (bump_deep (by simp [hk]) (by rw [hk]; rfl))
      · rename_i hk
        obtain ⟨ts, e⟩ := st
        cases ts with
        | nil => simp [St.peek] at hk
        | cons t ts =>
          have htk : t.kind = .tag := by simpa [St.peek] using hk
          simp only [Option.bind_eq_some_iff, Prod.exists, Option.some.injEq] at h
          obtain ⟨g, st1, h1, rfl⟩ := h
          refine tag_deep t ts e st1 g s htk (by have := good_text hg t (by simp); rwa [htk] at this) ?_
          split at h1
          · rename_i hp
            simp only [Option.bind_eq_some_iff, Prod.exists, Option.some.injEq, Prod.mk.injEq] at h1
            obtain ⟨g', st', h1, rfl, rfl⟩ := h1
            refine Deep.node (by simp) (iAtom _ s _ (good_suffix (pre := [t]) hg rfl) ?_ h1)
            intro hc
            cases ts with
            | nil => simp [St.payloadFollows] at hp
            | cons u us =>
              rcases closes_closer hc with h | h <;> simp [St.peek] at h <;> simp [St.payloadFollows, h] at hp
          · cases h1; exact Deep.refl rfl
      · rename_i hk
        cases h
        exact Deep.node (by simp) (bump_deep (by simp [hk]) (by rw [hk]; rfl))
      · rename_i hk
        cases h
        exact Deep.node (by simp) (bump_deep (by simp [hk]) (by rw [hk]; rfl))
      · rename_i hk
        cases h
        exact Deep.node (by simp) (bump_deep (by simp [hk]) (by rw [hk]; rfl))
      · rename_i hk
        cases h
        exact heredoc_deep s hg hk
      · rename_i h1 h2 h3 h4 _ _ _ _
        cases h
        refine (bump_deep (st := st.err (.unexpected st.peek)) (s := s) (by simpa [St.err, St.peek] using h4) ?_).congr rfl rfl
        refine flat_of (by simpa [St.err, St.peek] using hn) ?_
        rintro (ho | ho)
        · exact h1 (by simpa [St.err, St.peek] using ho)
        · exact h2 (by simpa [St.err, St.peek] using ho)
    · intro st s r hg hs h
      rw [parseItems] at h
      simp only [Option.bind_eq_bind] at h
      have h0 := skipTrivia_deep s hg
      split at h
      · rename_i he
        cases h
        exact ⟨h0.congr rfl rfl, .inl (by simpa [St.atEof, St.err, St.peek] using he)⟩
      · split at h
        · rename_i hp
          cases h
          exact ⟨h0, .inr hp⟩
        · rename_i hp
          simp only [Option.bind_eq_some_iff, Prod.exists, Option.some.injEq] at h
          obtain ⟨g2, st2, h2, g4, st4, h4, rfl⟩ := h
          have hn : ¬ Closes s st.skipTrivia.2.peek := by
            obtain ⟨q, rfl⟩ := hs
            rintro (⟨_, r, h⟩ | ⟨h, -⟩)
            · cases h
            · exact hp h
          have e1 := h0.trans hg (((iAtom _ s _ (h0.good hg) hn h2).node (k := .KEY) (by simp)).node (k := .ENTRY) (by simp))
          have e2 := e1.trans hg (skipWs_deep s (e1.good hg))
          have e3 := iItems _ s _ (e2.good hg) hs h4
          exact ⟨e2.trans hg e3.1, e3.2⟩

/-- The leaves of the tree of a source are those of its tokens, with the brackets open around them. -/
theorem parse_marked (source : List Char) (hl : ¬ LooseGt (tokenize source)) :
    ∃ e, Marked [] (tokenize source ++ e) (leavesAt 0 (Cst.parse source).green) ∧ ∀ t ∈ e, t.text = [] := by
  obtain ⟨g, st, h1, h2, -, h4⟩ := parse_spec source
  have hg : Good source ⟨tokenIter source, []⟩ := ⟨[], rfl⟩
  obtain ⟨⟨pre, k1, k2, -⟩, -⟩ := (allDeep source hl _).1 none _ [] _ hg (.inl ⟨rfl, rfl⟩) h1
  have he : leavesAt 0 (Cst.parse source).green = leavesAtL 0 g := by
    rw [h2]
    simp [leavesAt]
  rw [he]
  have hk : st.peek = .eof := by simpa [St.atEof] using h4
  have k1' : tokenize source ++ [⟨.eof, utf8Len source, utf8Len source, []⟩] = pre ++ st.toks := k1
  rcases good_eof (good_suffix hg k1) hk with h | ⟨t, h, ht⟩
  · rw [h, List.append_nil] at k1'
    exact ⟨[⟨.eof, utf8Len source, utf8Len source, []⟩], by rw [k1']; exact k2, by simp⟩
  · rw [h] at k1'
    obtain ⟨k3, -⟩ := List.append_inj_left' k1' rfl |> fun h => And.intro h trivial
    exact ⟨[], by rw [List.append_nil, k3]; exact k2, by simp⟩

theorem Marked.split {s : List Bracket} {a b : List Token} {ls : List Leaf} (h : Marked s (a ++ b) ls) :
    ∃ la lb, ls = la ++ lb ∧ Marked s a la ∧ Marked (openAfter s a) b lb := by
  induction a generalizing s ls with
  | nil => exact ⟨[], ls, rfl, .nil, h⟩
  | cons t a ih =>
    cases h with
    | cons h1 h2 h3 h4 =>
      obtain ⟨la, lb, rfl, k1, k2⟩ := ih h4
      exact ⟨_, lb, (List.append_assoc ..).symm, .cons h1 h2 h3 k1, k2⟩

theorem tokenLeaves_text {t : Token} {kl : List (SyntaxKind × List Char)} (h : TokenLeaves t kl) :
    (kl.map (·.2)).flatten = t.text := by
  cases h with
  | one => simp
  | chain n ns _ h =>
    rw [h]
    simp only [List.map_cons, List.flatten_cons]
    congr 1
    clear h
    rename_i h1 h2
    clear h1 h2
    induction ns with
    | nil => rfl
    | cons m ns ih =>
      rw [List.map_cons, List.flatten_cons, List.map_append, List.flatten_append, ih]
      simp

theorem tokenLeaves_head {t : Token} {kl : List (SyntaxKind × List Char)} (h : TokenLeaves t kl) (ht : t.text ≠ []) :
    ∃ k c r kl', kl = (k, c :: r) :: kl' := by
  cases h with
  | one =>
    obtain ⟨c, r, h⟩ := List.exists_cons_of_ne_nil ht
    exact ⟨_, c, r, [], by rw [h]⟩
  | chain n ns => exact ⟨_, _, _, _, rfl⟩

/-- The text of leaves. -/
def leavesText (l : List Leaf) : List Char := (l.map Leaf.text).flatten

theorem marked_text {s : List Bracket} {ts : List Token} {ls : List Leaf} (h : Marked s ts ls) :
    leavesText ls = ts.flatMap (·.text) := by
  induction h with
  | nil => rfl
  | cons h1 h2 _ _ ih =>
    have := tokenLeaves_text h1
    rw [← h2, List.map_map] at this
    rw [leavesText, List.map_append, List.flatten_append, List.flatMap_cons]
    congr 1

theorem touching_before {o p : Nat} {l r : List Leaf} (h : p + utf8Len (leavesText l) < o) :
    touching o p (l ++ r) = touching o (p + utf8Len (leavesText l)) r := by
  induction l generalizing p with
  | nil => rfl
  | cons x l ih =>
    have h' : p + utf8Len (leavesText (x :: l)) = p + utf8Len x.text + utf8Len (leavesText l) := by
      simp [leavesText, utf8Len_append]; omega
    rw [h'] at h ⊢
    rw [List.cons_append, touching, if_neg (by omega), ih h]

theorem touching_after {o p : Nat} {l : List Leaf} (h : o < p) : touching o p l = [] := by
  induction l generalizing p with
  | nil => rfl
  | cons x l ih =>
    rw [touching, if_neg (by omega), ih (by omega)]

theorem touching_empty {o p : Nat} {l : List Leaf} (h : ∀ x ∈ l, x.text = []) : touching o p l = [] := by
  induction l generalizing p with
  | nil => rfl
  | cons x l ih =>
    rw [touching, if_neg (by simp [h x]), ih (fun y hy => h y (by simp [hy]))]

theorem touching_in {o p : Nat} {l r : List Leaf} (h1 : p < o) (h2 : o ≤ p + utf8Len (leavesText l)) :
    ∃ x stop more, x ∈ l ∧ touching o p (l ++ r) = (x, stop) :: more := by
  induction l generalizing p with
  | nil => simp [leavesText] at h2; omega
  | cons x l ih =>
    have h' : p + utf8Len (leavesText (x :: l)) = p + utf8Len x.text + utf8Len (leavesText l) := by
      simp [leavesText, utf8Len_append]; omega
    rw [h'] at h2
    rw [List.cons_append, touching]
    by_cases ho : o ≤ p + utf8Len x.text
    · have hx : x.text ≠ [] := by
        intro hx
        rw [hx] at ho
        simp at ho
        omega
      rw [if_pos ⟨hx, by omega, ho⟩]
      exact ⟨x, _, _, by simp, rfl⟩
    · rw [if_neg (by omega)]
      obtain ⟨y, stop, more, h3, h4⟩ := ih (by omega) h2
      exact ⟨y, stop, more, by simp [h3], h4⟩

theorem isCloser_ofToken {k : TokenKind} : isCloser (SyntaxKind.ofToken k) = true ↔ Closer k := by
  cases k <;> simp [isCloser, SyntaxKind.ofToken, Closer]

theorem afterToken_other {s : List Bracket} {k : TokenKind} (h : ¬ Closer k) : s.length ≤ (afterToken s k).length := by
  cases k <;> simp [afterToken, Closer] at h ⊢

theorem afterToken_le {s : List Bracket} {k : TokenKind} (h : ¬ Opener k) : (afterToken s k).length ≤ s.length := by
  unfold afterToken
  split <;> (try split) <;> simp [Opener] at h ⊢

theorem closer_effect {s : List Bracket} {t : Token} (hc : Closer t.kind) (h : openAfter s [t] ≠ s) :
    max s.length (afterToken s t.kind).length - 1 = (openAfter s [t]).length := by
  change afterToken s t.kind ≠ s at h
  change _ = (afterToken s t.kind).length
  rcases hc with hc | hc <;> rw [hc] at h ⊢ <;> rcases s with _ | ⟨_ | _, s⟩ <;> simp [afterToken] at h ⊢

theorem next_heredoc_none (t : Tok) (h1 : t.next.1.kind ≠ .heredocStart) (h2 : t.next.1.kind ≠ .heredocContent) :
    t.next.2.heredoc = none := by
  revert h1 h2
  refine next_ind t (fun x => x.1.kind ≠ .heredocStart → x.1.kind ≠ .heredocContent → x.2.heredoc = none) ?_ ?_ ?_ ?_ ?_
    ?_ ?_ ?_ ?_ ?_ ?_ ?_ ?_ ?_ ?_
  case refine_1 =>
    intro h _
    unfold Tok.heredocContent
    split
    · exact fun _ _ => rfl
    · split
      · exact fun _ h => absurd rfl h
      · exact fun _ _ => rfl
  case refine_4 =>
    intro cs _ _
    unfold Tok.atOrTag
    split
    · split <;> exact fun _ _ => rfl
    · exact fun _ _ => rfl
  case refine_9 =>
    intro d ds _ _ _
    unfold Tok.heredocStart
    simp only
    split
    · exact fun _ _ => rfl
    · exact fun h _ => absurd rfl h
  case refine_11 =>
    intro cs _ _ _
    unfold Tok.rawString
    simp only
    split
    · split <;> exact fun _ _ => rfl
    · exact fun _ _ => rfl
  all_goals
    intros
    rfl

theorem run_after {n : Nat} : ∀ {T : Tok} {pre : List Token} {t u : Token} {post : List Token},
    Tok.run n T = pre ++ t :: u :: post → t.kind ≠ .heredocStart → t.kind ≠ .heredocContent → u.text ≠ [] := by
  induction n with
  | zero =>
    intro T pre t u post h
    simp [Tok.run] at h
  | succ n ih =>
    intro T pre t u post h h1 h2
    rw [Tok.run] at h
    simp only at h
    split at h
    · simp at h
    · cases pre with
      | cons x pre =>
        simp only [List.cons_append, List.cons.injEq] at h
        exact ih h.2 h1 h2
      | nil =>
        simp only [List.nil_append, List.cons.injEq] at h
        obtain ⟨rfl, h⟩ := h
        have hn := next_heredoc_none T h1 h2
        cases n with
        | zero => simp [Tok.run] at h
        | succ n =>
          rw [Tok.run] at h
          simp only at h
          split at h
          · simp at h
          · rename_i hk
            simp only [List.cons.injEq] at h
            rw [← h.1]
            exact next_none_text hn hk

theorem after_closer_text {source : List Char} {pre post : List Token} {t u : Token}
    (h : tokenize source = pre ++ t :: u :: post) (hc : Closer t.kind) : u.text ≠ [] :=
  run_after h (by rcases hc with h | h <;> rw [h] <;> simp) (by rcases hc with h | h <;> rw [h] <;> simp)

/-- The depth after a token. -/
theorem nesting_after {source : List Char} (hl : ¬ LooseGt (tokenize source)) {pre post : List Token} {t : Token}
    (h : tokenize source = pre ++ t :: post) {offset : Nat} (h1 : utf8Len (pre.flatMap (·.text)) < offset)
    (h2 : offset ≤ utf8Len (pre.flatMap (·.text)) + utf8Len t.text)
    (hc : Closer t.kind → (∀ u ∈ post.head?, ¬ Opener u.kind) ∧
      (post = [] → openAfter [] (pre ++ [t]) ≠ openAfter [] pre)) :
    nestingDepth (Cst.parse source).green offset = (openAfter [] (pre ++ [t])).length := by
  obtain ⟨e, hm, he⟩ := parse_marked source hl
  have hne : ∀ u ∈ tokenize source, u.kind ≠ .eof := fun u hu => (tokenize_kind source u hu).2
  have hkt : ∀ u ∈ tokenize source, KindText u.kind u.text := fun u hu => (tokenize_kind source u hu).1
  rw [h, List.append_assoc] at hm
  obtain ⟨la, lb, hls, hma, hmb⟩ := hm.split
  rw [openAfter_append]
  generalize hs : openAfter [] pre = s at *
  have hta := marked_text hma
  rw [List.cons_append] at hmb
  cases hmb with
  | @cons _ _ _ kl l ls k1 k2 k3 k4 =>
    have k3 := k3 (hne t (by simp [h]))
    have htl : leavesText l = t.text := by
      have := tokenLeaves_text k1
      rwa [← k2, List.map_map] at this
    unfold nestingDepth
    rw [hls, touching_before (by rw [hta]; omega), hta, Nat.zero_add]
    by_cases hct : Closer t.kind
    · have hkl : ∃ x, l = [x] ∧ isCloser x.kind = true ∧ utf8Len x.text = 1 ∧ x.text ≠ [] := by
        have htt : utf8Len t.text = 1 ∧ t.text ≠ [] := by
          have := hkt t (by simp [h])
          rcases hct with hk | hk <;> rw [hk] at this <;>
            exact ⟨by rw [show t.text = _ from this]; rfl, by rw [show t.text = _ from this]; simp⟩
        cases k1 with
        | one =>
          cases l with
          | nil => cases k2
          | cons x l =>
            have hn : l = [] := by simpa using congrArg List.length k2
            subst hn
            simp only [List.map_cons, List.map_nil, List.cons.injEq, Prod.mk.injEq, and_true] at k2
            exact ⟨x, rfl, by rw [k2.1]; exact isCloser_ofToken.2 hct, by rw [k2.2]; exact htt.1, by rw [k2.2]; exact htt.2⟩
        | chain n ns hk =>
          rw [hk] at hct
          rcases hct with h | h <;> cases h
      obtain ⟨x, rfl, hx, hx1, hx0⟩ := hkl
      have htx : utf8Len t.text = 1 := by rw [← htl]; simpa [leavesText] using hx1
      obtain ⟨hc1, hc2⟩ := hc hct
      have ho : offset = utf8Len (pre.flatMap (·.text)) + 1 := by omega
      subst ho
      rw [List.singleton_append, touching, hx1, if_pos ⟨hx0, by omega, by omega⟩]
      cases post with
      | nil =>
        rw [touching_empty]
        · have hd := k3 x (by simp)
          have hc2 := hc2 rfl
          rw [openAfter_append, hs] at hc2
          simp only [hx, true_and, if_true]
          rw [hd]
          exact closer_effect hct hc2
        · intro y hy
          have hmt := marked_text k4
          have he0 : (e.flatMap fun x => x.text) = [] := by
            rw [List.flatMap_eq_nil_iff]; exact he
          simp only [List.nil_append] at hmt
          rw [he0, leavesText, List.flatten_eq_nil_iff] at hmt
          exact hmt _ (List.mem_map_of_mem hy)
      | cons u post =>
        rw [List.cons_append] at k4
        have hu := after_closer_text h hct
        cases k4 with
        | @cons _ _ _ ku lu lsu m1 m2 m3 m4 =>
          obtain ⟨k, c, r, kl', hku⟩ := tokenLeaves_head m1 hu
          cases lu with
          | nil => rw [hku] at m2; cases m2
          | cons y lu =>
            rw [hku, List.map_cons, List.cons.injEq, Prod.mk.injEq] at m2
            have hyt := m2.1.2
            rw [List.cons_append, touching, if_pos ⟨by rw [hyt]; simp, by omega, by omega⟩]
            simp only [hx, if_true]
            rw [m3 (hne u (by simp [h])) y (by simp)]
            have := afterToken_le (s := afterToken s t.kind) (hc1 u (by simp))
            exact Nat.max_eq_left this
    · obtain ⟨x, stop, more, hx, h3⟩ := touching_in (r := ls) h1 (by rw [htl]; exact h2)
      rw [h3]
      have hk : isCloser x.kind = false := by
        cases hcx : isCloser x.kind with
        | false => rfl
        | true =>
          exfalso
          have hmem : (x.kind, x.text) ∈ kl := by rw [← k2]; exact List.mem_map_of_mem hx
          cases k1 with
          | one =>
            simp at hmem
            rw [hmem.1] at hcx
            exact hct (isCloser_ofToken.1 hcx)
          | chain n ns =>
            have : x.kind = .TAG_TOKEN ∨ x.kind = .SLASH := by
              rcases List.mem_cons.1 hmem with h | h
              · exact .inl (congrArg Prod.fst h)
              · obtain ⟨q, hq, h⟩ := List.mem_flatten.1 h
                obtain ⟨m, -, rfl⟩ := List.mem_map.1 hq
                rcases List.mem_cons.1 h with h | h
                · exact .inr (congrArg Prod.fst h)
                · exact .inl (congrArg Prod.fst (List.mem_singleton.1 h))
            rcases this with h | h <;> rw [h] at hcx <;> simp [isCloser] at hcx
      have hd : x.depth = (openAfter s [t]).length := by
        rw [k3 x hx]
        exact Nat.max_eq_right (afterToken_other hct)
      cases more with
      | nil => simp [hk, hd]
      | cons y more => simp [hk, hd]

end Styx.Lsp
