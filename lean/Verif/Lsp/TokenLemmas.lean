import Verif.Lsp.TokenSpec
import Verif.Lsp.Lemmas
import Verif.Props.Cst

/-!
# Lemmas on semantic tokens and highlighting (C40, C45)
-/

namespace Styx.Lsp

open Styx Styx.Spec Styx.Cst

/-! ## Encoding -/

theorem encodeLoop_decode (ts : List RawToken) : ∀ l c,
    (∀ t ∈ ts, NotAfter ⟨l, c, 0, 0, 0⟩ t) → ts.Pairwise NotAfter →
    ∃ enc, encodeLoop l c ts = some enc ∧
      decodeFrom l c enc = ts.map fun t => ⟨t.line, t.startChar, t.length, t.type, t.modifiers⟩ := by
  induction ts with
  | nil => intro l c _ _; exact ⟨[], rfl, rfl⟩
  | cons t ts ih =>
    intro l c h hp
    rw [List.pairwise_cons] at hp
    have ht : NotAfter ⟨l, c, 0, 0, 0⟩ t := h t (by simp)
    obtain ⟨enc, he, hd⟩ := ih t.line t.startChar (fun t' ht' => hp.1 t' ht') hp.2
    simp only [NotAfter] at ht
    simp only [encodeLoop, checkedSub, he]
    rw [if_pos (by omega)]
    by_cases hl : t.line = l
    · have hc : c ≤ t.startChar := by omega
      refine ⟨⟨0, t.startChar - c, t.length, t.type, t.modifiers⟩ :: enc, by simp [hc, hl], ?_⟩
      simp only [decodeFrom, if_true, List.map_cons, Nat.add_zero]
      rw [show c + (t.startChar - c) = t.startChar by omega, ← hl, hd]
    · have hne : t.line - l ≠ 0 := by omega
      refine ⟨_, by simp [hne]; rfl, ?_⟩
      simp only [decodeFrom, if_neg hne, List.map_cons]
      rw [show l + (t.line - l) = t.line by omega, hd]

/-! ## The sort leaves what is in order -/

theorem insertBy_id {α : Type} (le : α → α → Bool) (a : α) (l : List α) (h : ∀ b ∈ l, le a b = true) :
    insertBy le a l = a :: l := by
  cases l with
  | nil => rfl
  | cons b bs => simp [insertBy, h b (by simp)]

theorem sortBy_id {α : Type} (le : α → α → Bool) (l : List α)
    (h : l.Pairwise fun a b => le a b = true) : sortBy le l = l := by
  induction l with
  | nil => rfl
  | cons a as ih =>
    rw [List.pairwise_cons] at h
    rw [sortBy, ih h.2, insertBy_id _ _ _ h.1]

/-! ## The walk reports leaves, in order -/

/-- Some of the leaves, in order, as spans; `ok` says which types a kind may get. -/
inductive PickedS (ok : SyntaxKind → TokenType → Bool → Prop) :
    Nat → List (SyntaxKind × List Char) → List HlSpan → Prop
  | nil {off} : PickedS ok off [] []
  | skip {off l ls ts} : PickedS ok (off + utf8Len l.2) ls ts → PickedS ok off (l :: ls) ts
  | take {off l ls ts ty d} : ok l.1 ty d → PickedS ok (off + utf8Len l.2) ls ts →
      PickedS ok off (l :: ls) (⟨off, off + utf8Len l.2, ty, d⟩ :: ts)

variable {ok : SyntaxKind → TokenType → Bool → Prop}

theorem PickedS.none (ls : List (SyntaxKind × List Char)) : ∀ off, PickedS ok off ls [] := by
  induction ls with
  | nil => intro off; exact .nil
  | cons l ls ih => intro off; exact .skip (ih _)

theorem PickedS.append {a b xs ys} {off : Nat} (ha : PickedS ok off a xs)
    (hb : PickedS ok (off + utf8Len (a.flatMap (·.2))) b ys) : PickedS ok off (a ++ b) (xs ++ ys) := by
  induction ha with
  | nil => simpa [utf8Len] using hb
  | skip _ ih =>
    refine .skip (ih ?_)
    rw [List.flatMap_cons, utf8Len_append] at hb
    rw [Nat.add_assoc]; exact hb
  | take h _ ih =>
    refine .take h (ih ?_)
    rw [List.flatMap_cons, utf8Len_append] at hb
    rw [Nat.add_assoc]; exact hb

variable {act : Mode → SyntaxKind → Head → Act}

mutual
theorem collect_picked (hact : ∀ m p k ty d, act m p (.tok k) = .emit ty d → ok k ty d) :
    (g : Green) → ∀ m off, PickedS ok off (leaves g) (collect act m off g)
  | .token k t => fun m off => by simp only [collect]; exact .none _ _
  | .node k cs => fun m off => by simp only [collect, leaves]; exact collectL_picked hact cs m k off
theorem collectL_picked (hact : ∀ m p k ty d, act m p (.tok k) = .emit ty d → ok k ty d) :
    (gs : List Green) → ∀ m p off, PickedS ok off (leavesL gs) (collectL act m p off gs)
  | [] => fun m p off => by simp only [collectL, leavesL]; exact .nil
  | .token k t :: gs => fun m p off => by
    have ih := collectL_picked hact gs m p (off + utf8Len t)
    simp only [collectL, leavesL, leaves, List.singleton_append]
    split
    · rename_i ty d he
      exact .take (hact _ _ _ _ _ he) ih
    · exact .skip ih
  | .node k cs :: gs => fun m p off => by
    have ih := collectL_picked hact gs m p (off + utf8Len (Green.texts cs))
    simp only [collectL, leavesL]
    refine .append ?_ (by rw [Props.leaves_text]; exact ih)
    split
    · exact collect_picked hact (.node k cs) _ _
    · exact .none _ _
end

theorem PickedS.ge {off : Nat} {ls xs} (h : PickedS ok off ls xs) : ∀ x ∈ xs, off ≤ x.start := by
  induction h with
  | nil => simp
  | skip _ ih => intro x hx; have := ih x hx; omega
  | take _ _ ih =>
    intro x hx
    rw [List.mem_cons] at hx
    rcases hx with rfl | hx
    · exact Nat.le_refl _
    · have := ih x hx; omega

theorem PickedS.sorted {off : Nat} {ls xs} (h : PickedS ok off ls xs) :
    xs.Pairwise fun a b => decide (a.start ≤ b.start) = true := by
  induction h with
  | nil => exact .nil
  | skip _ ih => exact ih
  | take _ h ih =>
    refine .cons (fun b hb => ?_) ih
    have := h.ge b hb
    simp; omega

/-! ## Positions of the tokens -/

theorem lineColumn_advance (before : List Char) :
    advance ⟨0, 0⟩ before = ⟨(lineColumn before).1, (lineColumn before).2⟩ := by
  have key : ∀ b : List Char, advance ⟨0, 0⟩ b.reverse =
      ⟨b.reverse.count '\n', (b.takeWhile (· != '\n')).length⟩ := by
    intro b
    induction b with
    | nil => rfl
    | cons c cs ih =>
      rw [List.reverse_cons, advance_append, ih]
      simp only [advance, step]
      by_cases hc : c = '\n'
      · subst hc; simp
      · simp [hc]
  have := key before.reverse
  simpa [lineColumn] using this

/-- What the editor sees of a raw token. -/
def seen (t : RawToken) : EdToken := ⟨t.line, t.startChar, t.length, t.type, t.modifiers⟩

theorem PickedS.raw {ls xs} {off : Nat}
    (hok : ∀ k ty d, ok k ty d → (ty.code, if d then 1 else 0) ∈ typeOf k)
    (h : PickedS ok off ls xs) (content : List Char) :
    ∀ before, off = utf8Len before → content = before ++ ls.flatMap (·.2) →
      Picked before ls ((xs.map (rawToken content)).map seen) ∧
      (∀ t ∈ xs.map (rawToken content),
        NotAfter ⟨(lineColumn before).1, (lineColumn before).2, 0, 0, 0⟩ t) ∧
      (xs.map (rawToken content)).Pairwise NotAfter := by
  have mono : ∀ (before more : List Char) (t : RawToken),
      NotAfter ⟨(lineColumn (before ++ more)).1, (lineColumn (before ++ more)).2, 0, 0, 0⟩ t →
      NotAfter ⟨(lineColumn before).1, (lineColumn before).2, 0, 0, 0⟩ t := by
    intro before more t h
    have e1 := lineColumn_advance before
    have e2 := lineColumn_advance (before ++ more)
    rw [advance_append, e1] at e2
    have := advance_le more ⟨(lineColumn before).1, (lineColumn before).2⟩
    rw [e2] at this
    simp only [NotAfter] at *
    omega
  induction h with
  | nil => intro before _ _; exact ⟨.nil, by simp, .nil⟩
  | @skip off l ls ts _ ih =>
    intro before ho hc
    obtain ⟨h1, h2, h3⟩ := ih (before ++ l.2) (by rw [utf8Len_append, ho]) (by simp [hc])
    exact ⟨.skip h1, fun t ht => mono _ _ _ (h2 t ht), h3⟩
  | @take off l ls ts ty d hk _ ih =>
    intro before ho hc
    obtain ⟨h1, h2, h3⟩ := ih (before ++ l.2) (by rw [utf8Len_append, ho]) (by simp [hc])
    have hr : rawToken content ⟨off, off + utf8Len l.2, ty, d⟩ =
        ⟨(lineColumn before).1, (lineColumn before).2, utf8Len l.2, ty.code, if d then 1 else 0⟩ := by
      simp only [rawToken, ho, hc, offsetToPosition_eq, lineColumn_advance]
      congr 1; omega
    simp only [List.map_cons, hr]
    refine ⟨.take (hok _ _ _ hk) h1, ?_, ?_⟩
    · intro t ht
      rw [List.mem_cons] at ht
      rcases ht with rfl | ht
      · exact .inr ⟨rfl, Nat.le_refl _⟩
      · exact mono _ _ _ (h2 t ht)
    · refine .cons (fun t ht => ?_) h3
      exact mono _ _ _ (h2 t ht)

/-! ## The types -/

theorem commonChild_ok {b : Bool} {p k : SyntaxKind} {ty : TokenType} {d : Bool}
    (h : commonChild b p (.tok k) = .emit ty d) :
    (ty.code, if d then 1 else 0) ∈ typeOf k := by
  unfold commonChild at h
  split at h <;> try (cases h; done)
  all_goals try (rename_i he; cases he; cases h; decide)
  rename_i he
  cases he
  split at h
  · cases h; cases k <;> first | decide | (rename_i hk; cases hk)
  · cases h

theorem otherChild_ok {b : Bool} {k : SyntaxKind} {ty : TokenType} {d : Bool}
    (h : otherChild b (.tok k) = .emit ty d) : (ty.code, if d then 1 else 0) ∈ typeOf k := by
  unfold otherChild at h
  split at h <;> try (cases h; done)
  all_goals (rename_i he; cases he; cases h; decide)

theorem innerChild_ok {m : Mode} {k : SyntaxKind} {ty : TokenType} {d : Bool}
    (h : innerChild m (.tok k) = .emit ty d) : (ty.code, if d then 1 else 0) ∈ typeOf k := by
  unfold innerChild at h
  split at h <;> try (cases h; done)
  all_goals try (rename_i he; cases he; cases h; decide)
  rename_i inSeq k' he
  cases he
  split at h
  · cases h; cases inSeq <;> cases k <;> first | decide | (rename_i hk; cases hk)
  · cases h

/-- The types of `tokenChild`. -/
theorem tokenChild_ok (m : Mode) (p k : SyntaxKind) (ty : TokenType) (d : Bool)
    (h : tokenChild m p (.tok k) = .emit ty d) :
    (ty.code, if d then 1 else 0) ∈ typeOf k := by
  unfold tokenChild at h
  split at h
  · rename_i inSeq
    split at h <;> try (cases h; done)
    all_goals first
      | exact commonChild_ok h
      | exact otherChild_ok h
      | skip
    all_goals first
      | (rename_i he; cases he; done)
      | (rename_i he; cases he; cases h; decide)
      | (split at h
         · cases h; cases inSeq <;> cases k <;> first | decide | (rename_i hk; cases hk)
         · cases h)
      | (rename_i he; cases he
         split at h
         · cases h; cases inSeq <;> cases k <;> first | decide | (rename_i hk; cases hk)
         · cases h)
      | skip
  · exact innerChild_ok h

theorem pickedS_tokens (g : Green) :
    PickedS (fun k ty d => (ty.code, if d then 1 else 0) ∈ typeOf k) 0 (leaves g)
      (collect tokenChild (.walk false) 0 g) :=
  collect_picked tokenChild_ok g _ _

theorem computeSemanticTokens_picked (g : Green) :
    ∃ enc, computeSemanticTokens g = some enc ∧ Picked [] (leaves g) (decode enc) := by
  obtain ⟨h1, h2, h3⟩ := (pickedS_tokens g).raw (fun _ _ _ h => h) g.text [] rfl
    (by simp [Props.leaves_text])
  have hs : sortBy RawToken.le (rawTokens g) = rawTokens g := by
    apply sortBy_id
    refine h3.imp fun {a b} h => ?_
    simp only [NotAfter] at h
    simp only [RawToken.le, Bool.or_eq_true, decide_eq_true_eq, Bool.and_eq_true, beq_iff_eq]
    exact h
  obtain ⟨enc, he, hd⟩ := encodeLoop_decode (rawTokens g) 0 0 h2 h3
  refine ⟨enc, by rw [computeSemanticTokens, hs]; exact he, ?_⟩
  rw [decode, hd]
  exact h1

/-! ## Highlighting -/

theorem Coloured.refl (s : List Char) : Coloured s s := by
  induction s with
  | nil => exact .nil
  | cons c cs ih => exact .plain c ih

theorem Coloured.append_plain (s : List Char) {t o : List Char} (h : Coloured t o) : Coloured (s ++ t) (s ++ o) := by
  induction s with
  | nil => exact h
  | cons c cs ih => exact .plain c ih

theorem dropBytes_app (a b : List Char) : Styx.dropBytes (utf8Len a) (a ++ b) = some b := by
  induction a with
  | nil => simp [utf8Len, Styx.dropBytes]
  | cons c cs ih =>
    have hc := utf8Size_pos' c
    obtain ⟨k, hk⟩ : ∃ k, utf8Len (c :: cs) = k + 1 := ⟨utf8Len (c :: cs) - 1, by simp [utf8Len]; omega⟩
    have hk2 : k + 1 = c.utf8Size + utf8Len cs := by rw [← hk]; rfl
    rw [hk, List.cons_append, Styx.dropBytes, if_pos (by omega)]
    rw [show k + 1 - c.utf8Size = utf8Len cs by omega, ih]

theorem sliceBytes_append (a b c : List Char) :
    sliceBytes (a ++ b ++ c) (utf8Len a) (utf8Len a + utf8Len b) = some b := by
  rw [sliceBytes, if_pos (by omega), List.append_assoc, dropBytes_app]
  simp [takeBytes_app]

theorem ansiColor_mem (ty : TokenType) (d : Bool) : ansiColor ty d ∈ colours := by
  cases ty <;> cases d <;> decide

theorem highlightLoop_coloured {off : Nat} {ls xs} (h : PickedS ok off ls xs) (source : List Char) :
    ∀ a mid, source = a ++ mid ++ ls.flatMap (·.2) → off = utf8Len (a ++ mid) →
      ∃ out, highlightLoop source (utf8Len a) xs = some out ∧
        Coloured (mid ++ ls.flatMap (·.2)) out := by
  induction h with
  | nil =>
    intro a mid hs _
    simp only [List.flatMap_nil, List.append_nil] at hs ⊢
    subst hs
    refine ⟨mid, ?_, Coloured.refl _⟩
    simp only [highlightLoop]
    split
    · exact dropBytes_app a mid
    · rename_i hlt
      rw [utf8Len_append] at hlt
      have : mid = [] := utf8Len_eq_zero (by omega)
      rw [this]
  | @skip off l ls ts _ ih =>
    intro a mid hs ho
    obtain ⟨out, h1, h2⟩ := ih a (mid ++ l.2) (by simp [hs]) (by simp [ho]; omega)
    refine ⟨out, h1, ?_⟩
    simpa using h2
  | @take off l ls ts ty d hk _ ih =>
    intro a mid hs ho
    obtain ⟨out, h1, h2⟩ := ih (a ++ mid ++ l.2) [] (by simp [hs]) (by simp [ho]; omega)
    have hplain : (if off > utf8Len a then sliceBytes source (utf8Len a) off else some []) = some mid := by
      split
      · rw [ho, utf8Len_append, hs, sliceBytes_append]
      · rename_i hlt
        rw [ho, utf8Len_append] at hlt
        have : mid = [] := utf8Len_eq_zero (by omega)
        rw [this]
    have htext : sliceBytes source off (off + utf8Len l.2) = some l.2 := by
      rw [hs, ho, List.flatMap_cons, ← List.append_assoc, sliceBytes_append]
    have hrest : utf8Len (a ++ mid ++ l.2) = off + utf8Len l.2 := by rw [utf8Len_append, ho]
    rw [hrest] at h1
    refine ⟨mid ++ ansiColor ty d ++ l.2 ++ reset ++ out, ?_, ?_⟩
    · simp only [highlightLoop, hplain, htext, h1]
      rfl
    · have h3 := Coloured.append_plain mid (Coloured.colour _ l.2 (ansiColor_mem ty d) h2)
      simpa [reset, esc] using h3

theorem shownFrom_escape (k t : List Char) (hk : k ∈ colours ∨ k = [Char.ofNat 27, '[', '0', 'm']) :
    shownFrom false (k ++ t) = shownFrom false t := by
  rcases hk with hk | rfl
  · simp only [colours, List.map_cons, List.map_nil, List.mem_cons, List.not_mem_nil, or_false] at hk
    rcases hk with rfl | rfl | rfl | rfl | rfl | rfl | rfl <;> rfl
  · rfl

theorem shownFrom_plain (s t : List Char) (h : Char.ofNat 27 ∉ s) :
    shownFrom false (s ++ t) = s ++ shownFrom false t := by
  induction s with
  | nil => rfl
  | cons c cs ih =>
    simp only [List.mem_cons, not_or] at h
    have hc : c ≠ Char.ofNat 27 := fun e => h.1 e.symm
    simp only [List.cons_append, shownFrom, Bool.false_eq_true, if_false, if_neg hc, ih h.2]

theorem Coloured.shown {s o : List Char} (h : Coloured s o) (hs : Char.ofNat 27 ∉ s) : shown o = s := by
  induction h with
  | nil => rfl
  | plain c _ ih =>
    simp only [List.mem_cons, not_or] at hs
    have := ih hs.2
    have hc : c ≠ Char.ofNat 27 := fun e => hs.1 e.symm
    simp only [Spec.shown, shownFrom, Bool.false_eq_true, if_false, if_neg hc] at this ⊢
    rw [this]
  | colour k t hk _ ih =>
    simp only [List.mem_append, not_or] at hs
    have := ih hs.2
    simp only [Spec.shown] at this ⊢
    rw [List.append_assoc, List.append_assoc, shownFrom_escape k _ (.inl hk), shownFrom_plain t _ hs.1,
      shownFrom_escape _ _ (.inr rfl), this]

end Styx.Lsp
