import Verif.Impl.Preserve

/-! # More fuel does not change the answer -/

namespace Styx.Impl

/-- The run `q` gives what `p` gives, unless `p` has no answer. -/
def Upto {α : Type} (p q : P α) : Prop := ∀ st, p st = .fuel ∨ p st = q st

theorem upto_refl {α : Type} (p : P α) : Upto p p := fun _ => .inr rfl

theorem upto_fuel {α : Type} (q : P α) : Upto outOfFuel q := fun _ => .inl rfl

theorem upto_bind {α β : Type} {p q : P α} {f g : α → P β} (h : Upto p q) (hf : ∀ a, Upto (f a) (g a)) :
    Upto (p >>= f) (q >>= g) := by
  intro st
  show P.bind p f st = .fuel ∨ P.bind p f st = P.bind q g st
  unfold P.bind
  rcases h st with h | h
  · rw [h]; exact .inl rfl
  · rw [← h]
    cases p st with
    | fuel => exact .inl rfl
    | fail e st' => exact .inr rfl
    | ok a st' => exact hf a st'

theorem upto_cur {α : Type} {f g : Tok → P α} (hf : ∀ a, Upto (f a) (g a)) : Upto (cur >>= f) (cur >>= g) :=
  upto_bind (upto_refl _) hf

theorem upto_drop (d : Dialect) {p q : P Value} (h : Upto p q) : Upto (dropResult d p) (dropResult d q) := by
  intro st
  unfold dropResult
  rcases h st with h | h
  · rw [h]; exact .inl rfl
  · rw [h]; exact .inr rfl

theorem upto_skipCommas (d : Dialect) (n : Nat) : Upto (skipCommas d n) (skipCommas d (n + 1)) := by
  induction n with
  | zero => exact upto_fuel _
  | succ n ih =>
    rw [skipCommas, skipCommas]
    refine upto_cur fun t => ?_
    split
    · exact upto_bind (upto_refl _) fun _ => ih
    · exact upto_refl _

theorem upto_skipToEnd (d : Dialect) (n : Nat) : Upto (skipToEnd d n) (skipToEnd d (n + 1)) := by
  induction n with
  | zero => exact upto_fuel _
  | succ n ih =>
    rw [skipToEnd, skipToEnd]
    refine upto_cur fun t => ?_
    split
    · exact upto_refl _
    · exact upto_bind (upto_refl _) fun _ => ih

theorem upto_all (d : Dialect) (n : Nat) : Upto (parseValue d n) (parseValue d (n + 1)) ∧
    Upto (parseTag d n) (parseTag d (n + 1)) ∧
    Upto (parseAttributeValue d n) (parseAttributeValue d (n + 1)) ∧
    (∀ k, Upto (parseAttrs d n k) (parseAttrs d (n + 1) k)) ∧
    Upto (parseObject d n) (parseObject d (n + 1)) ∧
    (∀ k, Upto (parseEntries d n k) (parseEntries d (n + 1) k)) ∧
    (∀ k, Upto (parseEntry d n k) (parseEntry d (n + 1) k)) ∧
    Upto (parseSequence d n) (parseSequence d (n + 1)) ∧
    Upto (parseItems d n) (parseItems d (n + 1)) := by
  induction n with
  | zero =>
    refine ⟨?_, ?_, ?_, fun _ => ?_, ?_, fun _ => ?_, fun _ => ?_, ?_, ?_⟩
    all_goals exact upto_fuel _
  | succ n ih =>
    obtain ⟨i1, i2, i3, i4, i5, i6, i7, i8, i9⟩ := ih
    refine ⟨?_, ?_, ?_, fun _ => ?_, ?_, fun _ => ?_, fun _ => ?_, ?_, ?_⟩
    · rw [parseValue, parseValue]
      refine upto_bind (upto_refl _) fun _ => upto_cur fun t => ?_
      split
      · exact upto_refl _
      · exact i2
      · exact upto_bind i5 fun _ => upto_refl _
      · exact upto_bind i8 fun _ => upto_refl _
      · refine upto_bind (upto_refl _) fun _ => upto_cur fun _ => ?_
        split
        · cases d with
          | python =>
            refine upto_bind (upto_refl _) fun _ => ?_
            split
            · exact upto_refl _
            · exact upto_bind (upto_refl _) fun _ => upto_bind (i4 _) fun _ => upto_refl _
          | javascript =>
            refine upto_bind (upto_refl _) fun _ => upto_cur fun _ => ?_
            split
            · exact upto_refl _
            · exact upto_bind (i4 _) fun _ => upto_refl _
          | go =>
            refine upto_bind (upto_refl _) fun _ => upto_cur fun _ => ?_
            split
            · exact upto_refl _
            · exact upto_bind (i4 _) fun _ => upto_refl _
        · exact upto_refl _
      · exact upto_refl _
    · rw [parseTag, parseTag]
      refine upto_cur fun _ => upto_bind (upto_refl _) fun _ => upto_cur fun _ => ?_
      split
      · exact upto_refl _
      · split
        · exact upto_bind i5 fun _ => upto_refl _
        · exact upto_bind i8 fun _ => upto_refl _
        all_goals exact upto_refl _
    · rw [parseAttributeValue, parseAttributeValue]
      refine upto_cur fun _ => ?_
      split
      · exact upto_bind i5 fun _ => upto_refl _
      · exact upto_bind i8 fun _ => upto_refl _
      · exact i2
      · exact upto_refl _
      · exact upto_refl _
    · rw [parseAttrs, parseAttrs]
      refine upto_bind i3 fun _ => upto_cur fun _ => ?_
      split
      · refine upto_bind (upto_refl _) fun _ => ?_
        split
        · refine upto_bind (upto_refl _) fun _ => upto_bind (upto_refl _) fun _ => upto_cur fun _ => ?_
          split
          · exact upto_refl _
          · exact upto_bind (i4 _) fun _ => upto_refl _
        · exact upto_refl _
      · exact upto_refl _
    · rw [parseObject, parseObject]
      exact upto_bind (upto_refl _) fun _ => upto_bind (i6 _) fun _ => upto_refl _
    · rw [parseEntries, parseEntries]
      refine upto_cur fun _ => ?_
      split
      · exact upto_refl _
      · refine upto_bind (i7 _) fun x => ?_
        obtain ⟨e, seen'⟩ := x
        refine upto_cur fun _ => ?_
        split
        · exact upto_bind (upto_refl _) fun _ => upto_bind (i6 _) fun _ => upto_refl _
        · exact upto_bind (i6 _) fun _ => upto_refl _
    · rw [parseEntry, parseEntry]
      refine upto_bind (upto_skipCommas d n) fun _ => upto_bind (upto_refl _) fun _ => upto_cur fun _ => ?_
      split
      · exact upto_refl _
      split
      · exact upto_refl _
      refine upto_bind i1 fun _ => upto_bind (upto_refl _) fun _ => upto_cur fun _ => ?_
      split
      · split
        · exact upto_refl _
        · exact upto_bind (upto_drop d i1) fun _ => upto_refl _
      split
      · simp only
        split
        · exact upto_refl _
        split
        · exact upto_refl _
        · exact upto_bind i1 fun _ => upto_refl _
      · simp only
        split
        · exact upto_refl _
        split
        · exact upto_refl _
        split
        · exact upto_refl _
        · exact upto_bind i1 fun _ => upto_refl _
    · rw [parseSequence, parseSequence]
      exact upto_bind (upto_refl _) fun _ => upto_bind i9 fun _ => upto_refl _
    · rw [parseItems, parseItems]
      refine upto_cur fun _ => ?_
      split
      · exact upto_refl _
      split
      · exact upto_refl _
      · exact upto_bind i1 fun _ => upto_bind i9 fun _ => upto_refl _

theorem upto_parseRootEntry (d : Dialect) (n : Nat) (ps : Paths) :
    Upto (parseRootEntry d n ps) (parseRootEntry d (n + 1) ps) := by
  have i1 := (upto_all d n).1
  rw [parseRootEntry, parseRootEntry]
  refine upto_bind (upto_skipCommas d n) fun _ => upto_bind (upto_refl _) fun _ => upto_cur fun _ => ?_
  split
  · exact upto_refl _
  split
  · exact upto_refl _
  refine upto_bind i1 fun _ => upto_bind (upto_refl _) fun _ => upto_cur fun _ => ?_
  split
  · split
    · exact upto_refl _
    · exact upto_bind (upto_drop d i1) fun _ => upto_refl _
  split
  · simp only
    split
    · exact upto_refl _
    · exact upto_bind i1 fun _ => upto_refl _
  split
  · exact upto_refl _
  · simp only
    split
    · exact upto_refl _
    · exact upto_bind i1 fun _ => upto_refl _

theorem upto_parseRootEntries (d : Dialect) (n : Nat) (ps : Paths) :
    Upto (parseRootEntries d n ps) (parseRootEntries d (n + 1) ps) := by
  induction n generalizing ps with
  | zero => exact upto_fuel _
  | succ n ih =>
    rw [parseRootEntries, parseRootEntries]
    refine upto_cur fun _ => ?_
    split
    · exact upto_refl _
    · refine upto_bind (upto_refl _) fun _ => upto_bind (upto_parseRootEntry d n ps) fun x => ?_
      obtain ⟨e, ps'⟩ := x
      exact upto_bind (ih _) fun _ => upto_refl _

theorem upto_parseDocument (d : Dialect) (n : Nat) : Upto (parseDocument d n) (parseDocument d (n + 1)) := by
  rw [parseDocument, parseDocument]
  refine upto_bind (upto_skipCommas d n) fun _ => upto_cur fun _ => ?_
  split
  · refine upto_bind (upto_all d n).2.2.2.2.1 fun _ => upto_bind (upto_skipCommas d n) fun _ => upto_cur fun _ => ?_
    split
    · exact upto_refl _
    · exact upto_bind (upto_skipToEnd d n) fun _ => upto_refl _
  · exact upto_parseRootEntries d n _

/-- An answer stays the answer with more fuel. -/
theorem parse_mono (d : Dialect) {n m : Nat} (h : n ≤ m) (s : List Char) {r : Except Err (List Entry)}
    (hr : parse d n s = some r) : parse d m s = some r := by
  induction h with
  | refl => exact hr
  | @step m _ ih =>
    rw [← ih]
    unfold parse at ih ⊢
    cases hn : nextToken d s with
    | error e => rfl
    | ok x =>
      rw [hn] at ih
      obtain ⟨t, u⟩ := x
      simp only at ih ⊢
      rcases upto_parseDocument d m ⟨t, none, u, none⟩ with h | h
      · rw [h] at ih; cases ih
      · rw [h]

end Styx.Impl
