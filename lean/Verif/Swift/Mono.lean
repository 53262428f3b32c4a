import Verif.Swift.Parser

/-! # More fuel does not change the answer of the Swift parser -/

namespace Styx.Swift

/-- The run `q` gives what `p` gives, unless `p` has no answer. -/
def Upto {α : Type} (p q : P α) : Prop := ∀ st, p st = .fuel ∨ p st = q st

theorem upto_refl {α : Type} (p : P α) : Upto p p := fun _ => .inr rfl

theorem upto_fuel {α : Type} (q : P α) : Upto outOfFuel q := fun _ => .inl rfl

theorem upto_bind {α β : Type} {p q : P α} {f g : α → P β} (h : Upto p q) (hf : ∀ a, Upto (f a) (g a)) :
    Upto (p >>= f) (q >>= g) := by
  intro st
  show P.bind p f st = .fuel ∨ P.bind p f st = P.bind q g st
  unfold P.bind
  rcases h st with h | h
  · rw [h]; exact .inl rfl
  · rw [← h]
    cases p st with
    | fuel => exact .inl rfl
    | fail e => exact .inr rfl
    | ok a st' => exact hf a st'

theorem upto_same {α β : Type} {p : P α} {f g : α → P β} (hf : ∀ a, Upto (f a) (g a)) :
    Upto (p >>= f) (p >>= g) := upto_bind (upto_refl _) hf

theorem upto_all (U : Classes) (n : Nat) : Upto (parseValue U n) (parseValue U (n + 1)) ∧
    Upto (parseTagged U n) (parseTagged U (n + 1)) ∧
    Upto (parseScalar U n) (parseScalar U (n + 1)) ∧
    Upto (parseAttrs U n) (parseAttrs U (n + 1)) ∧
    Upto (parseAttributeValue U n) (parseAttributeValue U (n + 1)) ∧
    Upto (parseObject U n) (parseObject U (n + 1)) ∧
    Upto (parseEntries U n) (parseEntries U (n + 1)) ∧
    Upto (parseSequence U n) (parseSequence U (n + 1)) ∧
    Upto (parseItems U n) (parseItems U (n + 1)) := by
  induction n with
  | zero =>
    refine ⟨?_, ?_, ?_, ?_, ?_, ?_, ?_, ?_, ?_⟩
    all_goals exact upto_fuel _
  | succ n ih =>
    obtain ⟨i1, i2, i3, i4, i5, i6, i7, i8, i9⟩ := ih
    refine ⟨?_, ?_, ?_, ?_, ?_, ?_, ?_, ?_, ?_⟩
    · rw [parseValue, parseValue]
      refine upto_same fun t => ?_
      split
      · exact upto_refl _
      · exact i2
      · exact upto_bind i6 fun _ => upto_refl _
      · exact upto_bind i8 fun _ => upto_refl _
      · exact upto_bind i3 fun _ => upto_refl _
      · exact upto_bind i3 fun _ => upto_refl _
      · exact upto_bind i3 fun _ => upto_refl _
      · exact upto_bind i3 fun _ => upto_refl _
      · exact upto_refl _
    · rw [parseTagged, parseTagged]
      refine upto_same fun _ => upto_same fun c => ?_
      split
      · refine upto_same fun name => ?_
        simp only
        split
        · exact upto_refl _
        · split
          · exact upto_refl _
          · refine upto_same fun p => ?_
            split
            · exact upto_bind i6 fun _ => upto_refl _
            · split
              · exact upto_bind i8 fun _ => upto_refl _
              · split
                · exact upto_bind i3 fun _ => upto_refl _
                · exact upto_refl _
      · exact upto_refl _
    · rw [parseScalar, parseScalar]
      refine upto_same fun _ => upto_same fun g => ?_
      split
      · refine upto_same fun _ => upto_same fun c => ?_
        split
        · exact upto_refl _
        · exact upto_bind i5 fun _ => upto_bind i4 fun _ => upto_refl _
      · exact upto_refl _
    · rw [parseAttrs, parseAttrs]
      refine upto_same fun t => ?_
      split
      · refine upto_same fun _ => upto_same fun g => ?_
        split
        · refine upto_same fun _ => upto_same fun c => ?_
          split
          · exact upto_refl _
          · exact upto_bind i5 fun _ => upto_bind i4 fun _ => upto_refl _
        · exact upto_refl _
      · exact upto_refl _
    · rw [parseAttributeValue, parseAttributeValue]
      refine upto_same fun t => ?_
      split
      · exact i2
      · exact upto_bind i6 fun _ => upto_refl _
      · exact upto_bind i8 fun _ => upto_refl _
      all_goals exact upto_refl _
    · rw [parseObject, parseObject]
      exact upto_same fun _ => upto_bind i7 fun _ => upto_refl _
    · rw [parseEntries, parseEntries]
      refine upto_same fun t => ?_
      split
      · exact upto_refl _
      · refine upto_bind i1 fun _ => upto_bind i1 fun _ => upto_same fun c => ?_
        split
        · exact upto_same fun _ => upto_bind i7 fun _ => upto_refl _
        · exact upto_bind i7 fun _ => upto_refl _
    · rw [parseSequence, parseSequence]
      exact upto_same fun _ => upto_bind i9 fun _ => upto_refl _
    · rw [parseItems, parseItems]
      refine upto_same fun t => ?_
      split
      · exact upto_refl _
      · split
        · exact upto_refl _
        · exact upto_bind i1 fun _ => upto_bind i9 fun _ => upto_refl _

theorem upto_parseRootEntry (U : Classes) (n : Nat) (ps : Paths) :
    Upto (parseRootEntry U n ps) (parseRootEntry U (n + 1) ps) := by
  have i1 := (upto_all U n).1
  rw [parseRootEntry, parseRootEntry]
  refine upto_bind i1 fun key => ?_
  split
  · exact upto_refl _
  · split
    · exact upto_refl _
    · split
      · split
        · exact upto_refl _
        · refine upto_same fun c => ?_
          split
          · exact upto_refl _
          · exact upto_bind i1 fun _ => upto_refl _
      · refine upto_same fun c => ?_
        split
        · exact upto_refl _
        · exact upto_bind i1 fun _ => upto_refl _

theorem upto_parseRootEntries (U : Classes) (n : Nat) (ps : Paths) :
    Upto (parseRootEntries U n ps) (parseRootEntries U (n + 1) ps) := by
  induction n generalizing ps with
  | zero => exact upto_fuel _
  | succ n ih =>
    rw [parseRootEntries, parseRootEntries]
    refine upto_same fun _ => ?_
    split
    · exact upto_refl _
    · refine upto_bind (upto_parseRootEntry U n ps) fun x => ?_
      obtain ⟨e, ps'⟩ := x
      exact upto_bind (ih _) fun _ => upto_refl _

theorem upto_parseDocument (U : Classes) (n : Nat) : Upto (parseDocument U n) (parseDocument U (n + 1)) := by
  rw [parseDocument, parseDocument]
  refine upto_same fun _ => ?_
  split
  · exact upto_bind (upto_all U n).2.2.2.2.2.1 fun _ => upto_refl _
  · exact upto_parseRootEntries U n _

/-- An answer stays the answer with more fuel. -/
theorem parse_mono (U : Classes) {n m : Nat} (h : n ≤ m) (s : List Char) {r : Except Err (List Entry)}
    (hr : parse U n s = some r) : parse U m s = some r := by
  induction h with
  | refl => exact hr
  | @step m _ ih =>
    rw [← ih]
    unfold parse at ih ⊢
    rcases upto_parseDocument U m ⟨s, false⟩ with h | h
    · rw [h] at ih; cases ih
    · rw [h]

end Styx.Swift
