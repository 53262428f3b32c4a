import Verif.Swift.Terminate

/-! # Documents on which the Swift parser never ends

The loops over the items of a sequence and over the entries of an object end at their own closing bracket and at the end
of the text.  At a bracket of the other kind, and at `>`, `parseValue` gives a unit value and reads nothing. -/

namespace Styx.Swift

/-- Sequencing after a run without an answer gives no answer. -/
theorem bind_fuel {α β : Type} {p : P α} {f : α → P β} {st : St} (h : p st = .fuel) : (p >>= f) st = .fuel := by
  show P.bind _ _ _ = _
  unfold P.bind
  rw [h]

theorem bind_advance {U : Classes} {β : Type} (f : Tok → P β) (st : St) :
    (advance U >>= f) st = f (nextToken U st).1 (nextToken U st).2 := rfl

theorem bind_ok {α β : Type} {p : P α} {f : α → P β} {st st' : St} {a : α} (h : p st = .ok a st') :
    (p >>= f) st = f a st' := by
  show P.bind _ _ _ = _
  unfold P.bind
  rw [h]

theorem items_hang (U : Classes) {st : St}
    (hk : (nextToken U st).1.kind = .rBrace ∨ (nextToken U st).1.kind = .gt) (n : Nat) :
    parseItems U n st = .fuel := by
  induction n with
  | zero => rfl
  | succ n ih =>
    rw [parseItems, bind_cur]
    rw [if_neg (by rcases hk with h | h <;> simp [h]), if_neg (by rcases hk with h | h <;> simp [h])]
    cases n with
    | zero => rfl
    | succ n =>
      rw [bind_ok (value_stay n (by rcases hk with h | h <;> rw [h] <;> rfl) (by rcases hk with h | h <;> simp [h]))]
      exact bind_fuel ih

theorem entries_hang (U : Classes) {st : St}
    (hk : (nextToken U st).1.kind = .rParen ∨ (nextToken U st).1.kind = .gt) (n : Nat) :
    parseEntries U n st = .fuel := by
  induction n with
  | zero => rfl
  | succ n ih =>
    rw [parseEntries, bind_cur]
    rw [if_neg (by rcases hk with h | h <;> simp [h])]
    cases n with
    | zero => rfl
    | succ n =>
      have hv := value_stay n (U := U) (st := st) (by rcases hk with h | h <;> rw [h] <;> rfl)
        (by rcases hk with h | h <;> simp [h])
      rw [bind_ok hv, bind_ok hv, bind_cur, if_neg (by rcases hk with h | h <;> simp [h])]
      exact bind_fuel ih

/-- A document that begins with a sequence at whose first place stands a token of the wrong kind. -/
theorem sequence_hangs (U : Classes) {s : List Char}
    (hk : (nextToken U ⟨s, false⟩).1.kind = .rBrace ∨ (nextToken U ⟨s, false⟩).1.kind = .gt) (n : Nat) :
    parse U n ('(' :: s) = none := by
  have hn : nextToken U ⟨'(' :: s, false⟩ = (⟨.lParen, [], false, false⟩, ⟨s, false⟩) := rfl
  have hs : ∀ n, parseSequence U n ⟨'(' :: s, false⟩ = .fuel := by
    intro n
    cases n with
    | zero => rfl
    | succ n => rw [parseSequence, bind_advance, hn]; exact bind_fuel (items_hang U hk n)
  have hv : ∀ n, parseValue U n ⟨'(' :: s, false⟩ = .fuel := by
    intro n
    cases n with
    | zero => rfl
    | succ n => rw [parseValue, bind_cur, hn]; exact bind_fuel (hs n)
  have hd : parseDocument U n ⟨'(' :: s, false⟩ = .fuel := by
    rw [parseDocument, bind_cur, hn, if_neg (by simp)]
    cases n with
    | zero => rfl
    | succ n =>
      rw [parseRootEntries, bind_cur, hn, if_neg (by simp)]
      refine bind_fuel ?_
      rw [parseRootEntry]
      exact bind_fuel (hv n)
  unfold parse
  rw [hd]

/-- A document that begins with an object at whose first place stands a token of the wrong kind. -/
theorem object_hangs (U : Classes) {s : List Char}
    (hk : (nextToken U ⟨s, false⟩).1.kind = .rParen ∨ (nextToken U ⟨s, false⟩).1.kind = .gt) (n : Nat) :
    parse U n ('{' :: s) = none := by
  have hn : nextToken U ⟨'{' :: s, false⟩ = (⟨.lBrace, [], false, false⟩, ⟨s, false⟩) := rfl
  have hs : parseObject U n ⟨'{' :: s, false⟩ = .fuel := by
    cases n with
    | zero => rfl
    | succ n => rw [parseObject, bind_advance, hn]; exact bind_fuel (entries_hang U hk n)
  have hd : parseDocument U n ⟨'{' :: s, false⟩ = .fuel := by
    rw [parseDocument, bind_cur, hn, if_pos rfl]
    exact bind_fuel hs
  unfold parse
  rw [hd]

end Styx.Swift
