import Verif.Tree.Value

/-!
# Specification: following a path step by step
-/

namespace Styx.Spec

/-- One step of a path. -/
inductive PathStep where
  | key (k : List Char)
  | idx (n : Nat)
  deriving DecidableEq, Repr

/-- A decimal digit. -/
def digit (n : Nat) : Char := Char.ofNat (48 + n)

/-- A number in decimal, without leading zeros. -/
def decimal (n : Nat) : List Char :=
  if n < 10 then [digit n] else decimal (n / 10) ++ [digit (n % 10)]

/-- The remaining steps of a path, as text: `.key` or `[n]`. -/
def renderRest : List PathStep → List Char
  | [] => []
  | .key k :: r => '.' :: (k ++ renderRest r)
  | .idx n :: r => '[' :: (decimal n ++ ']' :: renderRest r)

/-- A path as text: as `renderRest`, but no dot in front of the first key. -/
def render : List PathStep → List Char
  | .key k :: r => k ++ renderRest r
  | r => renderRest r

/-- A step that can be written: keys are non-empty without `.` and `[`, indices fit into `usize`. -/
def StepOK : PathStep → Prop
  | .key k => k ≠ [] ∧ '.' ∉ k ∧ '[' ∉ k
  | .idx n => n ≤ usizeMax

/-- The value of the first entry whose key is the untagged scalar `k`. -/
def entryOf (k : List Char) : List Entry → Option Value
  | [] => none
  | .mk (.mk none (some (.scalar text _ _)) _) v _ :: es => if text = k then some v else entryOf k es
  | _ :: es => entryOf k es

/-- One step: a key leads into an object, an index into a sequence. -/
def step : PathStep → Value → Option Value
  | .key k, .mk _ (some (.object es _)) _ => entryOf k es
  | .idx n, .mk _ (some (.sequence items _)) _ => items[n]?
  | _, _ => none

/-- All steps, one at a time. -/
def follow : List PathStep → Value → Option Value
  | [], v => some v
  | s :: r, v => (step s v).bind (follow r)

/-- As `step`, but an index leads also into an object, by the key `[n]`. -/
def stepLoose : PathStep → Value → Option Value
  | .idx n, .mk _ (some (.object es _)) _ => entryOf ('[' :: (decimal n ++ [']'])) es
  | s, v => step s v

/-- All steps, with `stepLoose`. -/
def followLoose : List PathStep → Value → Option Value
  | [], v => some v
  | s :: r, v => (stepLoose s v).bind (followLoose r)

mutual
/-- No object in the value has an untagged scalar key starting with `[`. -/
def NoBracketKeys : Value → Prop
  | .mk _ (some (.sequence items _)) _ => NoBracketItems items
  | .mk _ (some (.object es _)) _ => NoBracketEntries es
  | _ => True
/-- … in all items. -/
def NoBracketItems : List Value → Prop
  | [] => True
  | v :: vs => NoBracketKeys v ∧ NoBracketItems vs
/-- … in all entries. -/
def NoBracketEntries : List Entry → Prop
  | [] => True
  | .mk k v _ :: es => (∀ rest, k.asStr ≠ some ('[' :: rest)) ∧ NoBracketKeys v ∧ NoBracketEntries es
end

end Styx.Spec
