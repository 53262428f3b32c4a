import Verif.Tree.SpanSpec

/-!
# Specification: what an S-expression of a document shows

Everything except doc comments and the place of a tag (but the place of the tagged value is shown).
-/

namespace Styx.Spec

open Styx

mutual
/-- The tree without doc comments and without the places of tags. -/
def plainValue : Value → Value
  | .mk t none sp => .mk (t.map fun t => ⟨t.name, none⟩) none sp
  | .mk t (some p) sp => .mk (t.map fun t => ⟨t.name, none⟩) (some (plainPayload p)) sp
def plainPayload : Payload → Payload
  | .scalar text k sp => .scalar text k sp
  | .sequence items sp => .sequence (plainItems items) sp
  | .object es sp => .object (plainEntries es) sp
def plainItems : List Value → List Value
  | [] => []
  | v :: vs => plainValue v :: plainItems vs
def plainEntries : List Entry → List Entry
  | [] => []
  | .mk k v _ :: es => .mk (plainValue k) (plainValue v) none :: plainEntries es
end

/-- All scalars of the tree have texts with `P`, and all tags names with `Q`. -/
def Texts (P Q : List Char → Prop) (v : Value) : Prop :=
  ∀ x, Node x v → (∀ t, x.tag = some t → Q t.name) ∧ (∀ text k sp, x.payload = some (.scalar text k sp) → P text)

end Styx.Spec
