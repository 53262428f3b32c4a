import Verif.Tree.Builder

/-!
# Specification: what the debug tree shows of a document

`shownValue` is the tree without what is not shown: places and doc comments everywhere, the kinds of the scalars that are
keys or values of entries (unless they are tagged values), and all of the payload of a tagged key but that it is there.
-/

namespace Styx.Spec

open Styx

/-- What is shown of a key: a scalar without its kind, `()` or a tag, and whether there is something after the tag. -/
def shownKey : Value → Value
  | .mk (some t) (some _) _ => .mk (some ⟨t.name, none⟩) (some (.scalar [] .bare none)) none
  | .mk (some t) none _ => .mk (some ⟨t.name, none⟩) none none
  | .mk none none _ => .mk none none none
  | .mk none (some (.scalar text _ _)) _ => .mk none (some (.scalar text .bare none)) none
  | .mk none (some (.sequence ..)) _ => .mk none (some (.sequence [] none)) none
  | .mk none (some (.object ..)) _ => .mk none (some (.object [] none)) none

/-- The kind of a scalar without a tag is not shown. -/
def hideKind : Value → Value
  | .mk none (some (.scalar text _ a)) b => .mk none (some (.scalar text .bare a)) b
  | v => v

mutual
/-- What is shown of a value. -/
def shownValue : Value → Value
  | .mk t p _ => .mk (t.map fun x => ⟨x.name, none⟩) (shownOption p) none
def shownOption : Option Payload → Option Payload
  | none => none
  | some p => some (shownPayload p)
def shownPayload : Payload → Payload
  | .scalar text kind _ => .scalar text kind none
  | .sequence items _ => .sequence (shownItems items) none
  | .object es _ => .object (shownEntries es) none
def shownItems : List Value → List Value
  | [] => []
  | v :: vs => shownValue v :: shownItems vs
def shownEntries : List Entry → List Entry
  | [] => []
  | .mk k v _ :: es => .mk (shownKey k) (hideKind (shownValue v)) none :: shownEntries es
end

end Styx.Spec
