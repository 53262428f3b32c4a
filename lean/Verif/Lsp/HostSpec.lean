import Verif.Lsp.CursorSpec

/-!
# Specification: the part of a document that a path names
-/

namespace Styx.Spec

open Styx Styx.Lsp

/-- The names lead from one value to another: each is the text of a key of an object, the first one with that text. -/
inductive NamesTo (x : Value) : Value → List (List Char) → Prop
  | here : NamesTo x x []
  | field {t a k y d b o sp name p} : k.asStr = some name → (∀ e ∈ a, e.key.asStr ≠ some name) → NamesTo x y p →
      NamesTo x (.mk t (some (.object (a ++ .mk k y d :: b) o)) sp) (name :: p)

/-- The value the cursor is on, or whose key it is on. -/
def CursorValue (off : Nat) (tree y : Value) : Prop :=
  (∃ p, LeadsTo y tree p ∧ On off y.span) ∨
  ∃ w p es o k d, LeadsTo w tree p ∧ w.payload = some (.object es o) ∧ Entry.mk k y d ∈ es ∧ On off k.span

mutual
/-- In every object of the value all keys have a text, and no text twice. -/
def KeysNamed : Value → Prop
  | .mk _ (some (.object es _)) _ => (es.map fun e => e.key.asStr).Nodup ∧ KeysNamedEntries es
  | .mk _ (some (.sequence items _)) _ => KeysNamedItems items
  | .mk _ _ _ => True
/-- The same for the entries of an object. -/
def KeysNamedEntries : List Entry → Prop
  | [] => True
  | .mk k v _ :: es => k.asStr ≠ none ∧ KeysNamed v ∧ KeysNamedEntries es
/-- The same for the items of a sequence. -/
def KeysNamedItems : List Value → Prop
  | [] => True
  | v :: vs => KeysNamed v ∧ KeysNamedItems vs
end

end Styx.Spec
