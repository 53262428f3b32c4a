import Verif.Lsp.ContextSpec

/-!
# Specification: a test and the editor ask an extension the same
-/

namespace Styx.Spec

open Styx

/-- The cursor is in the place and at none of its ends. -/
def WithinPlace (off : Nat) (place : Option Span) : Prop := ∃ sp, place = some sp ∧ sp.start < off ∧ off < sp.stop

/-- The names lead from one value to another: through objects without tags, by the texts of keys. -/
inductive FieldsTo (x : Value) : Value → List (List Char) → Prop
  | here : FieldsTo x x []
  | field {es o sp k y d name p} : Entry.mk k y d ∈ es → k.asStr = some name → FieldsTo x y p →
      FieldsTo x (.mk none (some (.object es o)) sp) (name :: p)

mutual
/-- Every key in the value is followed by a value that is more than a bare tag. -/
def AllGiven : Value → Prop
  | .mk _ (some (.object es _)) _ => AllGivenEntries es
  | .mk _ (some (.sequence items _)) _ => AllGivenItems items
  | .mk _ _ _ => True
/-- The same for the entries of an object. -/
def AllGivenEntries : List Entry → Prop
  | [] => True
  | .mk _ v _ :: es => v.payload ≠ none ∧ AllGiven v ∧ AllGivenEntries es
/-- The same for the items of a sequence. -/
def AllGivenItems : List Value → Prop
  | [] => True
  | v :: vs => AllGiven v ∧ AllGivenItems vs
end

/-- What stands before a word in a test: nothing, or something that ends with a blank, a line break or an
opening brace. -/
def BeforeWord (pre : List Char) : Prop :=
  pre = [] ∨ ∃ q c, pre = q ++ [c] ∧ (c = ' ' ∨ c = '\t' ∨ c = '\n' ∨ c = '{')

/-- A character that is in a word for both: no whitespace, no brace, no opening parenthesis, no comma. -/
def PlainWordChar (c : Char) : Prop :=
  isWhitespace c = false ∧ c ≠ '{' ∧ c ≠ '}' ∧ c ≠ '(' ∧ c ≠ ','

end Styx.Spec
