import Verif.Lsp.Spec
import Verif.Schema.Model
import Verif.Text.Grammar

/-!
# Specification: lines of fields

Which lines of a document can be told from blank lines and comments without reading the whole document.
-/

namespace Styx.Spec

open Styx

/-- A line that is neither blank nor looks like a comment: after blanks it has a character other than a
space, not a `#`, and not two slashes. -/
def FieldLine (indent line : List Char) : Prop :=
  ∃ c r, line = indent ++ c :: r ∧ Blanks indent ∧ isWhitespace c = false ∧ c ≠ '#' ∧
    ¬ (c = '/' ∧ r.head? = some '/')

/-- `last` is the last line of `pre ++ last`. -/
def LastLine (pre last : List Char) : Prop := (pre = [] ∨ ∃ p, pre = p ++ ['\n']) ∧ '\n' ∉ last

/-- Nothing, or lines with blanks and comments only. -/
def NoFields (tail : List Char) : Prop := tail = [] ∨ ∃ g, tail = '\n' :: g ∧ Gap false g

/-- The field is marked as optional, possibly below a default or a deprecation. -/
inductive MarkedOptional {F : Type} : Schema.Schema F → Prop
  | optional (s) : MarkedOptional (.optional s)
  | default (t) {s} : MarkedOptional s → MarkedOptional (.default t s)
  | deprecated (r) {s} : MarkedOptional s → MarkedOptional (.deprecated r s)

end Styx.Spec
