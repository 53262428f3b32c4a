import Verif.Editor.Emacs

/-!
# Specification: indentation by depth

Only the texts of the lines matter.
-/

namespace Styx.Editor.Emacs.Spec

open Styx

/-- The text ends with an opening bracket, blanks aside. -/
def Opening (text : List Char) : Prop :=
  ∃ before c blanks, text = before ++ c :: blanks ∧ (c = '{' ∨ c = '(') ∧ ∀ b ∈ blanks, b = ' ' ∨ b = '\t'

/-- The text begins with a closing bracket. -/
def Closing (text : List Char) : Prop := ∃ c rest, text = c :: rest ∧ (c = '}' ∨ c = ')')

/-- The lines, and the depth of each of them: a line that ends with an opening bracket is followed by deeper ones, and
a line that begins with a closing bracket belongs to the depth outside.  `d` is the depth before the lines. -/
inductive Depths : Nat → List (List Char) → List Nat → Prop
  | nil {d} : Depths d [] []
  | plain {d t ts ds} : ¬ Opening t → ¬ Closing t → Depths d ts ds → Depths d (t :: ts) (d :: ds)
  | opening {d t ts ds} : Opening t → ¬ Closing t → Depths (d + 1) ts ds → Depths d (t :: ts) (d :: ds)
  | closing {d t ts ds} : ¬ Opening t → Closing t → Depths d ts ds → Depths (d + 1) (t :: ts) (d :: ds)
  | both {d t ts ds} : Opening t → Closing t → Depths (d + 1) ts ds → Depths (d + 1) (t :: ts) (d :: ds)

/-- No closing line is right below an empty one. -/
def Compact (ts : List (List Char)) : Prop := ∀ a t b, ts = a ++ [] :: t :: b → ¬ Closing t

end Styx.Editor.Emacs.Spec
