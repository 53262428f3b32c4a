import Verif.Cst.Ast

/-!
# Specification: what formatting must not change

The ink of a text are its characters that are not blanks, line ends or commas.
-/

namespace Styx.Spec

open Styx Styx.Cst

/-- Blanks, line ends and commas are layout. -/
def layout (c : Char) : Bool := c == ' ' || c == '\t' || c == '\n' || c == '\r' || c == ','

/-- The characters of a text that are not layout, in order. -/
def ink (s : List Char) : List Char := s.filter (fun c => !layout c)

/-- An entry with at most one value and without attributes in place of a key. -/
def SingleEntry (cs : List Green) : Prop :=
  (nodesOf .VALUE cs).length ≤ 1 ∧ nodesOf .ATTRIBUTES cs = []

mutual
/-- Every entry in a tree has at most one value and no attributes in place of a key. -/
def SingleEntries : Green → Prop
  | .token _ _ => True
  | .node k cs => (k = .ENTRY → SingleEntry cs) ∧ SingleEntriesL cs
/-- The same for a list of elements. -/
def SingleEntriesL : List Green → Prop
  | [] => True
  | g :: gs => SingleEntries g ∧ SingleEntriesL gs
end

end Styx.Spec
