import Verif.Cst.Ast

/-! # Specification: trees that the source formatter leaves alone once it has written them -/

namespace Styx.Spec

open Styx Styx.Cst

mutual
/-- No entry is empty – the tree parser makes an empty entry of a comma that does not follow an entry – and an object
without entries and comments has no line break. -/
def Tidy : Green → Prop
  | .token _ _ => True
  | .node k cs =>
    (k = .ENTRY → cs ≠ []) ∧
    (k = .OBJECT → (∃ c, .node .ENTRY c ∈ cs) ∨ (∃ t, .token .LINE_COMMENT t ∈ cs ∨ .token .DOC_COMMENT t ∈ cs) ∨
      ∀ t, .token .NEWLINE t ∉ cs) ∧
    TidyL cs
/-- … for all the elements of a list. -/
def TidyL : List Green → Prop
  | [] => True
  | g :: gs => Tidy g ∧ TidyL gs
end

end Styx.Spec
