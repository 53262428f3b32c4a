import Verif.Lsp.Symbols
import Verif.Tree.SpanSpec

/-!
# Specification: what an outline is
-/

namespace Styx.Spec

open Styx.Lsp (Symbol SymbolKind Position)

/-- The names, kinds and nesting of an outline. -/
inductive Shape where
  | mk (name : List Char) (kind : SymbolKind) (children : List Shape)

/-- What sort of value the reader sees. -/
def sortOf : Value → SymbolKind
  | .mk _ (some (.object _ _)) _ => .object
  | .mk _ (some (.sequence _ _)) _ => .array
  | .mk none (some (.scalar _ _ _)) _ => .string
  | .mk (some _) _ _ => .variable
  | .mk none none _ => .null

mutual
/-- The outline a reader expects: the named entries of the object, in order, each with the outline of its value. -/
def outline : Value → List Shape
  | .mk _ (some (.object es _)) _ => outlineEntries es
  | .mk _ _ _ => []
/-- … of the entries. -/
def outlineEntries : List Entry → List Shape
  | [] => []
  | .mk (.mk none (some (.scalar name _ _)) _) v _ :: es => .mk name (sortOf v) (outline v) :: outlineEntries es
  | .mk _ _ _ :: es => outlineEntries es
end

mutual
/-- The shape of a symbol. -/
def shape : Symbol → Shape
  | .mk name _ kind _ _ _ _ children => .mk name kind (shapes children)
/-- … of all. -/
def shapes : List Symbol → List Shape
  | [] => []
  | x :: xs => shape x :: shapes xs
end

/-- The parts of a symbol. -/
def symName : Symbol → List Char | .mk n _ _ _ _ _ _ _ => n
/-- The detail shown beside the name. -/
def symDetail : Symbol → Option (List Char) | .mk _ d _ _ _ _ _ _ => d
/-- The kind. -/
def symKind : Symbol → SymbolKind | .mk _ _ k _ _ _ _ _ => k
/-- The start of the range. -/
def symStart : Symbol → Position | .mk _ _ _ a _ _ _ _ => a
/-- The end of the range. -/
def symStop : Symbol → Position | .mk _ _ _ _ b _ _ _ => b
/-- The start of the selection range. -/
def symSelStart : Symbol → Position | .mk _ _ _ _ _ a _ _ => a
/-- The end of the selection range. -/
def symSelStop : Symbol → Position | .mk _ _ _ _ _ _ b _ => b
/-- The children. -/
def symChildren : Symbol → List Symbol | .mk _ _ _ _ _ _ _ cs => cs

/-- The list is the outline, or the children of a symbol at any depth. -/
inductive Level (l : List Symbol) : List Symbol → Prop
  | top : Level l l
  | deeper {x xs} : x ∈ xs → Level l (symChildren x) → Level l xs

/-- The order of positions in a document. -/
def NotLater (p q : Position) : Prop := p.line < q.line ∨ p.line = q.line ∧ p.character ≤ q.character

end Styx.Spec
