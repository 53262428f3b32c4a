import Verif.Lsp.Model
import Verif.Cst.Parser

/-!
# Model: indentation after a line break

crates/styx-lsp/src/server.rs: `on_type_formatting`.
-/

namespace Styx.Lsp

open Styx Styx.Cst

/-- A token of a tree, with the number of objects and sequences around it (the loop over ancestors, server.rs:2034-2047
and 2008-2016). -/
structure Leaf where
  kind : SyntaxKind
  text : List Char
  depth : Nat
  deriving DecidableEq, Repr

mutual
/-- The tokens below an element, `d` being the number of objects and sequences around it
(server.rs:2034-2047). -/
def leavesAt (d : Nat) : Green → List Leaf
  | .token k t => [⟨k, t, d⟩]
  | .node k cs => leavesAtL (if k = .OBJECT ∨ k = .SEQUENCE then d + 1 else d) cs
/-- The tokens below a list of elements (server.rs:2034-2047). -/
def leavesAtL (d : Nat) : List Green → List Leaf
  | [] => []
  | g :: gs => leavesAt d g ++ leavesAtL d gs
end

/-- `SyntaxNode::token_at_offset` (server.rs:1998): the tokens whose range, from its start to its end inclusive, has
the offset, each with its end.  The search of `rowan` through the ranges of nodes is one through all tokens; like
there, empty tokens do not count. -/
def touching (offset pos : Nat) : List Leaf → List (Leaf × Nat)
  | [] => []
  | l :: ls =>
    let stop := pos + utf8Len l.text
    if l.text ≠ [] ∧ pos ≤ offset ∧ offset ≤ stop then (l, stop) :: touching offset stop ls
    else touching offset stop ls

/-- server.rs:2002 and 2027: a closing bracket. -/
def isCloser (k : SyntaxKind) : Bool := k == .R_BRACE || k == .R_PAREN

/-- server.rs:1991-2050 `find_nesting_depth_cst`. -/
def nestingDepth (g : Green) (offset : Nat) : Nat :=
  match touching offset 0 (leavesAt 0 g) with
  | [] => 0
  | [(t, stop)] => if isCloser t.kind ∧ stop = offset then t.depth - 1 else t.depth
  | (l, _) :: (r, _) :: _ => if isCloser l.kind then r.depth else l.depth

/-- server.rs:1960-1965: one step of indentation. -/
def indentUnit (tabSize : Nat) (insertSpaces : Bool) : List Char :=
  if insertSpaces then List.replicate tabSize ' ' else ['\t']

/-- server.rs:1937-1984 `on_type_formatting`, for the typed text `ch`. -/
def onTypeFormatting (content : List Char) (p : Position) (ch : List Char) (tabSize : Nat) (insertSpaces : Bool) :
    Option TextEdit :=
  if ch ≠ ['\n'] then none
  else
    let depth := nestingDepth (Cst.parse content).green (positionToOffset content p)
    some ⟨⟨p.line, 0⟩, ⟨p.line, 0⟩, (List.replicate depth (indentUnit tabSize insertSpaces)).flatten⟩

end Styx.Lsp
