import Verif.Basic

/-!
# Model: folding in CodeMirror (editors/codemirror-styx/src/index.ts)

The syntax tree is that of the Lezer parser, which is not modelled: the theorems are about all trees in which nodes
are nested and objects and sequences have their brackets.
-/

namespace Styx.CodeMirror

open Styx

/-- A node of the syntax tree of Lezer, `SyntaxNode`: the name of its type, where it begins and ends, and its
children (index.ts:101-113 use these).  Positions count characters; in JavaScript they are UTF-16 units. -/
inductive SynNode
  | mk (name : List Char) (start stop : Nat) (children : List SynNode)

/-- `type.name` (index.ts:105). -/
def SynNode.name : SynNode → List Char
  | .mk n _ _ _ => n
/-- `from` (index.ts:111). -/
def SynNode.start : SynNode → Nat
  | .mk _ a _ _ => a
/-- `to` (index.ts:111). -/
def SynNode.stop : SynNode → Nat
  | .mk _ _ b _ => b
/-- The children; `firstChild` and `lastChild` are its ends (index.ts:106-107). -/
def SynNode.children : SynNode → List SynNode
  | .mk _ _ _ cs => cs

mutual
/-- index.ts:101 `resolveInner(pos, -1)` of Lezer and its parents: the nodes that are entered, from the outside to the
inside.  With the side -1 a child is entered if it begins before the position and does not end before it.  Taken
from the documentation of Lezer. -/
def entered (pos : Nat) : SynNode → List SynNode
  | .mk n a b cs => .mk n a b cs :: enteredIn pos cs
/-- The child that is entered. -/
def enteredIn (pos : Nat) : List SynNode → List SynNode
  | [] => []
  | c :: cs => if c.start < pos ∧ pos ≤ c.stop then entered pos c else enteredIn pos cs
end

/-- index.ts:105-113: the range folded for one node. -/
def foldNode (lineStart : Nat) (cur : SynNode) : Option (Nat × Nat) :=
  if cur.name = chars! "Object" ∨ cur.name = chars! "Sequence" then
    match cur.children.head?, cur.children.getLast? with
    | some first, some last =>
      if first.stop < last.start ∧ lineStart ≤ first.start then some (first.stop, last.start) else none
    | _, _ => none
  else none

/-- index.ts:99-117 `styxFoldService`: the range that is folded at a line. -/
def foldAt (tree : SynNode) (lineStart lineEnd : Nat) : Option (Nat × Nat) :=
  (entered lineEnd tree).reverse.findSome? (foldNode lineStart)

end Styx.CodeMirror
