import Verif.Editor.Fold

/-!
# Specification: what can be folded at a line
-/

namespace Styx.CodeMirror

open Styx

/-- `n` is `t` or a node inside of it. -/
inductive Within (n : SynNode) : SynNode → Prop
  | self : Within n n
  | child {name a b cs c} : c ∈ cs → Within n c → Within n (.mk name a b cs)

/-- The node is an object or a sequence. -/
def Bracketed (n : SynNode) : Prop := n.name = chars! "Object" ∨ n.name = chars! "Sequence"

/-- The tree is one of the text: children are inside of their parents and do not overlap, and objects and sequences
begin with a child that is the opening and end with one that is the closing bracket. -/
def TreeOf (doc : List Char) (t : SynNode) : Prop :=
  (∀ n, Within n t → n.start ≤ n.stop ∧ (∀ c ∈ n.children, n.start ≤ c.start ∧ c.stop ≤ n.stop) ∧
    n.children.Pairwise (fun c d => c.stop ≤ d.start)) ∧
  (∀ n, Within n t → Bracketed n → ∃ o mid c, n.children = o :: (mid ++ [c]) ∧
    o.start = n.start ∧ o.stop = n.start + 1 ∧ c.start + 1 = n.stop ∧ c.stop = n.stop ∧
    (doc[c.start]? = some '}' ∨ doc[c.start]? = some ')'))

/-- The line from `a` to `b` ends there: with the text or a line break. -/
def LineEnd (doc : List Char) (b : Nat) : Prop := b = doc.length ∨ doc[b]? = some '\n'

/-- `n` is an object or a sequence that is opened on the line from `a` to `b` and closed below it. -/
def OpenedOn (a b : Nat) (n : SynNode) : Prop :=
  Bracketed n ∧ a ≤ n.start ∧ n.start + 1 ≤ b ∧ b + 1 < n.stop

/-- `n` is an object or a sequence that is not empty, opened on the line from `a` to `b`, and closed at the end of the
line or below it. -/
def EndsFrom (a b : Nat) (n : SynNode) : Prop :=
  Bracketed n ∧ a ≤ n.start ∧ n.start < b ∧ b ≤ n.stop ∧ n.start + 2 < n.stop

/-- `n` is the innermost of those opened on the line and closed below it. -/
def InnermostOpened (t : SynNode) (a b : Nat) (n : SynNode) : Prop :=
  Within n t ∧ OpenedOn a b n ∧ ∀ m, Within m t → OpenedOn a b m → Within n m

end Styx.CodeMirror
