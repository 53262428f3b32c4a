import Verif.Cst.Parser

/-!
# Model of the typed views of concrete syntax trees

Source: crates/styx-cst/src/ast.rs.  A typed node is its list of children; only the views used by the
formatter and by the validation are modelled.  Siblings are found from the list of children of the
parent, which `rowan` reaches by pointers.
-/

namespace Styx.Cst

open Styx

/-- `NodeOrToken::kind`. -/
def Green.kind : Green → SyntaxKind
  | .token k _ => k
  | .node k _ => k

/-- The children of a node of a given kind (`SyntaxNode::children` and `cast`,
crates/styx-cst/src/ast.rs:29-36): the lists of their children. -/
def nodesOf (k : SyntaxKind) : List Green → List (List Green)
  | [] => []
  | .node k' cs :: gs => if k' = k then cs :: nodesOf k gs else nodesOf k gs
  | .token _ _ :: gs => nodesOf k gs

/-- Whether there is a child token or node of a kind (`children_with_tokens().any`, e.g.
crates/styx-format/src/cst_format.rs:276-281). -/
def hasKind (k : SyntaxKind) (cs : List Green) : Bool := cs.any (·.kind == k)

/-- Whether there is a child token of a kind (`children_with_tokens().filter_map(into_token)`, e.g.
crates/styx-cst/src/ast.rs:246-256). -/
def hasToken (k : SyntaxKind) : List Green → Bool
  | [] => false
  | .token k' _ :: gs => k' == k || hasToken k gs
  | .node _ _ :: gs => hasToken k gs

/-- crates/styx-cst/src/ast.rs:108-111 `Document::entries`, 236-239 `Object::entries`,
317-320 `Sequence::entries`: the children of each entry. -/
def entriesOf (cs : List Green) : List (List Green) := nodesOf .ENTRY cs

/-- crates/styx-cst/src/ast.rs:117-120 `Entry::key`. -/
def entryKey (cs : List Green) : Option (List Green) := (nodesOf .KEY cs).head?

/-- crates/styx-cst/src/ast.rs:122-125 `Entry::value`. -/
def entryValue (cs : List Green) : Option (List Green) := (nodesOf .VALUE cs).head?

/-- crates/styx-cst/src/ast.rs:224-233 `Separator`. -/
inductive Separator where
  | newline | comma | mixed
  deriving DecidableEq, Repr

/-- crates/styx-cst/src/ast.rs:241-266 `Object::separator`. -/
def separator (cs : List Green) : Separator :=
  if hasToken .COMMA cs && hasToken .NEWLINE cs then .mixed
  else if hasToken .NEWLINE cs then .newline
  else .comma

/-- crates/styx-cst/src/ast.rs:332-343 `Sequence::is_multiline`. -/
def seqMultiline (cs : List Green) : Bool :=
  hasToken .NEWLINE cs || hasToken .LINE_COMMENT cs || hasToken .DOC_COMMENT cs

/-- crates/styx-cst/src/ast.rs:132-145 `Entry::doc_comments().next().is_some()`, for an entry whose
preceding siblings are, from the nearest, the list `prev`. -/
def hasDocBefore : List Green → Bool
  | [] => false
  | g :: prev =>
    if g.kind = .DOC_COMMENT then true
    else if g.kind = .WHITESPACE ∨ g.kind = .NEWLINE then hasDocBefore prev
    else false

end Styx.Cst
