import Verif.Cst.Check
import Verif.Tree.Value

/-!
# Model of the typed views through which programs read a concrete syntax tree

Source: crates/styx-cst/src/ast.rs.  The views that `Verif.Cst.Ast` (entries, keys, values) and `Verif.Cst.Check`
(texts of scalars and keys) do not have.  A typed node is its list of children.  `rowan` reaches the siblings of an entry
by pointers; here an entry comes with the list of the siblings before it, from the nearest.
-/

namespace Styx.Cst

open Styx

/-- crates/styx-cst/src/ast.rs:202-219 `ValueKind`. -/
inductive ViewKind where
  | scalar (cs : List Green)
  | object (cs : List Green)
  | sequence (cs : List Green)
  | unit (cs : List Green)
  | tag (cs : List Green)
  | heredoc (cs : List Green)
  | missing

/-- The node as one of the typed values (crates/styx-cst/src/ast.rs:188-194, the arms of the match), `none` for nodes of
other kinds and for tokens. -/
def castNode : Green → Option ViewKind
  | .node .SCALAR cs => some (.scalar cs)
  | .node .OBJECT cs => some (.object cs)
  | .node .SEQUENCE cs => some (.sequence cs)
  | .node .UNIT cs => some (.unit cs)
  | .node .TAG cs => some (.tag cs)
  | .node .HEREDOC cs => some (.heredoc cs)
  | _ => none

/-- crates/styx-cst/src/ast.rs:185-199 `Value::kind`. -/
def valueKind (cs : List Green) : ViewKind := (cs.findSome? castNode).getD .missing

/-- crates/styx-cst/src/ast.rs:127-130 `Entry::key_text`. -/
def entryKeyText (cs : List Green) : Option (List Char) := (entryKey cs).map keyContent

/-- crates/styx-cst/src/ast.rs:132-145 `Entry::doc_comments`, for an entry whose preceding siblings are, from the nearest,
the list `prev`: the texts of the tokens. -/
def docComments : List Green → List (List Char)
  | [] => []
  | .token k t :: prev =>
    if k = .DOC_COMMENT then t :: docComments prev
    else if k = .WHITESPACE ∨ k = .NEWLINE then docComments prev
    else []
  | .node _ _ :: _ => []

/-- crates/styx-cst/src/ast.rs:108-111 `Document::entries`, 236-239 `Object::entries`: the entries, each with the siblings
before it (`rev` are those before the list) and its children. -/
def viewEntries : List Green → List Green → List (List Green × List Green)
  | _, [] => []
  | rev, .node k cs :: gs =>
    if k = .ENTRY then (rev, cs) :: viewEntries (.node k cs :: rev) gs else viewEntries (.node k cs :: rev) gs
  | rev, .token k t :: gs => viewEntries (.token k t :: rev) gs

/-- crates/styx-cst/src/ast.rs:268-272 `Object::get`. -/
def objectGet (cs : List Green) (key : List Char) : Option (List Green × List Green) :=
  (viewEntries [] cs).find? fun e => entryKeyText e.2 == some key

/-- What `Sequence::elements` takes from an entry (crates/styx-cst/src/ast.rs:283-299): the first value in its key. -/
def entryElement (cs : List Green) : Option Green :=
  (entryKey cs).bind fun key => key.find? fun g => (castNode g).isSome

/-- crates/styx-cst/src/ast.rs:278-315 `Sequence::elements`. -/
def seqElements : List Green → List Green
  | [] => []
  | .token _ _ :: gs => seqElements gs
  | .node k cs :: gs =>
    (if k = .ENTRY then (entryElement cs).toList
      else if (castNode (.node k cs)).isSome then [.node k cs] else []) ++ seqElements gs

/-- crates/styx-cst/src/ast.rs:322-325 `Sequence::len`. -/
def seqLen (cs : List Green) : Nat := (seqElements cs).length

/-- crates/styx-cst/src/ast.rs:327-330 `Sequence::is_empty`. -/
def seqIsEmpty (cs : List Green) : Bool := seqLen cs == 0

/-- crates/styx-cst/src/ast.rs:382-398 `Scalar::kind`; the kinds are those of the document tree. -/
def viewScalarKind : List Green → ScalarKind
  | [] => .bare
  | .node _ _ :: gs => viewScalarKind gs
  | .token k _ :: gs =>
    if k = .BARE_SCALAR then .bare else if k = .QUOTED_SCALAR then .quoted else if k = .RAW_SCALAR then .raw
    else viewScalarKind gs

/-- crates/styx-cst/src/ast.rs:404-412 `Tag::name`.  The text of a tag token begins with the one byte of `@`. -/
def viewTagName : List Green → Option (List Char)
  | [] => none
  | .node _ _ :: gs => viewTagName gs
  | .token k t :: gs => if k = .TAG_TOKEN then some (t.drop 1) else viewTagName gs

/-- The first child that is a node (`children().next()`). -/
def firstNode : List Green → Option Green
  | [] => none
  | .token _ _ :: gs => firstNode gs
  | .node k cs :: _ => some (.node k cs)

/-- crates/styx-cst/src/ast.rs:414-420 `Tag::payload`. -/
def viewPayload (cs : List Green) : Option Green := (nodesOf .TAG_PAYLOAD cs).head?.bind firstNode

/-- crates/styx-cst/src/ast.rs:426-438 `Heredoc::content`. -/
def heredocContent : List Green → List Char
  | [] => []
  | .node _ _ :: gs => heredocContent gs
  | .token k t :: gs => if k = .HEREDOC_CONTENT then t else heredocContent gs

/-- crates/styx-cst/src/ast.rs:440-456 `Heredoc::delimiter`. -/
def heredocDelimiter : List Green → Option (List Char)
  | [] => none
  | .node _ _ :: gs => heredocDelimiter gs
  | .token k t :: gs =>
    if k = .HEREDOC_START then
      match t with
      | '<' :: '<' :: rest => some (rest.reverse.dropWhile isWhitespace).reverse
      | _ => heredocDelimiter gs
    else heredocDelimiter gs

end Styx.Cst
