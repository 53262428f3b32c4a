import Verif.Cst.Ast

/-!
# Model of the checks of concrete syntax trees

Source: crates/styx-cst/src/validation.rs, with the texts of keys from crates/styx-cst/src/ast.rs.  The range of a
node (`rowan`'s `text_range`) is computed from the offset at which the node begins; `rowan` keeps it in the node.
-/

namespace Styx.Cst

open Styx

/-- validation.rs:24-33 `Severity`. -/
inductive Severity where
  | error | warning | hint
  deriving DecidableEq, Repr

/-- validation.rs:13-22 `Diagnostic`. -/
structure Diagnostic where
  start : Nat
  stop : Nat
  severity : Severity
  message : List Char
  deriving DecidableEq, Repr

/-- The loop of `unescape_quoted` (crates/styx-cst/src/ast.rs:471-489). -/
def unescapeLoop : List Char → List Char
  | [] => []
  | '\\' :: [] => ['\\']
  | '\\' :: c :: cs =>
    (if c = 'n' then ['\n'] else if c = 'r' then ['\r'] else if c = 't' then ['\t']
      else if c = '\\' then ['\\'] else if c = '"' then ['"'] else ['\\', c]) ++ unescapeLoop cs
  | c :: cs => c :: unescapeLoop cs

/-- `strip_prefix('"')` and `strip_suffix('"')` (crates/styx-cst/src/ast.rs:462-466). -/
def stripQuotes (text : List Char) : List Char :=
  match text with
  | '"' :: r => if r.getLast? = some '"' then r.dropLast else text
  | _ => text

/-- crates/styx-cst/src/ast.rs:460-493 `unescape_quoted`. -/
def unescapeQuoted (text : List Char) : List Char := unescapeLoop (stripQuotes text)

/-- The text of a scalar token (crates/styx-cst/src/ast.rs:157-162, 367-372); `none` for other tokens. -/
def tokenContent (k : SyntaxKind) (text : List Char) : Option (List Char) :=
  if k = .BARE_SCALAR then some text
  else if k = .QUOTED_SCALAR then some (unescapeQuoted text)
  else if k = .RAW_SCALAR then some text
  else none

/-- crates/styx-cst/src/ast.rs:360-375 `Scalar::text_content`. -/
def scalarContent : List Green → List Char
  | [] => []
  | .node _ _ :: gs => scalarContent gs
  | .token k t :: gs => (tokenContent k t).getD (scalarContent gs)

/-- crates/styx-cst/src/ast.rs:151-175 `Key::text_content`. -/
def keyContent : List Green → List Char
  | [] => []
  | .token k t :: gs => (tokenContent k t).getD (keyContent gs)
  | .node k cs :: gs => if k = .SCALAR then scalarContent cs else keyContent gs

/-- crates/styx-cst/src/ast.rs:117-120 `Entry::key`, with the offset at which the key begins; the elements of the
entry begin at `off`. -/
def keyAt : Nat → List Green → Option (Nat × List Green)
  | _, [] => none
  | off, .token _ t :: gs => keyAt (off + utf8Len t) gs
  | off, .node k cs :: gs => if k = .KEY then some (off, cs) else keyAt (off + utf8Len (Green.texts cs)) gs

/-- validation.rs:110-132 `validate_entries_for_duplicates` on the entries among the elements of a document or
object, which begin at `off`; `seen` is the set of keys so far. -/
def duplicates : Nat → List Green → List (List Char) → List Diagnostic
  | _, [], _ => []
  | off, .token _ t :: gs, seen => duplicates (off + utf8Len t) gs seen
  | off, .node k cs :: gs, seen =>
    let next := off + utf8Len (Green.texts cs)
    if k = .ENTRY then
      match keyAt off cs with
      | none => duplicates next gs seen
      | some (at_, key) =>
        let text := keyContent key
        if text = [] then duplicates next gs seen
        else if text ∈ seen then
          ⟨at_, at_ + utf8Len (Green.texts key), .warning, chars! "duplicate key: `" ++ text ++ ['`']⟩ ::
            duplicates next gs seen
        else duplicates next gs (text :: seen)
    else duplicates next gs seen

/-- validation.rs:97-108 `validate_object`. -/
def validateObject (off : Nat) (cs : List Green) : List Diagnostic :=
  (if separator cs = .mixed then
    [⟨off, off + utf8Len (Green.texts cs), .warning,
      chars! "object uses mixed separators (both commas and newlines)"⟩] else []) ++
    duplicates off cs []

mutual
/-- validation.rs:76-95 `validate_node`, for a node that begins at `off`. -/
def validateNode : Nat → Green → List Diagnostic
  | _, .token _ _ => []
  | off, .node k cs =>
    (if k = .DOCUMENT then duplicates off cs [] else if k = .OBJECT then validateObject off cs else []) ++
      validateKids off cs
/-- The loop over the children (validation.rs:91-94). -/
def validateKids : Nat → List Green → List Diagnostic
  | _, [] => []
  | off, g :: gs => validateNode off g ++ validateKids (off + utf8Len g.text) gs
end

/-- validation.rs:64-69 `validate`, 71-74 `validate_document`. -/
def validate (root : Green) : List Diagnostic := validateNode 0 root

end Styx.Cst
