import Verif.Lsp.Model
import Verif.Schema.Model

/-!
# Model: where the language server shows what is wrong

crates/styx-lsp/src/schema_validation.rs and the third phase of crates/styx-lsp/src/server.rs
`compute_diagnostics`.
-/

namespace Styx.Lsp

open Styx

/-- crates/styx-lsp/src/schema_validation.rs:317-320: the path up to its first dot, and after it. -/
def splitDot : List Char → List Char × List Char
  | [] => ([], [])
  | c :: cs => if c = '.' then ([], cs) else let (a, b) := splitDot cs; (c :: a, b)

/-- crates/styx-lsp/src/schema_validation.rs:331-338: the first entry with this key. -/
def entryNamed (name : List Char) : List Entry → Option Value
  | [] => none
  | e :: es => if e.key.asStr == some name then some e.value else entryNamed name es

/-- crates/styx-lsp/src/schema_validation.rs:310-341 `find_value_by_path`, with fuel for the length of the path.  The
number in brackets of 323-328 is not read: `value` is an object there, so `as_sequence` gives nothing and the result
is `None` for every number, as it is when it is not a number. -/
def findByPath : Nat → Value → List Char → Option Value
  | 0, _, _ => none
  | n + 1, v, path =>
    if path.isEmpty then some v
    else
      match v.asObject with
      | none => none
      | some es =>
        let (segment, rest) := splitDot path
        if segment.head? = some '[' ∧ segment.getLast? = some ']' then none
        else
          match entryNamed segment es with
          | some x => findByPath n x rest
          | none => none

/-- crates/styx-lsp/src/schema_validation.rs:344-348 `get_error_span`. -/
def getErrorSpan (tree : Value) (path : List Char) : Option Span :=
  match findByPath (path.length + 1) tree path with
  | some x => x.span
  | none => none

/-- The range of a span, for instance crates/styx-lsp/src/server.rs:294-297. -/
def spanRange (content : List Char) (sp : Span) : Position × Position :=
  (offsetToPosition content sp.start, offsetToPosition content sp.stop)

/-- crates/styx-lsp/src/server.rs:293-311: the range of an error. -/
def errorRange (content : List Char) (tree : Value) (e : Schema.Err) : Position × Position :=
  match e.span with
  | some sp => spanRange content sp
  | none =>
    match getErrorSpan tree e.path with
    | some sp => spanRange content sp
    | none => (⟨0, 0⟩, ⟨0, 1⟩)

/-- crates/styx-lsp/src/server.rs:332-342: the range of a warning. -/
def warningRange (content : List Char) (w : Schema.Warn) : Position × Position :=
  match w.span with
  | some sp => spanRange content sp
  | none => (⟨0, 0⟩, ⟨0, 1⟩)

end Styx.Lsp
