import Verif.Lsp.Complete
import Verif.Tree.Builder

/-!
# Model: completion with a schema that cannot be read (styx-lsp/src/server.rs)

If the schema of a document is not a schema file, the fields that completion offers are looked up in the tree of its
text.
-/

namespace Styx.Lsp

open Styx

mutual
/-- server.rs:2695-2719 `extract_object_from_value`. -/
def writtenObject : Value → Option (List Entry)
  | .mk _ (some (.object es _)) _ => some es
  | .mk (some _) (some (.sequence items _)) _ => firstObject items
  | _ => none
/-- server.rs:2707-2713: the first object of the items. -/
def firstObject : List Value → Option (List Entry)
  | [] => none
  | v :: vs =>
    match writtenObject v with
    | some es => some es
    | none => firstObject vs
end

/-- server.rs:2914: the tags that are taken off. -/
def isWrapper (name : List Char) : Bool :=
  name = chars! "optional" || name = chars! "default" || name = chars! "deprecated"

mutual
/-- server.rs:2911-2937 `unwrap_type_wrappers`. -/
def unwrapWritten : Value → Value
  | .mk (some t) (some (.sequence items psp)) sp =>
    if isWrapper t.name then (unwrapFirst items).getD (.mk (some t) (some (.sequence items psp)) sp)
    else .mk (some t) (some (.sequence items psp)) sp
  | .mk (some t) (some (.object es psp)) sp =>
    if isWrapper t.name then (unwrapUnit es).getD (.mk (some t) (some (.object es psp)) sp)
    else .mk (some t) (some (.object es psp)) sp
  | v => v
/-- server.rs:2919-2923: the first item. -/
def unwrapFirst : List Value → Option Value
  | [] => none
  | v :: _ => some (unwrapWritten v)
/-- server.rs:2925-2932: the value of the first unit key. -/
def unwrapUnit : List Entry → Option Value
  | [] => none
  | .mk key value _ :: es => if key.isUnit then some (unwrapWritten value) else unwrapUnit es
end

mutual
/-- server.rs:2880-2908 `navigate_schema_path` for a path that is not empty: `name` is its first name, `next` what
is done with the type found, for the rest of the path. -/
def stepInto (name : List Char) (next : Value → Option Value) : Value → Option Value
  | .mk _ (some (.object es _)) _ => stepEntries name next es
  | .mk (some _) (some (.sequence items _)) _ => stepItems name next items
  | _ => none
/-- server.rs:2889: the object that `extract_object_from_value` finds in a sequence. -/
def stepItems (name : List Char) (next : Value → Option Value) : List Value → Option Value
  | [] => none
  | v :: vs =>
    match writtenObject v with
    | some _ => stepInto name next v
    | none => stepItems name next vs
/-- server.rs:2891-2907: the loop over the entries. -/
def stepEntries (name : List Char) (next : Value → Option Value) : List Entry → Option Value
  | [] => none
  | .mk key value _ :: es =>
    if key.asStr = some name then next (unwrapWritten value)
    else if key.isUnit then
      match stepInto name next value with
      | some r => some r
      | none => stepEntries name next es
    else stepEntries name next es
end

/-- server.rs:2880-2908 `navigate_schema_path`. -/
def followPath : List (List Char) → Value → Option Value
  | [], v => some v
  | name :: path, v => stepInto name (followPath path) v

/-- server.rs:2954-2959: the field of an entry with a name: the name and the text of its type.  `none` is the panic of
the slice. -/
def writtenField (source : List Char) (key value : Value) : Option (List (List Char × List Char)) :=
  match key.asStr, value.span with
  | some name, some sp => (sliceBytes source sp.start sp.stop).map fun t => [(name, trim t)]
  | _, _ => some []

mutual
/-- server.rs:2940-2966 `collect_fields_from_object`: what it pushes; `none` is a panic.  `as_object` does not look at
the tag, so that the second branch of the code, for values with a tag, is never taken with an object. -/
def collectWritten (source : List Char) : Value → Option (List (List Char × List Char))
  | .mk _ (some (.object es _)) _ => collectWrittenEntries source es
  | _ => some []
/-- server.rs:2952-2965: the loop over the entries. -/
def collectWrittenEntries (source : List Char) : List Entry → Option (List (List Char × List Char))
  | [] => some []
  | .mk key value _ :: es =>
    match writtenField source key value, (if key.isUnit then collectWritten source value else some []),
      collectWrittenEntries source es with
    | some a, some b, some c => some (a ++ b ++ c)
    | _, _, _ => none
end

/-- server.rs:2840-2877 `get_schema_fields_from_source_at_path`; `none` is a panic. -/
def fieldsFromSource (source : List Char) (path : List (List Char)) : Option (List (List Char × List Char)) :=
  match parseTree source with
  | none => none
  | some (.error _) => some []
  | some (.ok tree) =>
    match tree.asObject with
    | none => some []
    | some es =>
      match es.find? fun e => e.key.asStr = some (chars! "schema") with
      | none => some []
      | some e =>
        match followPath path e.value with
        | none => some []
        | some v => collectWritten source v

end Styx.Lsp
