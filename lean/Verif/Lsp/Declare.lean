import Verif.Lsp.Marks
import Verif.Cli.Model

/-!
# Model: the schema declaration of a document, and quick fixes

crates/styx-lsp/src/schema_validation.rs, schema_hints.rs and server.rs: which schema a document declares, and the
edits of the actions "Add … schema declaration", "Don't use a schema for this file", "Rename …" and "Reorder fields
to match schema".
-/

namespace Styx.Lsp

open Styx

/-- schema_validation.rs:28-40 `SchemaRef`. -/
inductive SchemaRef where
  | external (path : List Char)
  | embedded (id cli : List Char)
  | optOut
  deriving DecidableEq, Repr

/-- schema_validation.rs:149-158: the fields `id` and `cli` of a declaration, if both are there and texts. -/
def embeddedRef (v : Value) : Option SchemaRef :=
  v.asObject.bind fun es => (objGet es (chars! "id")).bind fun i => i.asStr.bind fun id =>
    (objGet es (chars! "cli")).bind fun c => c.asStr.map fun cli => .embedded id cli

/-- schema_validation.rs:136-160: one round of the loop. -/
def declaredBy (e : Entry) : Option SchemaRef :=
  if Cli.isSchemaTag e.key then
    if e.value.isUnit then some .optOut
    else match e.value.asStr with
      | some path => some (.external path)
      | none => embeddedRef e.value
  else none

/-- schema_validation.rs:133-163 `find_schema_declaration`. -/
def findSchemaDeclaration (v : Value) : Option SchemaRef :=
  v.asObject.bind fun es => es.findSome? declaredBy

/-- schema_hints.rs:62-69 `schema_declaration`. -/
def declarationText (id : List Char) : Option (List Char) → List Char
  | some cli => chars! "@schema {id " ++ id ++ chars! ", cli " ++ cli ++ chars! "}"
  | none => chars! "@schema {id " ++ id ++ chars! "}"

/-- server.rs:379-384: whether the hint is shown; `matches` is whether the address of the document matches a pattern
of the registry. -/
def hintShown (tree : Option Value) («matches» : Bool) : Bool :=
  match tree with
  | some t => (findSchemaDeclaration t).isNone && «matches»
  | none => false

/-- server.rs:1177-1183: "Add … schema declaration". -/
def addSchemaEdit (declaration : List Char) : TextEdit := ⟨⟨0, 0⟩, ⟨0, 0⟩, declaration ++ ['\n', '\n']⟩

/-- server.rs:1203-1209: "Don't use a schema for this file". -/
def optOutEdit : TextEdit := ⟨⟨0, 0⟩, ⟨0, 0⟩, chars! "@schema @\n\n"⟩

/-- server.rs:1257-1273 with crates/facet-styx/src/schema_error.rs:115-128: "Rename …", for an error shown at its
range. -/
def renameEdit (content : List Char) (tree : Value) (e : Schema.Err) : Option TextEdit :=
  match e.kind with
  | .unknownField _ _ (some suggestion) =>
    let r := errorRange content tree e
    some ⟨r.1, r.2, suggestion⟩
  | _ => none

/-- server.rs:3292-3296: the place of a name among the fields of the schema; the last one counts. -/
def orderOf (names : List (List Char)) (name : List Char) : Option Nat :=
  (names.zipIdx.reverse.find? fun p => p.1 == name).map (·.2)

/-- server.rs:3299-3309: an entry with its place among the fields of the schema. -/
def ordered (names : List (List Char)) (es : List Entry) : List (Option Nat × Entry) :=
  es.map fun e => (e.key.asStr.bind (orderOf names), e)

/-- server.rs:3314-3319 and 3334-3339: known fields in their order, then the others. -/
def atMost : Option Nat → Option Nat → Bool
  | some x, some y => x ≤ y
  | some _, none => true
  | none, some _ => false
  | none, none => true

/-- server.rs:3326-3340: the unit key first, then as `atMost`. (With several unit keys the comparison of the code
contradicts itself and the order is unspecified.) -/
def entryAtMost (a b : Option Nat × Entry) : Bool :=
  if a.2.key.isUnit then true else if b.2.key.isUnit then false else atMost a.1 b.1

/-- server.rs:3351-3363: the text of an entry, with what stands before its key on the line; `none` when a slice
panics. -/
def entryText (content : List Char) (e : Entry) : Option (List Char) :=
  match e.key.span, e.value.span with
  | some k, some v =>
    (takeBytes k.start content).bind fun before => (takeBytes v.stop content).bind fun upto =>
      (dropBytes k.start upto).map fun text => (before.reverse.takeWhile (· ≠ '\n')).reverse ++ text
  | _, _ => some []

/-- server.rs:3343-3364: the texts of the entries, joined by line breaks. -/
def entriesText (content : List Char) : List Entry → Option (List Char)
  | [] => some []
  | [e] => entryText content e
  | e :: es => (entryText content e).bind fun t => (entriesText content es).map fun ts => t ++ '\n' :: ts

/-- server.rs:3284-3375 `generate_reorder_edit`, for the names of the fields of the schema; `.error ()` is a
panic. -/
def reorderEdit (content : List Char) (tree : Value) (names : List (List Char)) : Except Unit (Option TextEdit) :=
  match tree with
  | .mk _ (some (.object es span)) _ =>
    let entries := ordered names es
    let current := entries.map (·.1)
    if current = current.mergeSort atMost then .ok none
    else match entriesText content ((entries.mergeSort entryAtMost).map (·.2)) with
      | none => .error ()
      | some text => match span with
        | none => .ok none
        | some sp => .ok (some ⟨offsetToPosition content sp.start, offsetToPosition content sp.stop, text⟩)
  | _ => .ok none

end Styx.Lsp
