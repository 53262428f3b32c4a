import Verif.Lsp.Cursor
import Verif.Lsp.Navigate
import Verif.Lsp.Declare

/-!
# Model: hover, go to definition and references (styx-lsp/src/server.rs)

The parts that read the schema of a document as a tree.  Extensions (server.rs:728-803, 849-905), the addresses of
documents and the loading of schemas are not modelled: a document comes with the schema that `resolve_schema` gives.
The functions that follow references of the schema may call themselves for ever; they take fuel, and running out of
it is `Outcome.runsOut`.
-/

namespace Styx.Lsp

open Styx

/-- `lsp_types::Range`. -/
structure LspRange where
  start : Position
  stop : Position
  deriving DecidableEq, Repr

/-- server.rs:2349-2352 and 3211-3214: the range of a span. -/
def rangeOf (content : List Char) (sp : Span) : LspRange :=
  ⟨offsetToPosition content sp.start, offsetToPosition content sp.stop⟩

/-- server.rs:2345-2346 and 3208-3209: the range of a key with the name, if it has a span. -/
def keyRange (content name : List Char) (k : Value) : Option LspRange :=
  if k.asStr = some name then k.span.map (rangeOf content) else none

mutual
/-- server.rs:2331-2377 `find_field_in_object`.  The second way to an object (2335-2340) is never taken: `as_object`
looks at the payload alone. -/
def findInObject (content name : List Char) : Value → Option LspRange
  | .mk _ (some (.object es _)) _ => findInEntries content name es
  | .mk _ _ _ => none
/-- server.rs:2344-2374: the loop over the entries.  A value under the key `@` is searched twice (2357-2364); the
second search finds what the first found. -/
def findInEntries (content name : List Char) : List Entry → Option LspRange
  | [] => none
  | .mk k v _ :: es =>
    match keyRange content name k with
    | some r => some r
    | none =>
      match (if k.isUnit then findInObject content name v else none) with
      | some r => some r
      | none =>
        match findInObject content name v with
        | some r => some r
        | none => findInEntries content name es
end

/-- server.rs:2299-2323: the search in the value of the entry `schema`. -/
def findInBlock (content name : List Char) (block : Value) : Option LspRange :=
  match block.asObject.bind objGetUnit with
  | some root =>
    match root.asObject with
    | some inner =>
      match inner.find? fun e => e.key.tagName == some (chars! "object") with
      | some e => findInObject content name e.value
      | none => findInObject content name block
    | none =>
      if root.tagName = some (chars! "object") then findInObject content name root else findInObject content name block
  | none => findInObject content name block

/-- server.rs:2286-2328 `find_field_in_schema_source`, given the tree of the schema. -/
def findInSchema (content name : List Char) (tree : Value) : Option LspRange :=
  (tree.asObject.bind fun es => objGet es (chars! "schema")).bind fun block => findInBlock content name block

/-- server.rs:3204-3219 `find_field_in_doc`. -/
def findInDoc (content name : List Char) (tree : Value) : Option LspRange :=
  tree.asObject.bind fun es => es.findSome? fun e => keyRange content name e.key

/-- server.rs:3184-3201 `is_schema_file`. -/
def isSchemaFile (tree : Value) : Bool :=
  match tree.asObject with
  | some es => (es.any fun e => e.key.asStr == some (chars! "schema")) && es.any fun e => e.key.asStr == some (chars! "meta")
  | none => false

/-- server.rs:2205-2212 `PathSegment::as_str`. -/
def Seg.text : Seg → List Char
  | .field name => name
  | .index i => Nat.toDigits 10 i

/-- server.rs:2215-2218 `find_field_path_at_offset`. -/
def pathAt (tree : Value) (off : Nat) : Option (List (List Char)) := (findPath off tree).map (·.map Seg.text)

/-- server.rs:2193-2196 `find_field_key_at_offset`. -/
def fieldAt (tree : Value) (off : Nat) : Option (List Char) := (pathAt tree off).bind List.getLast?

/-- An open document: its address, text and tree, and what `resolve_schema` gives for it: the address and the text
of its schema. -/
structure OpenDoc where
  uri : List Char
  content : List Char
  tree : Option Value
  schema : Option (List Char × List Char)

/-- `lsp_types::Location`. -/
structure Location where
  uri : List Char
  range : LspRange
  deriving DecidableEq, Repr

/-- server.rs:2288 with 2292: the tree of a schema, if it can be read. -/
def schemaTree (source : List Char) : Option Value :=
  match parseTree source with
  | some (.ok v) => some v
  | _ => none

/-- server.rs:2132-2146 `find_schema_declaration_range`. -/
def declarationRange (content : List Char) (tree : Value) : Option LspRange :=
  tree.asObject.bind fun es => (es.find? fun e => Cli.isSchemaTag e.key).bind fun e => e.value.span.map (rangeOf content)

/-- The order of `lsp_types::Position`: by line, then by character. -/
def Position.le (p q : Position) : Bool := decide (p.line < q.line) || (p.line == q.line && decide (p.character ≤ q.character))

/-- server.rs:677-679 and 827-829: the cursor is on the declaration of the schema. -/
def onDeclaration (content : List Char) (tree : Value) (position : Position) : Bool :=
  match declarationRange content tree with
  | some r => r.start.le position && position.le r.stop
  | none => false

/-- server.rs:702-726 and 1665-1684: the use of a field in an open document with the given schema, if there is one. -/
def useIn (name uri : List Char) (d : OpenDoc) : Option Location :=
  match d.tree, d.schema with
  | some t, some (u, _) => if u = uri then (findInDoc d.content name t).map (⟨d.uri, ·⟩) else none
  | _, _ => none

/-- server.rs:656-726 `goto_definition` without extensions: the declaration of the schema, then the field in the
schema, then, in a schema, the first document that uses the field.  `docs` is the order in which the map of documents
is gone through. -/
def gotoDefinition (docs : List OpenDoc) (doc : OpenDoc) (tree : Value) (position : Position) : Option Location :=
  match (if onDeclaration doc.content tree position then doc.schema else none) with
  | some (u, _) => some ⟨u, ⟨⟨0, 0⟩, ⟨0, 0⟩⟩⟩
  | none =>
    match fieldAt tree (positionToOffset doc.content position) with
    | none => none
    | some name =>
      match doc.schema.bind fun s => (schemaTree s.2).bind fun t => (findInSchema s.2 name t).map (⟨s.1, ·⟩) with
      | some l => some l
      | none =>
        if isSchemaFile tree then docs.findSome? fun d => if d.uri = doc.uri then none else useIn name doc.uri d
        else none

/-- server.rs:1639-1721 `references`. -/
def references (docs : List OpenDoc) (doc : OpenDoc) (tree : Value) (position : Position) : List Location :=
  match fieldAt tree (positionToOffset doc.content position) with
  | none => []
  | some name =>
    if isSchemaFile tree then docs.filterMap fun d => if d.uri = doc.uri then none else useIn name doc.uri d
    else
      match doc.schema with
      | none => []
      | some (u, source) =>
        match (schemaTree source).bind fun t => findInSchema source name t with
        | none => []
        | some r => ⟨u, r⟩ :: docs.filterMap (useIn name u)

/-! ### Hover -/

/-- server.rs:2554-2561: a tag with no payload, or with an empty text. -/
def isTypeRef (v : Value) : Bool :=
  v.tag.isSome && match v.payload with
    | none => true
    | some (.scalar text _ _) => text.isEmpty
    | _ => false

/-- server.rs:2551-2570 `resolve_type_reference`. -/
def resolveRef (defs : List Entry) (v : Value) : Value :=
  match v.tagName with
  | some name => if isTypeRef v then (objGet defs name).getD v else v
  | none => v

mutual
/-- server.rs:2575-2596 `extract_seq_element_type`. -/
def seqElement : Value → Option Value
  | .mk (some t) (some (.sequence items _)) _ =>
    if t.name = chars! "seq" then items.head?
    else if t.name = chars! "optional" ∨ t.name = chars! "default" then seqElements items else none
  | .mk _ _ _ => none
/-- server.rs:2588-2592: the loop over the items. -/
def seqElements : List Value → Option Value
  | [] => none
  | v :: vs => match seqElement v with
    | some t => some t
    | none => seqElements vs
end

/-- server.rs:2601-2614 `extract_map_value_type`. -/
def mapValueType (v : Value) : Option Value :=
  if v.tagName = some (chars! "map") then
    match v.asSequence with
    | some [t] => some t
    | some [_, t] => some t
    | _ => none
  else none

/-- server.rs:2638-2658 `extract_object_catchall_value_type`. -/
def anyKeyType (v : Value) : Option Value :=
  if v.tagName = some (chars! "object") then
    match v.asObject with
    | some [e] => if e.key.tag.isSome && e.key.payload.isNone then some e.value else none
    | _ => none
  else none

/-- server.rs:2622-2628 `extract_enum_object`. -/
def variantsOf (v : Value) : Option (List Entry) := if v.tagName = some (chars! "enum") then v.asObject else none

/-- A loop that returns the first answer of its calls. -/
def firstAnswer {α β : Type} (f : α → Outcome (Option β)) : List α → Outcome (Option β)
  | [] => .done none
  | x :: xs => (f x).bind fun
    | some a => .done (some a)
    | none => firstAnswer f xs

/-- server.rs:2661-2693 `extract_object_from_value_with_defs`. -/
def objectWithDefs (defs : List Entry) : Nat → Value → Outcome (Option (List Entry))
  | 0, _ => .runsOut
  | n + 1, v =>
    let r := resolveRef defs v
    match r.asObject with
    | some es => .done (some es)
    | none =>
      if r.tag.isSome then
        match r.asSequence with
        | some items => firstAnswer (objectWithDefs defs n) items
        | none => .done none
      else .done none

mutual
/-- server.rs:2722-2768 `format_type_concise`. -/
def typeText : Value → List Char
  | .mk none none _ => ['@']
  | .mk none (some (.scalar text _ _)) _ => if text.isEmpty then ['@'] else text
  | .mk none (some (.object es _)) _ =>
    chars! "{...} (" ++ Nat.toDigits 10 es.length ++ chars! " fields)"
  | .mk none (some (.sequence items _)) _ => '(' :: typeTexts items ++ [')']
  | .mk (some t) none _ => '@' :: t.name
  | .mk (some t) (some (.scalar text _ _)) _ => '@' :: t.name ++ '(' :: text ++ [')']
  | .mk (some t) (some (.object _ _)) _ => '@' :: t.name ++ chars! "{...}"
  | .mk (some t) (some (.sequence items _)) _ => '@' :: t.name ++ '(' :: typeTexts items ++ [')']
/-- server.rs:2752-2757: the items with a space between them. -/
def typeTexts : List Value → List Char
  | [] => []
  | [v] => typeText v
  | v :: w :: vs => typeText v ++ ' ' :: typeTexts (w :: vs)
end

/-- server.rs:2414-2419 `FieldInfo`. -/
structure FieldInfo where
  typeStr : List Char
  doc : Option (List Char)
  deriving DecidableEq, Repr

/-- server.rs:2519-2544: the loop over the fields of an object; `deeper` is the call of `get_field_info_in_type`. -/
def fieldIn (deeper : Value → List (List Char) → Outcome (Option FieldInfo)) (name : List Char)
    (rest : List (List Char)) : List Entry → Outcome (Option FieldInfo)
  | [] => .done none
  | e :: es =>
    if e.key.asStr = some name then
      if rest = [] then .done (some ⟨typeText e.value, e.doc⟩) else deeper e.value rest
    else if e.key.isUnit then
      (deeper e.value (name :: rest)).bind fun
        | some i => .done (some i)
        | none => fieldIn deeper name rest es
    else fieldIn deeper name rest es

/-- server.rs:2476-2489 and 2493-2506: the values of a map or of an object with any keys. -/
def valueInfo (deeper : Value → List (List Char) → Outcome (Option FieldInfo)) (defs : List Entry) (t : Value)
    (rest : List (List Char)) : Outcome (Option FieldInfo) :=
  if rest = [] then .done (some ⟨typeText t, none⟩) else deeper (resolveRef defs t) rest

/-- server.rs:2452-2547 `get_field_info_in_type`. -/
def fieldInfo (defs : List Entry) : Nat → Value → List (List Char) → Outcome (Option FieldInfo)
  | 0, _, _ => .runsOut
  | _ + 1, _, [] => .done none
  | n + 1, v, name :: rest =>
    match (if (parseUsize name).isSome then seqElement v else none) with
    | some t => fieldInfo defs n (resolveRef defs t) rest
    | none =>
      match mapValueType v with
      | some t => valueInfo (fieldInfo defs n) defs t rest
      | none =>
        match anyKeyType v with
        | some t => valueInfo (fieldInfo defs n) defs t rest
        | none =>
          match variantsOf v with
          | some es => firstAnswer (fun e => fieldInfo defs n (resolveRef defs e.value) (name :: rest)) es
          | none => (objectWithDefs defs n v).bind fun
            | some es => fieldIn (fieldInfo defs n) name rest es
            | none => .done none

/-- server.rs:2437-2448 `get_field_info_in_schema`. -/
def infoInBlock (n : Nat) (block : Value) (path : List (List Char)) : Outcome (Option FieldInfo) :=
  match block.asObject with
  | none => .done none
  | some defs => match objGetUnit defs with
    | none => .done none
    | some root => fieldInfo defs n root path

/-- server.rs:2421-2433 `get_field_info_from_schema`, given the tree of the schema. -/
def infoInSchema (n : Nat) (tree : Value) (path : List (List Char)) : Outcome (Option FieldInfo) :=
  match tree.asObject.bind fun es => objGet es (chars! "schema") with
  | some block => infoInBlock n block path
  | none => .done none

/-- server.rs:2772-2783 `format_breadcrumb` with the link given. -/
def breadcrumb (link : List Char) (path : List (List Char)) : List Char :=
  chars! "[@](" ++ link ++ [')'] ++ path.flatMap fun s => chars! " › " ++ s

/-- server.rs:2786-2808 `format_field_hover`; the link is always there (921). -/
def hoverText (link : List Char) (path : List (List Char)) (i : FieldInfo) : List Char :=
  (match i.doc with
    | some d => d ++ chars! "\n\n"
    | none => []) ++ breadcrumb link path ++ chars! ": `" ++ i.typeStr ++ ['`']

/-- server.rs:909-937: the hover of a field, for the tree of the document and the tree of its schema; `link` is the
address of the schema with the place of the field (913-922). -/
def fieldHover (n : Nat) (schema tree : Value) (link : List Char → List Char) (off : Nat) :
    Outcome (Option (List Char)) :=
  match pathAt tree off with
  | none => .done none
  | some path => (infoInSchema n schema path).bind fun
    | some i => .done (some (hoverText (link (path.getLast?.getD [])) path i))
    | none => .done none

end Styx.Lsp
