import Verif.Json.Model
import Verif.Lsp.Model

/-!
# Model of what the language server passes between extensions and the editor

Sources: crates/styx-lsp/src/server.rs (the diagnostics and code actions of extensions, the conversions of
their data), crates/styx-lsp-ext/src/lib.rs (the types of the protocol and `Position::from_offset`).

Simplifications: the vox protocol and the JSON text between server and editor deliver what was sent; a URL
is an element of a type with decidable equality and `Url::parse` is a parameter; `u32` is `Nat`.
-/

namespace Styx.Lsp.Protocol

open Styx Styx.Json

/-- The operations of the Rust library: whether the map of `serde_json` is sorted (without the feature
`preserve_order`, which styx-wasm switches on for a build of the whole workspace) and the text of a float. -/
structure Lib where
  sorted : Bool
  F : Type
  text : F → List Char

/-- `serde_json::Map::insert`. -/
def insertMember (L : Lib) (name : List Char) (j : Json L.F) (ms : List (Member L.F)) : List (Member L.F) :=
  if L.sorted then insertSorted name j ms else Json.insert name j ms

mutual
/-- crates/styx-lsp/src/server.rs:3046-3071 `convert_styx_value_to_json`. -/
def toJson (L : Lib) : Value → Json L.F
  | .mk none (some (.scalar text _ _)) _ => .str text
  | .mk _ (some (.object es _)) _ => .obj (toMembers L [] es)
  | .mk _ (some (.sequence items _)) _ => .arr (toItems L items)
  | .mk _ _ _ => .null
/-- crates/styx-lsp/src/server.rs:3065: the items of a sequence. -/
def toItems (L : Lib) : List Value → List (Json L.F)
  | [] => []
  | v :: vs => toJson L v :: toItems L vs
/-- crates/styx-lsp/src/server.rs:3054-3060: the entries of an object; the first list is the map so far. -/
def toMembers (L : Lib) : List (Member L.F) → List Entry → List (Member L.F)
  | ms, [] => ms
  | ms, .mk k v _ :: es =>
    match k.asStr with
    | some name => toMembers L (insertMember L name (toJson L v) ms) es
    | none => toMembers L ms es
end

mutual
/-- crates/styx-lsp/src/server.rs:3074-3147 `json_to_styx_value`. -/
def ofJson (L : Lib) : Json L.F → Value
  | .null => Value.unit
  | .bool b => bareValue (if b then chars! "true" else chars! "false")
  | .int n => bareValue (Serde.intText n)
  | .float x => bareValue (L.text x)
  | .str s => bareValue s
  | .arr items => .mk none (some (.sequence (ofItems L items) none)) none
  | .obj ms => .mk none (some (.object (ofMembers L ms) none)) none
/-- crates/styx-lsp/src/server.rs:3111: the items of an array. -/
def ofItems (L : Lib) : List (Json L.F) → List Value
  | [] => []
  | j :: js => ofJson L j :: ofItems L js
/-- crates/styx-lsp/src/server.rs:3119-3136: the members of an object. -/
def ofMembers (L : Lib) : List (Member L.F) → List Entry
  | [] => []
  | .mk name j :: ms => .mk (bareValue name) (ofJson L j) none :: ofMembers L ms
end

/-- crates/styx-lsp-ext/src/lib.rs:364-372 `DiagnosticSeverity` of an extension. -/
inductive Severity where
  | error
  | warning
  | info
  | hint
  deriving DecidableEq, Repr

/-- crates/styx-lsp-ext/src/lib.rs:346-362 `Diagnostic` of an extension. -/
structure ExtDiagnostic where
  start : Nat
  stop : Nat
  severity : Severity
  message : List Char
  source : Option (List Char)
  code : Option (List Char)
  data : Option Value

/-- `lsp_types::NumberOrString`. -/
inductive NumberOrString where
  | number (n : Int)
  | string (s : List Char)
  deriving DecidableEq, Repr

/-- `lsp_types::Diagnostic`, the fields the server sets; a severity is the number of the protocol. -/
structure EdDiagnostic (F : Type) where
  start : Position
  stop : Position
  severity : Option Nat
  code : Option NumberOrString
  source : Option (List Char)
  message : List Char
  data : Option (Json F)

/-- crates/styx-lsp/src/server.rs:158-163: the severity sent to the editor. -/
def Severity.toEditor : Severity → Nat
  | .error => 1
  | .warning => 2
  | .info => 3
  | .hint => 4

/-- crates/styx-lsp/src/server.rs:1312-1318: the severity sent to the extension. -/
def Severity.ofEditor : Option Nat → Severity
  | some 1 => .error
  | some 2 => .warning
  | some 3 => .info
  | some 4 => .hint
  | none => .hint
  | some _ => .info

/-- crates/styx-lsp/src/server.rs:157-177: a diagnostic of an extension, as it is published. -/
def publish (L : Lib) (content : List Char) (d : ExtDiagnostic) : EdDiagnostic L.F :=
  { start := offsetToPosition content d.start
    stop := offsetToPosition content d.stop
    severity := some d.severity.toEditor
    code := d.code.map .string
    source := d.source
    message := d.message
    data := d.data.map (toJson L) }

/-- crates/styx-lsp/src/server.rs:1321-1324: the code as a string. -/
def codeText : NumberOrString → List Char
  | .string s => s
  | .number n => Serde.intText n

/-- crates/styx-lsp/src/server.rs:1307-1329: a diagnostic in a request for code actions, as the extension
gets it. -/
def handBack (L : Lib) (content : List Char) (d : EdDiagnostic L.F) : ExtDiagnostic :=
  { start := positionToOffset content d.start
    stop := positionToOffset content d.stop
    severity := .ofEditor d.severity
    message := d.message
    source := d.source
    code := d.code.map codeText
    data := d.data.map (ofJson L) }

/-- crates/styx-lsp-ext/src/lib.rs:425-432 `TextEdit` of an extension. -/
structure ExtEdit where
  start : Nat
  stop : Nat
  newText : List Char
  deriving DecidableEq, Repr

/-- crates/styx-lsp-ext/src/lib.rs:418-423 `DocumentEdit` of an extension. -/
structure ExtDocEdit where
  uri : List Char
  edits : List ExtEdit
  deriving DecidableEq, Repr

/-- `HashMap::insert`: a map is the list of its entries in some order. -/
def mapInsert {K V : Type} [DecidableEq K] (k : K) (v : V) : List (K × V) → List (K × V)
  | [] => [(k, v)]
  | (k', v') :: es => if k' = k then (k, v) :: es else (k', v') :: mapInsert k v es

/-- crates/styx-lsp/src/server.rs:1373-1389: the edits of one document. -/
def toEdits (content : List Char) (es : List ExtEdit) : List TextEdit :=
  es.map fun e => ⟨offsetToPosition content e.start, offsetToPosition content e.stop, e.newText⟩

/-- crates/styx-lsp/src/server.rs:1355-1392: the changes of the workspace edit for the document `uri` with
the text `content`; `docs` are the documents that are open. -/
def toChanges {U : Type} [DecidableEq U] (parseUrl : List Char → Option U) (docs : U → Option (List Char))
    (uri : U) (content : List Char) :
    List ExtDocEdit → List (U × List TextEdit) → List (U × List TextEdit)
  | [], m => m
  | d :: ds, m =>
    let docUri := (parseUrl d.uri).getD uri
    if docUri = uri then
      toChanges parseUrl docs uri content ds (mapInsert docUri (toEdits content d.edits) m)
    else match docs docUri with
      | some target => toChanges parseUrl docs uri content ds (mapInsert docUri (toEdits target d.edits) m)
      | none => toChanges parseUrl docs uri content ds m

/-- See `toChanges` (crates/styx-lsp/src/server.rs:1355-1392). -/
def changes {U : Type} [DecidableEq U] (parseUrl : List Char → Option U) (docs : U → Option (List Char))
    (uri : U) (content : List Char) (ds : List ExtDocEdit) : List (U × List TextEdit) :=
  toChanges parseUrl docs uri content ds []

/-- crates/styx-lsp-ext/src/lib.rs:155-171 `Position::from_offset`: `none` is the panic of a slice inside a
character. -/
def fromOffset (content : List Char) (offset : Nat) : Option Position :=
  if offset > utf8Len content then
    some ⟨content.count '\n', utf8Len content - (utf8Len content - utf8Len (lastLine content))⟩
  else (takeBytes offset content).map fun before =>
    ⟨before.count '\n', offset - (utf8Len before - utf8Len (lastLine before))⟩

/-- crates/styx-lsp-ext/src/lib.rs:191-196 `Range::from_span`. -/
def fromSpan (content : List Char) (start stop : Nat) : Option (Position × Position) :=
  (fromOffset content start).bind fun a => (fromOffset content stop).map fun b => (a, b)

/-- crates/styx-lsp/src/server.rs:1824-1829: the position of a hint of an extension, as it is sent to the
editor. -/
def hintPosition (p : Position) : Position := ⟨p.line, p.character⟩

/-- crates/styx-lsp/src/extensions.rs:328-345 `get_subtree`, for the tree of a document that is open. -/
def subtree : List (List Char) → Value → Option Value
  | [], v => some v
  | key :: path, v =>
    match v.payload with
    | some (.object es _) =>
      match es.find? fun e => e.key.asStr == some key with
      | some e => subtree path e.value
      | none => none
    | _ => none

end Styx.Lsp.Protocol
