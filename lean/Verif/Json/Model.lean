import Verif.Format.ValueFormat
import Verif.Schema.Model
import Verif.Serde.Model
import Verif.Tree.Builder

/-!
# Model of the JSON conversions

Sources: crates/styx-wasm/src/lib.rs (the functions exported to JavaScript) and
crates/styx-cli/src/main.rs (`--json-out`).

Simplifications:
* the JSON values are those of `serde_json::Value`; reading and writing JSON texts (crate serde_json) and
  the passage to `JsValue` are not modelled;
* floating point numbers are an abstract type with the operations the code uses (`Lib`);
* a map of `serde_json` is the list of its members: in order of insertion for styx-wasm, which enables
  `preserve_order`, and sorted by name for styx-cli, which does not.
-/

namespace Styx.Json

open Styx.Schema (parseI64)
open Styx.Serde (intText)

/-- The operations of the Rust library: `str::parse::<f64>`, `f64::is_finite`, the text `serde_json` prints
for a finite number, and the `Debug` text of a value. -/
structure Lib where
  F : Type
  parse : List Char → Option F
  finite : F → Bool
  text : F → List Char
  debug : Value → List Char

mutual
/-- `serde_json::Value`; an integer is one of `i64` or `u64`. -/
inductive Json (F : Type) where
  | null
  | bool (b : Bool)
  | int (n : Int)
  | float (x : F)
  | str (s : List Char)
  | arr (items : List (Json F))
  | obj (members : List (Member F))
/-- A member of a `serde_json::Map`. -/
inductive Member (F : Type) where
  | mk (name : List Char) (value : Json F)
end

/-- The name of a member. -/
def Member.name {F : Type} : Member F → List Char
  | .mk n _ => n

/-- The value of a member. -/
def Member.value {F : Type} : Member F → Json F
  | .mk _ v => v

/-- `serde_json::Map::get`. -/
def get {F : Type} (name : List Char) : List (Member F) → Option (Json F)
  | [] => none
  | .mk n v :: ms => if n = name then some v else get name ms

/-- `serde_json::Map::insert` with `preserve_order`: a member of this name gets the value, or a new member
is added at the end. -/
def insert {F : Type} (name : List Char) (v : Json F) : List (Member F) → List (Member F)
  | [] => [.mk name v]
  | .mk n w :: ms => if n = name then .mk n v :: ms else .mk n w :: insert name v ms

/-- styx-wasm/src/lib.rs:153-162: the name for a key. -/
def wasmKey (L : Lib) (k : Value) : List Char :=
  if k.isUnit then ['@']
  else match k.asStr with
    | some s => s
    | none => match k.tagName with
      | some t => '@' :: t
      | none => L.debug k

/-- styx-wasm/src/lib.rs:120-135: a scalar; `json!` of an `f64` that is not finite is `null`. -/
def scalarJson (L : Lib) (text : List Char) : Json L.F :=
  match parseI64 text with
  | some n => .int n
  | none => match L.parse text with
    | some x => if L.finite x then .float x else .null
    | none =>
      if text = chars! "true" then .bool true
      else if text = chars! "false" then .bool false
      else if text = chars! "null" then .null
      else .str text

mutual
/-- styx-wasm/src/lib.rs:101-115 `value_to_json`. -/
def valueJson (L : Lib) : Value → Json L.F
  | .mk none none _ => .null
  | .mk none (some p) _ => payloadJson L p
  | .mk (some t) none _ => .obj [.mk (chars! "$tag") (.str t.name)]
  | .mk (some t) (some p) _ => .obj [.mk (chars! "$tag") (.str t.name), .mk (chars! "$value") (payloadJson L p)]
/-- styx-wasm/src/lib.rs:118-139 `payload_to_json`. -/
def payloadJson (L : Lib) : Payload → Json L.F
  | .scalar text _ _ => scalarJson L text
  | .sequence items _ => .arr (itemsJson L items)
  | .object es _ => .obj (entriesJson L [] es)
/-- styx-wasm/src/lib.rs:142-145 `sequence_to_json`. -/
def itemsJson (L : Lib) : List Value → List (Json L.F)
  | [] => []
  | v :: vs => valueJson L v :: itemsJson L vs
/-- styx-wasm/src/lib.rs:148-168 `object_to_json`; the first list are the members so far. -/
def entriesJson (L : Lib) : List (Member L.F) → List Entry → List (Member L.F)
  | ms, [] => ms
  | ms, .mk k v _ :: es => entriesJson L (insert (wasmKey L k) (valueJson L v) ms) es
end

/-- styx-wasm/src/lib.rs:351-363 `needs_quoting`. -/
def needsQuoting (s : List Char) : Bool :=
  s.isEmpty || s.any (fun c => [' ', '\t', '\n', '\r', '"', '{', '}', '(', ')', ',', '@', '>', '/'].contains c) ||
    startsWith s ['/', '/']

/-- styx-wasm/src/lib.rs:275-291 and 320-332: the scalar for a string. -/
def strValue (s : List Char) : Value :=
  .mk none (some (.scalar s (if needsQuoting s then .quoted else .bare) none)) none

/-- The scalar for the text of a boolean or number, styx-wasm/src/lib.rs:255-273. -/
def bareValue (s : List Char) : Value := .mk none (some (.scalar s .bare none)) none

mutual
/-- styx-wasm/src/lib.rs:251-348 `json_to_value`. -/
def jsonValue (L : Lib) : Json L.F → Value
  | .null => .mk none none none
  | .bool b => bareValue (if b then chars! "true" else chars! "false")
  | .int n => bareValue (intText n)
  | .float x => bareValue (L.text x)
  | .str s => strValue s
  | .arr items => .mk none (some (.sequence (jsonItems L items) none)) none
  | .obj ms =>
    match get (chars! "$tag") ms with
    | some (.str t) => .mk (some ⟨t, none⟩) (jsonPayload L (chars! "$value") ms) none
    | _ => .mk none (some (.object (jsonEntries L ms) none)) none
/-- styx-wasm/src/lib.rs:294: the items of an array. -/
def jsonItems (L : Lib) : List (Json L.F) → List Value
  | [] => []
  | j :: js => jsonValue L j :: jsonItems L js
/-- styx-wasm/src/lib.rs:305: the payload of the value of the member of this name. -/
def jsonPayload (L : Lib) (name : List Char) : List (Member L.F) → Option Payload
  | [] => none
  | .mk n v :: ms => if n = name then (jsonValue L v).payload else jsonPayload L name ms
/-- styx-wasm/src/lib.rs:317-336: the entries for the members of an object. -/
def jsonEntries (L : Lib) : List (Member L.F) → List Entry
  | [] => []
  | .mk n v :: ms => .mk (strValue n) (jsonValue L v) none :: jsonEntries L ms
end

/-- The values of the field `success` and the list of diagnostics, with the kind for the message. -/
structure ParseResult where
  success : Bool
  diagnostics : List (ParseErrorKind × Span)
  deriving DecidableEq, Repr

/-- The diagnostics for the error events. -/
def diagnosticsOf : List Event → List (ParseErrorKind × Span)
  | [] => []
  | e :: es =>
    match e.kind with
    | .error k => (k, e.span) :: diagnosticsOf es
    | _ => diagnosticsOf es

/-- styx-wasm/src/lib.rs:45-70 `parse`; `none` is a panic. -/
def wasmParse (source : List Char) : Option ParseResult :=
  match parseEvents source with
  | none => none
  | some evs =>
    if evs.any (fun e => e.kind == .panic) then none
    else some ⟨(diagnosticsOf evs).isEmpty, diagnosticsOf evs⟩

/-- styx-wasm/src/lib.rs:210-221: the loop of `validate`, which stops at the first error. -/
def validateLoop : List Event → Option Bool
  | [] => some true
  | e :: es =>
    match e.kind with
    | .error _ => some false
    | .panic => none
    | _ => validateLoop es

/-- styx-wasm/src/lib.rs:208-222 `validate`; `none` is a panic. -/
def wasmValidate (source : List Char) : Option Bool := (parseEvents source).bind validateLoop

/-- styx-wasm/src/lib.rs:78-98 `to_json`; `none` is a panic. -/
def toJson (L : Lib) (source : List Char) : Option (Except BuildError (Json L.F)) :=
  (parseTree source).map fun r => r.map (valueJson L)

/-- styx-wasm/src/lib.rs:229-248 `from_json`, from the value of the JSON text; `none` is a panic. -/
def fromJson (L : Lib) (j : Json L.F) : Option (List Char) := formatDocument {} (jsonValue L j)

/-! ## The command line -/

/-- The order of strings: by bytes of UTF-8, which is by characters. -/
def before : List Char → List Char → Bool
  | _, [] => false
  | [], _ :: _ => true
  | a :: as, b :: bs => if a = b then before as bs else a.toNat < b.toNat

/-- `serde_json::Map::insert` without `preserve_order`: a B-tree map, sorted by name. -/
def insertSorted {F : Type} (name : List Char) (v : Json F) : List (Member F) → List (Member F)
  | [] => [.mk name v]
  | .mk n w :: ms =>
    if n = name then .mk n v :: ms
    else if before name n then .mk name v :: .mk n w :: ms
    else .mk n w :: insertSorted name v ms

/-- styx-cli/src/main.rs:1386-1392: the name for a key. -/
def cliKey (L : Lib) (k : Value) : List Char :=
  if k.isUnit then ['@'] else match k.asStr with | some s => s | none => L.debug k

mutual
/-- styx-cli/src/main.rs:1358-1375 `value_to_json`. -/
def cliJson (L : Lib) : Value → Json L.F
  | .mk none none _ => .null
  | .mk none (some p) _ => cliPayload L p
  | .mk (some t) none _ => .obj (insertSorted (chars! "$tag") (.str t.name) [])
  | .mk (some t) (some p) _ =>
    .obj (insertSorted (chars! "$payload") (cliPayload L p) (insertSorted (chars! "$tag") (.str t.name) []))
/-- styx-cli/src/main.rs:1377-1398 `payload_to_json`. -/
def cliPayload (L : Lib) : Payload → Json L.F
  | .scalar text _ _ => .str text
  | .sequence items _ => .arr (cliItems L items)
  | .object es _ => .obj (cliEntries L [] es)
/-- styx-cli/src/main.rs:1380-1382: the items. -/
def cliItems (L : Lib) : List Value → List (Json L.F)
  | [] => []
  | v :: vs => cliJson L v :: cliItems L vs
/-- styx-cli/src/main.rs:1384-1395: the entries; the first list are the members so far. -/
def cliEntries (L : Lib) : List (Member L.F) → List Entry → List (Member L.F)
  | ms, [] => ms
  | ms, .mk k v _ :: es => cliEntries L (insertSorted (cliKey L k) (cliJson L v) ms) es
end

end Styx.Json
