import Verif.Impl.Parser
import Verif.Impl.Sexp

/-!
# Model of the typed reading of the JavaScript implementation

Source: implementations/styx-js/src/typed.ts.

The functions read a schema and a document and give a JavaScript value.  Simplifications: integers are exact, where
JavaScript rounds those above 2^53; the result of `parseFloat` is its argument; fields keep the order in which they were
added, where JavaScript puts names such as `10` first; a field or type that a schema calls `__proto__` is left out, where
JavaScript makes it the prototype of the record.  Names that records inherit from `Object.prototype`, such as `constructor`,
have no effect: what is found there has no field `type`, and such a type is read like an unknown one.
-/

namespace Styx.Impl

open Styx

/-- typed.ts:7-34 `SchemaType`.  The key type of a map is never used. -/
inductive JsType where
  | string | int | float | bool | unit | any
  | object (fields : List (List Char × JsType))
  | seq (inner : JsType)
  | map (inner : JsType)
  | union (variants : List JsType)
  | optional (inner : JsType)
  | default (value : Value) (inner : JsType)
  | ref (name : List Char)

/-- JavaScript values.  An integer is `none` if it is NaN; an object has its own properties and a prototype, which is
`none` if it is `Object.prototype`. -/
inductive Js where
  | undefined | null
  | bool (b : Bool)
  | str (s : List Char)
  | int (n : Option Int)
  | float (text : List Char)
  | arr (items : List Js)
  | obj (own : List (List Char × Js)) (proto : Option Js)

/-- `record[key] = x` on the own properties of a record. -/
def setOwn {α : Type} (key : List Char) (x : α) : List (List Char × α) → List (List Char × α)
  | [] => [(key, x)]
  | (k, y) :: r => if k = key then (k, x) :: r else (k, y) :: setOwn key x r

/-- `record[key]` on the own properties of a record. -/
def getOwn {α : Type} (key : List Char) : List (List Char × α) → Option α
  | [] => none
  | (k, y) :: r => if k = key then some y else getOwn key r

/-- The name of the property that stands for the prototype. -/
def protoName : List Char := chars! "__proto__"

/-- Objects and `null` can be prototypes. -/
def canBeProto : Js → Bool
  | .null | .arr _ | .obj .. => true
  | _ => false

/-- `result[key] = x` on an object: `__proto__` sets the prototype, if `x` can be one, and does nothing otherwise. -/
def setProp (o : List (List Char × Js) × Option Js) (key : List Char) (x : Js) : List (List Char × Js) × Option Js :=
  if key = protoName then (if canBeProto x then (o.1, some x) else o) else (setOwn key x o.1, o.2)

/-- typed.ts:76-82 `getScalarContent`. -/
def scalarContent (v : Value) : Option (List Char) :=
  match v.payload with
  | some (.scalar text _ _) => some text
  | _ => none

/-- `getScalarContent(key)` if that is truthy (typed.ts:131, 301, 341, 396). -/
def keyContent (v : Value) : Option (List Char) :=
  match scalarContent v with
  | some (c :: cs) => some (c :: cs)
  | _ => none

/-- A name without effect on the record of a schema (see above). -/
def schemaName (v : Value) : Option (List Char) :=
  match keyContent v with
  | some k => if k = protoName then none else some k
  | none => none

/-- A record with these properties, set in this order. -/
def recordOf (ps : List (List Char × JsType)) : List (List Char × JsType) :=
  ps.foldl (fun acc p => setOwn p.1 p.2 acc) []

/-- typed.ts:111-213: the branches of `parseSchemaType` for a tag whose payload is an object with these fields, or a sequence
of items, read as these types. -/
def schemaTagged (name : List Char) (fields : List (List Char × JsType)) (items : List Value) (types : List JsType) : JsType :=
  if name = (chars! "string") then .string
  else if name = (chars! "int") then .int
  else if name = (chars! "float") then .float
  else if name = (chars! "bool") then .bool
  else if name = (chars! "unit") then .unit
  else if name = (chars! "any") then .any
  else if name = (chars! "object") then .object (recordOf fields)
  else if name = (chars! "seq") then .seq (types.head?.getD .any)
  else if name = (chars! "map") then
    match types with
    | [t] => .map t
    | [_, t] => .map t
    | _ => .map .any
  else if name = (chars! "optional") then .optional (types.head?.getD .any)
  else if name = (chars! "default") then
    match items with
    | v :: _ => .default v ((types.drop 1).head?.getD .any)
    | [] => .any
  else if name = (chars! "union") then .union types
  else .ref name

mutual
/-- typed.ts:97-214 `parseSchemaType`. -/
def schemaType : Value → JsType
  | .mk (some ⟨c :: cs, _⟩) (some (.sequence items _)) _ => schemaTagged (c :: cs) [] items (schemaTypes items)
  | .mk (some ⟨c :: cs, _⟩) (some (.object es _)) _ => schemaTagged (c :: cs) (schemaFields es) [] []
  | .mk (some ⟨c :: cs, _⟩) _ _ => schemaTagged (c :: cs) [] [] []
  | .mk _ (some (.scalar (c :: cs) _ _)) _ => .ref (c :: cs)
  | .mk _ _ _ => .any
/-- typed.ts:125-136: the fields of an object. -/
def schemaFields : List Entry → List (List Char × JsType)
  | [] => []
  | .mk k v _ :: es =>
    match schemaName k with
    | some name => (name, schemaType v) :: schemaFields es
    | none => schemaFields es
/-- The items of a sequence as types. -/
def schemaTypes : List Value → List JsType
  | [] => []
  | v :: vs => schemaType v :: schemaTypes vs
end

/-- typed.ts:36-39 `ParsedSchema`. -/
structure JsSchema where
  root : JsType
  types : List (List Char × JsType)

/-- typed.ts:57-71: the loop over the entries of the block `schema`. -/
def readTypes : List Entry → JsSchema → JsSchema
  | [], s => s
  | .mk k v _ :: es, s =>
    let t := schemaType v
    let s :=
      if (k.payload.isNone && k.tag.isNone) || scalarContent k = some (chars! "@") then { s with root := t }
      else match scalarContent k with
        | some name => if name = protoName then s else { s with types := setOwn name t s.types }
        | none => s
    readTypes es s

/-- typed.ts:44-74 `parseSchema`, on the entries of the schema document; `none` if it throws. -/
def parseSchema (doc : List Entry) : Option JsSchema :=
  match doc.find? (fun e => scalarContent e.key = some (chars! "schema")) with
  | some (.mk _ v _) =>
    match v.asObject with
    | some es => some (readTypes es ⟨.any, []⟩)
    | none => none
  | none => none

/-- The digits of `parseInt(s, 10)`. -/
def jsDigits (s : List Char) : Option Nat :=
  match s.takeWhile Char.isDigit with
  | [] => none
  | ds => some (ds.foldl (fun n c => 10 * n + (c.toNat - '0'.toNat)) 0)

/-- `parseInt(s, 10)`; `none` is NaN.  The white space it skips is that of `\s`. -/
def jsParseInt (s : List Char) : Option Int :=
  match s.dropWhile isJsSpace with
  | '-' :: r => (jsDigits r).map fun n => -(n : Int)
  | '+' :: r => (jsDigits r).map fun n => (n : Int)
  | r => (jsDigits r).map fun n => (n : Int)

/-- `{ [key]: x, … }`, set in this order on a fresh object. -/
def objectOf (ps : List (List Char × Js)) : Js :=
  let o := ps.foldl (fun o p => setProp o p.1 p.2) ([], none)
  .obj o.1 o.2

mutual
/-- typed.ts:372-406 `toTypedAny`. -/
def toAny : Value → Js
  | .mk _ none _ => .null
  | .mk _ (some (.scalar text _ _)) _ => .str text
  | .mk _ (some (.sequence items _)) _ => .arr (toAnyItems items)
  | .mk _ (some (.object es _)) _ => objectOf (toAnyEntries es)
/-- typed.ts:388. -/
def toAnyItems : List Value → List Js
  | [] => []
  | v :: vs => toAny v :: toAnyItems vs
/-- typed.ts:394-399. -/
def toAnyEntries : List Entry → List (List Char × Js)
  | [] => []
  | .mk k v _ :: es =>
    match keyContent k with
    | some key => (key, toAny v) :: toAnyEntries es
    | none => toAnyEntries es
end

/-- One after the other; `none` as soon as one has no answer. -/
def allDone {α β : Type} (f : α → Option β) : List α → Option (List β)
  | [] => some []
  | x :: xs =>
    match f x, allDone f xs with
    | some y, some ys => some (y :: ys)
    | _, _ => none

/-- The entries that an object of the document sets (typed.ts:299-306, 339-344): those whose key is a text that is not
empty. -/
def setEntries (es : List Entry) : List (List Char × Value) :=
  es.filterMap fun e => (keyContent e.key).map fun k => (k, e.value)

/-- The fields that are not there (typed.ts:310-311). -/
def missingFields (fields : List (List Char × JsType)) (es : List Entry) : List (List Char × JsType) :=
  fields.filter fun f => !(setEntries es).any fun e => e.1 = f.1

/-- A default that is not `undefined` (typed.ts:312-315). -/
def definedOnly (ps : List (List Char × Js)) : List (List Char × Js) :=
  ps.filter fun p => match p.2 with
    | .undefined => false
    | _ => true

mutual
/-- typed.ts:246-367 `toTyped`; `none` if the recursion is deeper than the fuel. -/
def toTyped (types : List (List Char × JsType)) : Nat → Value → JsType → Option Js
  | 0, _, _ => none
  | n + 1, v, .ref name =>
    match getOwn name types with
    | some t => toTyped types n v t
    | none => some (toAny v)
  | _ + 1, v, .string => some (.str ((scalarContent v).getD []))
  | _ + 1, v, .int =>
    match scalarContent v with
    | some (c :: cs) => some (.int (jsParseInt (c :: cs)))
    | _ => some (.int (some 0))
  | _ + 1, v, .float =>
    match scalarContent v with
    | some (c :: cs) => some (.float (c :: cs))
    | _ => some (.float ['0'])
  | _ + 1, v, .bool => some (.bool (scalarContent v = some (chars! "true")))
  | _ + 1, _, .unit => some .null
  | _ + 1, v, .any => some (toAny v)
  | n + 1, v, .object fields =>
    match v.asObject with
    | none => some (objectOf [])
    | some es =>
      match allDone (fun p => (toTyped types n p.2 ((getOwn p.1 fields).getD .any)).map fun x => (p.1, x)) (setEntries es),
        allDone (fun f => (getDefault types n f.2).map fun x => (f.1, x)) (missingFields fields es) with
      | some ps, some ds => some (objectOf (ps ++ definedOnly ds))
      | _, _ => none
  | n + 1, v, .seq inner =>
    match v.asSequence with
    | none => some (.arr [])
    | some items => (allDone (fun x => toTyped types n x inner) items).map .arr
  | n + 1, v, .map inner =>
    match v.asObject with
    | none => some (objectOf [])
    | some es => (allDone (fun p => (toTyped types n p.2 inner).map fun x => (p.1, x)) (setEntries es)).map objectOf
  | n + 1, v, .optional inner => toTyped types n v inner
  | n + 1, v, .default _ inner => toTyped types n v inner
  | _ + 1, v, .union _ => some (toAny v)
/-- typed.ts:219-241 `getDefaultValue`. -/
def getDefault (types : List (List Char × JsType)) : Nat → JsType → Option Js
  | 0, _ => none
  | n + 1, .ref name =>
    match getOwn name types with
    | some t => getDefault types n t
    | none => some .undefined
  | n + 1, .default v inner => toTyped types n v inner
  | _ + 1, _ => some .undefined
end

/-- typed.ts:415-423, 434-441: the document as a value. -/
def rootValue (doc : List Entry) : Value := .mk none (some (.object doc none)) none

/-- typed.ts:411-426 `parseTyped`; `none` if it does not return with this fuel, an error if it throws. -/
def parseTyped (n : Nat) (source schema : List Char) : Option (Except Unit Js) :=
  match parse .javascript n schema with
  | none => none
  | some (.error _) => some (.error ())
  | some (.ok sdoc) =>
    match parseSchema sdoc with
    | none => some (.error ())
    | some s =>
      match parse .javascript n source with
      | none => none
      | some (.error _) => some (.error ())
      | some (.ok doc) => (toTyped s.types n (rootValue doc) s.root).map .ok

/-- typed.ts:431-444 `parseUntyped`. -/
def parseUntyped (n : Nat) (source : List Char) : Option (Except Unit Js) :=
  match parse .javascript n source with
  | none => none
  | some (.error _) => some (.error ())
  | some (.ok doc) => some (.ok (toAny (rootValue doc)))

end Styx.Impl
