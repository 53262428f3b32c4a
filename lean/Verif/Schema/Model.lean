import Verif.Schema.Suggest
import Verif.Tree.Value

/-!
# Model of the schema validator

Source: crates/facet-styx/src/{schema_validate,schema_types,schema_error}.rs.

* A `HashMap` is the list of its entries in iteration order, looked up by the first match; the
  theorems quantify over all lists, hence over all iteration orders.
* `Documented<T>` is `T` (hash and equality ignore the documentation, schema_types.rs:480-495).
* `f64` is an arbitrary type `F`; its parser and its `<` are parameters (`Env`), as is
  `str::to_lowercase`.
* Messages for humans are left out of errors and warnings; reasons given as text are enumerated.
* Recursion through named types need not terminate, so `validate` takes fuel and returns `none`
  when it runs out.
-/

namespace Styx.Schema

/-- What is used of `f64` and of the Unicode tables: `str::parse::<f64>`
(schema_validate.rs:323, 874), `<` on `f64` (341, 356), `str::to_lowercase` (40, 44). -/
structure Env (F : Type) where
  parseF : List Char → Option F
  ltF : F → F → Bool
  lower : List Char → List Char

/-- schema_types.rs:149-156 `StringConstraints`. -/
structure StringConstraints where
  minLen : Option Nat
  maxLen : Option Nat
  pattern : Option (List Char)
  deriving DecidableEq, Repr

/-- schema_types.rs:160-165 `IntConstraints`. -/
structure IntConstraints where
  min : Option Int
  max : Option Int
  deriving DecidableEq, Repr

/-- schema_types.rs:169-174 `FloatConstraints`. -/
structure FloatConstraints (F : Type) where
  min : Option F
  max : Option F

/-- schema_types.rs:191-197 `ObjectKey` (equality of both fields, 258-262). -/
structure ObjectKey where
  value : Option (List Char)
  tag : Option (List Char)
  deriving DecidableEq, Repr

/-- schema_types.rs:201-206 `ObjectKey::named`. -/
def ObjectKey.named (n : List Char) : ObjectKey := ⟨some n, none⟩

/-- schema_types.rs:209-214 `ObjectKey::typed`. -/
def ObjectKey.typed (t : List Char) : ObjectKey := ⟨none, some t⟩

/-- schema_types.rs:217-222 `ObjectKey::unit`. -/
def ObjectKey.unit : ObjectKey := ⟨none, some []⟩

/-- schema_types.rs:60-140 `Schema`, with the wrapper structs of 272-364 unfolded. -/
inductive Schema (F : Type) where
  | string (c : Option StringConstraints)
  | int (c : Option IntConstraints)
  | float (c : Option (FloatConstraints F))
  | bool
  | unit
  | any
  | object (fields : List (ObjectKey × Schema F))
  | seq (item : Schema F)
  | tuple (items : List (Schema F))
  | map (types : List (Schema F))
  | union (variants : List (Schema F))
  | optional (inner : Schema F)
  | enum (variants : List (List Char × Schema F))
  | oneOf (base : Schema F) (allowed : List (List Char))
  | flatten (inner : Schema F)
  | default (value : List Char) (inner : Schema F)
  | deprecated (reason : List Char) (inner : Schema F)
  | literal (text : List Char)
  | type (name : Option (List Char))

/-- schema_types.rs:11-21 `SchemaFile`: its `schema` table (`none` is the root `@`). -/
abbrev SchemaFile (F : Type) := List (Option (List Char) × Schema F)

/-- `HashMap::get` over the list of entries. -/
def lookup {K V : Type} [DecidableEq K] (k : K) : List (K × V) → Option V
  | [] => none
  | (k', v) :: rest => if k' = k then some v else lookup k rest

/-- The texts of `ValidationErrorKind::InvalidValue` and `SchemaError`, without the numbers
formatted into them (schema_validate.rs:92, 197, 212, 255, 275, 289, 330, 350, 364, 385, 461, 614,
666, 688, 720, 936, 1017). -/
inductive Reason where
  | tooShort | tooLong | notInteger | tooSmall | tooLarge | notNumber | notBoolean
  | badKey | tupleLength (expected got : Nat) | mapArity (n : Nat) | badMapKey | emptyUnion
  | notAllowed (text : List Char) | literalMismatch (expected got : List Char) | noRoot
  deriving DecidableEq, Repr

/-- schema_error.rs:358-388 `ValidationErrorKind` (`WrongTag` is never produced). -/
inductive Kind where
  | missingField (field : List Char)
  | unknownField (field : List Char) (validFields : List (List Char)) (suggestion : Option (List Char))
  | typeMismatch (expected got : List Char)
  | invalidValue (reason : Reason)
  | unknownType (name : List Char)
  | invalidVariant (expected : List (List Char)) (got : List Char)
  | unionMismatch (tried : List (List Char))
  | expectedObject | expectedSequence | expectedScalar | expectedTagged
  | schemaError (reason : Reason)
  deriving DecidableEq, Repr

/-- schema_error.rs:81-90 `ValidationError` without `message`. -/
structure Err where
  path : List Char
  span : Option Span
  kind : Kind
  deriving DecidableEq, Repr

/-- schema_error.rs:393-402 `ValidationWarning` without `message`; only `Deprecated` is produced. -/
structure Warn where
  path : List Char
  span : Option Span
  reason : List Char
  deriving DecidableEq, Repr

/-- schema_error.rs:18-23 `ValidationResult`. -/
structure Result where
  errors : List Err
  warnings : List Warn
  deriving DecidableEq, Repr

/-- schema_error.rs:27-32 `ValidationResult::ok`. -/
def Result.ok : Result := ⟨[], []⟩

/-- schema_error.rs:35-37 `is_valid`. -/
def Result.isValid (r : Result) : Bool := r.errors.isEmpty

/-- schema_error.rs:40-42 `error`. -/
def Result.error (r : Result) (e : Err) : Result := ⟨r.errors ++ [e], r.warnings⟩

/-- schema_error.rs:45-47 `warning`. -/
def Result.warning (r : Result) (w : Warn) : Result := ⟨r.errors, r.warnings ++ [w]⟩

/-- schema_error.rs:50-53 `merge`. -/
def Result.merge (r s : Result) : Result := ⟨r.errors ++ s.errors, r.warnings ++ s.warnings⟩

/-- A result with one error and no warning: `ok` followed by `error`. -/
def Result.fail (path : List Char) (span : Option Span) (kind : Kind) : Result :=
  Result.ok.error ⟨path, span, kind⟩

/-- schema_validate.rs:1086-1099 `value_type_name`. -/
def valueTypeName (v : Value) : List Char :=
  if v.isUnit then chars! "unit"
  else if v.tag.isSome then chars! "tagged"
  else match v.payload with
    | none => chars! "unit"
    | some (.scalar ..) => chars! "scalar"
    | some (.sequence ..) => chars! "sequence"
    | some (.object ..) => chars! "object"

/-- schema_validate.rs:1102-1125 `schema_type_name`. -/
def schemaTypeName {F : Type} : Schema F → List Char
  | .string _ => chars! "string"
  | .int _ => chars! "int"
  | .float _ => chars! "float"
  | .bool => chars! "bool"
  | .unit => chars! "unit"
  | .any => chars! "any"
  | .object _ => chars! "object"
  | .seq _ => chars! "seq"
  | .tuple _ => chars! "tuple"
  | .map _ => chars! "map"
  | .union _ => chars! "union"
  | .optional _ => chars! "optional"
  | .enum _ => chars! "enum"
  | .oneOf .. => chars! "one-of"
  | .flatten _ => chars! "flatten"
  | .default .. => chars! "default"
  | .deprecated .. => chars! "deprecated"
  | .literal s => chars! "literal(" ++ s ++ chars! ")"
  | .type none => chars! "unit"
  | .type (some n) => n

/-- Rust core: the digits loop of `from_str_radix(_, 10)`, without the overflow checks (which
`parseInt` does at the end: the digits are the same). -/
def digitsVal : List Char → Nat → Option Nat
  | [], acc => some acc
  | c :: cs, acc =>
    if '0' ≤ c ∧ c ≤ '9' then digitsVal cs (acc * 10 + (c.toNat - '0'.toNat)) else none

/-- Rust core: `str::parse` for a signed integer type, before the range check. -/
def parseSigned : List Char → Option Int
  | [] => none
  | ['+'] => none
  | ['-'] => none
  | '+' :: ds => (digitsVal ds 0).map Int.ofNat
  | '-' :: ds => (digitsVal ds 0).map fun n => -Int.ofNat n
  | ds => (digitsVal ds 0).map Int.ofNat

/-- Rust core: `str::parse` for a signed integer type with range `lo..=hi`
(used at schema_validate.rs:249 for `i128` and 872 for `i64`). -/
def parseInt (lo hi : Int) (text : List Char) : Option Int :=
  (parseSigned text).bind fun n => if lo ≤ n ∧ n ≤ hi then some n else none

/-- `text.parse::<i128>()`, schema_validate.rs:249. -/
def parseI128 (text : List Char) : Option Int := parseInt (-(2 ^ 127)) (2 ^ 127 - 1) text

/-- `text.parse::<i64>()`, schema_validate.rs:872. -/
def parseI64 (text : List Char) : Option Int := parseInt (-(2 ^ 63)) (2 ^ 63 - 1) text

/-- An error when the condition holds, nothing otherwise: `if … { result.error(…) }`. -/
def Result.when (c : Bool) (path : List Char) (span : Option Span) (kind : Kind) : Result :=
  if c then Result.fail path span kind else Result.ok

/-- schema_validate.rs:162-222 `validate_string`; `text.len()` counts bytes; `pattern` is not used
(215-218). -/
def validateString (v : Value) (c : Option StringConstraints) (path : List Char) : Result :=
  match v.scalarText with
  | none => .fail path v.span .expectedScalar
  | some text => match c with
    | none => .ok
    | some c =>
      (Result.when (c.minLen.any fun m => utf8Len text < m) path v.span (.invalidValue .tooShort)).merge
        (Result.when (c.maxLen.any fun m => m < utf8Len text) path v.span (.invalidValue .tooLong))

/-- schema_validate.rs:224-297 `validate_int`. -/
def validateInt (v : Value) (c : Option IntConstraints) (path : List Char) : Result :=
  match v.scalarText with
  | none => .fail path v.span .expectedScalar
  | some text => match parseI128 text with
    | none => .fail path v.span (.invalidValue .notInteger)
    | some n => match c with
      | none => .ok
      | some c =>
        (Result.when (c.min.any fun m => n < m) path v.span (.invalidValue .tooSmall)).merge
          (Result.when (c.max.any fun m => m < n) path v.span (.invalidValue .tooLarge))

section

variable {F : Type} (E : Env F)

/-- schema_validate.rs:299-372 `validate_float`. -/
def validateFloat (v : Value) (c : Option (FloatConstraints F)) (path : List Char) : Result :=
  match v.scalarText with
  | none => .fail path v.span .expectedScalar
  | some text => match E.parseF text with
    | none => .fail path v.span (.invalidValue .notNumber)
    | some n => match c with
      | none => .ok
      | some c =>
        (Result.when (c.min.any fun m => E.ltF n m) path v.span (.invalidValue .tooSmall)).merge
          (Result.when (c.max.any fun m => E.ltF m n) path v.span (.invalidValue .tooLarge))

/-- schema_validate.rs:374-404 `validate_bool`. -/
def validateBool (v : Value) (path : List Char) : Result :=
  match v.scalarText with
  | some text =>
    if text = chars! "true" ∨ text = chars! "false" then .ok
    else .fail path v.span (.invalidValue .notBoolean)
  | none => .fail path v.span .expectedScalar

/-- schema_validate.rs:406-424 `validate_unit` (also 1047-1061, a reference to `@`). -/
def validateUnit (v : Value) (path : List Char) : Result :=
  if v.isUnit then .ok
  else .fail path v.span (.typeMismatch (chars! "unit") (valueTypeName v))

/-- schema_validate.rs:1007-1037 `validate_literal`. -/
def validateLiteral (v : Value) (expected : List Char) (path : List Char) : Result :=
  match v.scalarText with
  | some text =>
    if text = expected then .ok
    else .fail path v.span (.invalidValue (.literalMismatch expected text))
  | none => .fail path v.span .expectedScalar

/-- `if path.is_empty() { key } else { format!("{path}.{key}") }`, schema_validate.rs:473-477,
531-535, 694-698, 818-822. -/
def fieldPath (path key : List Char) : List Char :=
  if path.isEmpty then key else path ++ '.' :: key

/-- `format!("{path}[{i}]")`, schema_validate.rs:572, 622. -/
def itemPath (path : List Char) (i : Nat) : List Char :=
  path ++ '[' :: Nat.toDigits 10 i ++ [']']

/-- A loop merging the results of its rounds into `result`. -/
def mergeAll {α : Type} (f : α → Option Result) : List α → Option Result
  | [] => some .ok
  | x :: xs => (f x).bind fun a => (mergeAll f xs).map fun b => a.merge b

/-- schema_validate.rs:453-470: the key of an entry, `some none` for the unit key, `none` when it is
neither a scalar nor unit. -/
def keyOpt (e : Entry) : Option (Option (List Char)) :=
  if e.key.isUnit then some none
  else match e.key.asStr with
    | some s => some (some s)
    | none => none

/-- schema_validate.rs:447-450: the schema of any key with a tag (the first in iteration order). -/
def catchAll (fields : List (ObjectKey × Schema F)) : Option (Schema F) :=
  (fields.find? fun f => f.1.tag.isSome).map (·.2)

/-- schema_validate.rs:490-495: the names of the named fields. -/
def fieldNames (fields : List (ObjectKey × Schema F)) : List (List Char) :=
  fields.filterMap fun f => f.1.value

/-- schema_validate.rs:452-513: one round of the loop over the entries of the document. -/
def validateEntry (rec : Value → Schema F → List Char → Option Result)
    (fields : List (ObjectKey × Schema F)) (path : List Char) (e : Entry) : Option Result :=
  match keyOpt e with
  | none => some (.fail path e.key.span (.invalidValue .badKey))
  | some key =>
    let display := key.getD (chars! "@")
    let fp := fieldPath path display
    match lookup (ObjectKey.named (key.getD [])) fields with
    | some s => rec e.value s fp
    | none => match catchAll fields with
      | some s => rec e.value s fp
      | none => some (.fail fp e.key.span (.unknownField display (fieldNames fields)
          (suggestSimilar E.lower display (fieldNames fields))))

/-- `matches!(field_schema, Schema::Optional(_) | Schema::Default(_))`, schema_validate.rs:524. -/
def notRequired : Schema F → Bool
  | .optional _ => true
  | .default .. => true
  | _ => false

/-- schema_validate.rs:517-547: the loop over the fields of the schema, `seen` being the keys of the
document. -/
def missingFields (fields : List (ObjectKey × Schema F)) (seen : List (Option (List Char)))
    (path : List Char) (span : Option Span) : Result :=
  ⟨fields.filterMap fun f => match f.1.value with
    | none => none
    | some name =>
      if seen.contains (some name) || notRequired f.2 then none
      else some ⟨fieldPath path name, span, .missingField name⟩, []⟩

/-- schema_validate.rs:430-550 `validate_object`. -/
def validateObject (rec : Value → Schema F → List Char → Option Result)
    (v : Value) (fields : List (ObjectKey × Schema F)) (path : List Char) : Option Result :=
  match v.asObject with
  | none => some (.fail path v.span .expectedObject)
  | some es =>
    (mergeAll (validateEntry E rec fields path) es).map fun r =>
      r.merge (missingFields fields (es.filterMap keyOpt) path v.span)

/-- schema_validate.rs:552-578 `validate_seq`. -/
def validateSeq (rec : Value → Schema F → List Char → Option Result)
    (v : Value) (item : Schema F) (path : List Char) : Option Result :=
  match v.asSequence with
  | none => some (.fail path v.span .expectedSequence)
  | some items => mergeAll (fun (x, i) => rec x item (itemPath path i)) items.zipIdx

/-- schema_validate.rs:580-628 `validate_tuple`. -/
def validateTuple (rec : Value → Schema F → List Char → Option Result)
    (v : Value) (ss : List (Schema F)) (path : List Char) : Option Result :=
  match v.asSequence with
  | none => some (.fail path v.span .expectedSequence)
  | some items =>
    (mergeAll (fun ((x, s), i) => rec x s (itemPath path i)) (items.zip ss).zipIdx).map fun r =>
      (Result.when (items.length != ss.length) path v.span
        (.invalidValue (.tupleLength ss.length items.length))).merge r

/-- schema_validate.rs:675-700: one round of the loop of `validate_map`. -/
def validateMapEntry (rec : Value → Schema F → List Char → Option Result)
    (ks : Option (Schema F)) (vs : Schema F) (path : List Char) (e : Entry) : Option Result :=
  match e.key.asStr with
  | none => some (.fail path e.key.span (.invalidValue .badMapKey))
  | some key =>
    (match ks with
     | some k => rec e.key k path
     | none => some .ok).bind fun a =>
    (rec e.value vs (fieldPath path key)).map fun b => a.merge b

/-- schema_validate.rs:630-703 `validate_map`. -/
def validateMap (rec : Value → Schema F → List Char → Option Result)
    (v : Value) (types : List (Schema F)) (path : List Char) : Option Result :=
  match v.asObject with
  | none => some (.fail path v.span .expectedObject)
  | some es => match types with
    | [vs] => mergeAll (validateMapEntry rec none vs path) es
    | [ks, vs] => mergeAll (validateMapEntry rec (some ks) vs path) es
    | _ => some (.fail path v.span (.schemaError (.mapArity types.length)))

/-- schema_validate.rs:722-729: the loop over the variants; `some true` when one accepts. -/
def tryVariants (f : Schema F → Option Result) : List (Schema F) → Option Bool
  | [] => some false
  | s :: ss => (f s).bind fun r => if r.isValid then some true else tryVariants f ss

/-- schema_validate.rs:706-750 `validate_union`. -/
def validateUnion (rec : Value → Schema F → List Char → Option Result)
    (v : Value) (ss : List (Schema F)) (path : List Char) : Option Result :=
  if ss.isEmpty then some (.fail path v.span (.schemaError .emptyUnion))
  else (tryVariants (fun s => rec v s path) ss).map fun ok =>
    if ok then .ok else .fail path v.span (.unionMismatch (ss.map schemaTypeName))

/-- schema_validate.rs:752-764 `validate_optional`. -/
def validateOptional (rec : Value → Schema F → List Char → Option Result)
    (v : Value) (inner : Schema F) (path : List Char) : Option Result :=
  if v.isUnit then some .ok else rec v inner path

/-- schema_validate.rs:867-877: whether a variant takes an untagged scalar. -/
def takesText (text : List Char) : Schema F → Bool
  | .string _ => true
  | .int _ => (parseI64 text).isSome
  | .float _ => (E.parseF text).isSome
  | .bool => text = chars! "true" || text = chars! "false"
  | _ => false

/-- schema_validate.rs:862-882 `find_enum_fallback`. -/
def enumFallback (v : Value) (variants : List (List Char × Schema F)) : Option (Schema F) :=
  v.scalarText.bind fun text => (variants.find? fun p => takesText E text p.2).map (·.2)

/-- schema_validate.rs:805-815: the variant schemas that need no payload. -/
def unitVariant : Schema F → Bool
  | .unit => true
  | .type (some n) => n = chars! "unit"
  | .type none => true
  | _ => false

/-- schema_validate.rs:766-856 `validate_enum`. -/
def validateEnum (rec : Value → Schema F → List Char → Option Result)
    (v : Value) (variants : List (List Char × Schema F)) (path : List Char) : Option Result :=
  match v.tag with
  | none => match enumFallback E v variants with
    | some s => rec v s path
    | none => some (.fail path v.span .expectedTagged)
  | some tag => match lookup tag.name variants with
    | some s => match v.payload with
      | none =>
        if unitVariant s then some .ok
        else some (.fail path v.span (.typeMismatch (schemaTypeName s) (chars! "unit")))
      | some p => rec (.mk none (some p) none) s (fieldPath path tag.name)
    | none => some (.fail path v.span (.invalidVariant (variants.map (·.1)) tag.name))

/-- schema_validate.rs:884-952 `validate_one_of`. -/
def validateOneOf (rec : Value → Schema F → List Char → Option Result)
    (v : Value) (base : Schema F) (allowed : List (List Char)) (path : List Char) : Option Result :=
  (rec v base path).map fun r =>
    if !r.isValid then r
    else if allowed.isEmpty then .ok
    else match v.scalarText with
      | none => .fail path v.span .expectedScalar
      | some text =>
        if allowed.contains text then .ok else .fail path v.span (.invalidValue (.notAllowed text))

/-- schema_validate.rs:979-1001 `validate_deprecated`. -/
def validateDeprecated (rec : Value → Schema F → List Char → Option Result)
    (v : Value) (reason : List Char) (inner : Schema F) (path : List Char) : Option Result :=
  (rec v inner path).map fun r => r.warning ⟨path, v.span, reason⟩

/-- schema_validate.rs:1039-1082 `validate_type_ref`. -/
def validateTypeRef (sf : SchemaFile F) (rec : Value → Schema F → List Char → Option Result)
    (v : Value) (name : Option (List Char)) (path : List Char) : Option Result :=
  match name with
  | none => some (validateUnit v path)
  | some n => match lookup (some n) sf with
    | some s => rec v s path
    | none => some (.fail path v.span (.unknownType n))

/-- schema_validate.rs:123-156 `validate_value`, with the recursive calls replaced by `rec`;
954-962 `validate_flatten` and 968-977 `validate_default` are inlined. -/
def step (sf : SchemaFile F) (rec : Value → Schema F → List Char → Option Result)
    (v : Value) (s : Schema F) (path : List Char) : Option Result :=
  match s with
  | .string c => some (validateString v c path)
  | .int c => some (validateInt v c path)
  | .float c => some (validateFloat E v c path)
  | .bool => some (validateBool v path)
  | .unit => some (validateUnit v path)
  | .any => some .ok
  | .object fields => validateObject E rec v fields path
  | .seq item => validateSeq rec v item path
  | .tuple ss => validateTuple rec v ss path
  | .map ts => validateMap rec v ts path
  | .union ss => validateUnion rec v ss path
  | .optional inner => validateOptional rec v inner path
  | .enum vs => validateEnum E rec v vs path
  | .oneOf base allowed => validateOneOf rec v base allowed path
  | .flatten inner => rec v inner path
  | .default _ inner => rec v inner path
  | .deprecated reason inner => validateDeprecated rec v reason inner path
  | .literal text => some (validateLiteral v text path)
  | .type name => validateTypeRef sf rec v name path

/-- schema_validate.rs:123-156 `validate_value`, with fuel: `none` when the recursion goes deeper
than the fuel. -/
def validate (sf : SchemaFile F) : Nat → Value → Schema F → List Char → Option Result
  | 0, _, _, _ => none
  | n + 1, v, s, path => step E sf (validate sf n) v s path

/-- schema_validate.rs:80-99 `validate_document` (also 1128-1131 `validate`). -/
def validateDocument (sf : SchemaFile F) (fuel : Nat) (doc : Value) : Option Result :=
  match lookup none sf with
  | some root => validate E sf fuel doc root []
  | none => some (.fail [] doc.span (.schemaError .noRoot))

/-- schema_validate.rs:102-120 `validate_as_type` (also 1134-1137 `validate_as`). -/
def validateAsType (sf : SchemaFile F) (fuel : Nat) (v : Value) (name : List Char) : Option Result :=
  match lookup (some name) sf with
  | some s => validate E sf fuel v s []
  | none => some (.fail [] v.span (.unknownType name))

end

end Styx.Schema
