import Verif.Schema.Model

/-!
# Specification: what it means to conform to a schema

Written after docs/content/reference/spec/schema.md (sections named at each rule) and, where that
document is silent, after the tests of the validator.  Uses the data types of the model (values,
schemas) and none of its functions, except that a type name is resolved in the list of definitions.

Points where the document is silent or was read generously:
* the tag of a value only matters to enums: a tagged scalar is a scalar, a tagged object an object;
* `@optional(@T)` also accepts unit (`test_optional_accepts_unit`);
* an untagged scalar conforms to an enum when it conforms to one of its scalar variants
  (`test_enum_with_fallback_variant`);
* a key such as `@string` in an object schema stands for all keys not named
  (`test_typed_catchall_validation`), like the key `@`;
* the integers are those of 128 bits, the lengths of strings are in bytes;
* numbers, and the meaning of patterns, are parameters.
-/

namespace Styx.Schema

/-- The text of a decimal number. -/
def decVal (ds : List Char) : Nat := ds.foldl (fun a c => a * 10 + (c.toNat - 48)) 0

/-- `text` is a decimal integer with value `n`: an optional sign and at least one digit. -/
def IsInt (text : List Char) (n : Int) : Prop :=
  ∃ ds, ds ≠ [] ∧ (∀ c ∈ ds, '0' ≤ c ∧ c ≤ '9') ∧
    (text = ds ∧ n = decVal ds ∨ text = '+' :: ds ∧ n = decVal ds ∨ text = '-' :: ds ∧ n = -decVal ds)

/-- The value holds the scalar `text` (with or without a tag). -/
def HasText (v : Value) (text : List Char) : Prop :=
  ∃ tag kind sp sp', v = .mk tag (some (.scalar text kind sp)) sp'

/-- The value holds a sequence. -/
def HasItems (v : Value) (items : List Value) : Prop :=
  ∃ tag sp sp', v = .mk tag (some (.sequence items sp)) sp'

/-- The value holds an object. -/
def HasEntries (v : Value) (es : List Entry) : Prop :=
  ∃ tag sp sp', v = .mk tag (some (.object es sp)) sp'

/-- The unit value. -/
def IsUnitValue (v : Value) : Prop := ∃ sp, v = .mk none none sp

/-- The entry's key is the untagged scalar `name`. -/
def KeyIs (e : Entry) (name : List Char) : Prop :=
  ∃ kind sp sp', e.key = .mk none (some (.scalar name kind sp)) sp'

section

variable {F : Type}

/-- The bounds of `@string{…}` (schema.constraints.string). -/
def StringOk (Matches : List Char → List Char → Prop) (c : Option StringConstraints)
    (text : List Char) : Prop :=
  ∀ c', c = some c' →
    (∀ m, c'.minLen = some m → m ≤ utf8Len text) ∧ (∀ m, c'.maxLen = some m → utf8Len text ≤ m) ∧
    (∀ p, c'.pattern = some p → Matches p text)

/-- The bounds of `@int{…}` (schema.constraints.int). -/
def IntOk (c : Option IntConstraints) (n : Int) : Prop :=
  ∀ c', c = some c' → (∀ m, c'.min = some m → m ≤ n) ∧ (∀ m, c'.max = some m → n ≤ m)

/-- The bounds of `@float{…}` (schema.constraints.float). -/
def FloatOk (E : Env F) (c : Option (FloatConstraints F)) (x : F) : Prop :=
  ∀ c', c = some c' →
    (∀ m, c'.min = some m → E.ltF x m = false) ∧ (∀ m, c'.max = some m → E.ltF m x = false)

/-- The schema is, or names, an object type with these fields (schema.flatten.constraints). -/
inductive ObjectType (sf : SchemaFile F) : Schema F → List (ObjectKey × Schema F) → Prop where
  | object (fs) : ObjectType sf (.object fs) fs
  | named {n s fs} : (some n, s) ∈ sf → ObjectType sf s fs → ObjectType sf (.type (some n)) fs

/-- The fields of an object type, those of flattened types included (schema.flatten). -/
inductive HasField (sf : SchemaFile F) :
    List (ObjectKey × Schema F) → ObjectKey → Schema F → Prop where
  | own {fields k s} : (k, s) ∈ fields → (∀ inner, s ≠ .flatten inner) → HasField sf fields k s
  | inline {fields k₀ inner fields' k s} : (k₀, Schema.flatten inner) ∈ fields →
      ObjectType sf inner fields' → HasField sf fields' k s → HasField sf fields k s

/-- A field with this schema need not be present (schema.optional, schema.default; marking a field
as deprecated does not make it required). -/
inductive MayBeAbsent : Schema F → Prop where
  | optional (s) : MayBeAbsent (.optional s)
  | default (t s) : MayBeAbsent (.default t s)
  | deprecated (r) {s} : MayBeAbsent s → MayBeAbsent (.deprecated r s)

/-- The scalar types an untagged value of an enum can stand for. -/
inductive ScalarType : Schema F → Prop where
  | string (c) : ScalarType (.string c)
  | int (c) : ScalarType (.int c)
  | float (c) : ScalarType (.float c)
  | bool : ScalarType .bool

mutual
/-- The value conforms to the schema. -/
inductive Conforms (E : Env F) (Matches : List Char → List Char → Prop) (sf : SchemaFile F) :
    Value → Schema F → Prop where
  | string {v c text} : HasText v text → StringOk Matches c text →
      Conforms E Matches sf v (.string c)
  | int {v c text n} : HasText v text → IsInt text n → -(2 ^ 127) ≤ n → n ≤ 2 ^ 127 - 1 →
      IntOk c n → Conforms E Matches sf v (.int c)
  | float {v c text x} : HasText v text → E.parseF text = some x → FloatOk E c x →
      Conforms E Matches sf v (.float c)
  | bool {v text} : HasText v text → (text = chars! "true" ∨ text = chars! "false") →
      Conforms E Matches sf v .bool
  | unit {v} : IsUnitValue v → Conforms E Matches sf v .unit
  | any (v) : Conforms E Matches sf v .any
  | object {v es fields} : HasEntries v es →
      (∀ e ∈ es, EntryConforms E Matches sf fields e) →
      (∀ k s name, HasField sf fields k s → k.value = some name → ¬ MayBeAbsent s →
        ∃ e ∈ es, KeyIs e name) →
      Conforms E Matches sf v (.object fields)
  | seq {v items s} : HasItems v items → (∀ x ∈ items, Conforms E Matches sf x s) →
      Conforms E Matches sf v (.seq s)
  | tuple {v items ss} : HasItems v items → AllConform E Matches sf items ss →
      Conforms E Matches sf v (.tuple ss)
  | map {v es vs} : HasEntries v es → (∀ e ∈ es, ∃ name, KeyIs e name) →
      (∀ e ∈ es, Conforms E Matches sf e.value vs) →
      Conforms E Matches sf v (.map [vs])
  | keyedMap {v es ks vs} : HasEntries v es → (∀ e ∈ es, ∃ name, KeyIs e name) →
      (∀ e ∈ es, Conforms E Matches sf e.key ks) → (∀ e ∈ es, Conforms E Matches sf e.value vs) →
      Conforms E Matches sf v (.map [ks, vs])
  | union {v s ss} : s ∈ ss → Conforms E Matches sf v s → Conforms E Matches sf v (.union ss)
  | absent {v s} : IsUnitValue v → Conforms E Matches sf v (.optional s)
  | optional {v s} : Conforms E Matches sf v s → Conforms E Matches sf v (.optional s)
  | variant {tag p sp s variants} : (tag.name, s) ∈ variants →
      Conforms E Matches sf (.mk none p none) s →
      Conforms E Matches sf (.mk (some tag) p sp) (.enum variants)
  | fallback {p sp name s variants} : (name, s) ∈ variants → ScalarType s →
      Conforms E Matches sf (.mk none p sp) s → Conforms E Matches sf (.mk none p sp) (.enum variants)
  | oneOf {v s} : Conforms E Matches sf v s → Conforms E Matches sf v (.oneOf s [])
  | oneOfText {v s allowed text} : Conforms E Matches sf v s → HasText v text → text ∈ allowed →
      Conforms E Matches sf v (.oneOf s allowed)
  | default {v t s} : Conforms E Matches sf v s → Conforms E Matches sf v (.default t s)
  | deprecated {v r s} : Conforms E Matches sf v s → Conforms E Matches sf v (.deprecated r s)
  | literal {v text} : HasText v text → Conforms E Matches sf v (.literal text)
  | unitType {v} : IsUnitValue v → Conforms E Matches sf v (.type none)
  | named {v n s} : (some n, s) ∈ sf → Conforms E Matches sf v s →
      Conforms E Matches sf v (.type (some n))
/-- The entry is allowed by the fields of an object schema: it is one of the named fields and
conforms to its type, or it is not, and conforms to the type of the additional fields. -/
inductive EntryConforms (E : Env F) (Matches : List Char → List Char → Prop) (sf : SchemaFile F) :
    List (ObjectKey × Schema F) → Entry → Prop where
  | named {fields e name s} : KeyIs e name → HasField sf fields ⟨some name, none⟩ s →
      Conforms E Matches sf e.value s → EntryConforms E Matches sf fields e
  | additional {fields e t s} : (IsUnitValue e.key ∨ ∃ name, KeyIs e name) →
      (∀ name s, KeyIs e name → ¬ HasField sf fields ⟨some name, none⟩ s) →
      HasField sf fields ⟨none, some t⟩ s → Conforms E Matches sf e.value s →
      EntryConforms E Matches sf fields e
/-- As many values as types, each of its type. -/
inductive AllConform (E : Env F) (Matches : List Char → List Char → Prop) (sf : SchemaFile F) :
    List Value → List (Schema F) → Prop where
  | nil : AllConform E Matches sf [] []
  | cons {v s vs ss} : Conforms E Matches sf v s → AllConform E Matches sf vs ss →
      AllConform E Matches sf (v :: vs) (s :: ss)
end

/-! The schemas on which the validator agrees with the document. -/

/-- A key of an object schema is a field name or a pattern, not both: what the deserializer
builds. -/
def ProperKey (k : ObjectKey) : Prop := (∃ n, n ≠ [] ∧ k = ⟨some n, none⟩) ∨ ∃ t, k = ⟨none, some t⟩

/-- The keys are distinct. -/
def DistinctKeys {K V : Type} (l : List (K × V)) : Prop := (l.map (·.1)).Nodup

/-- A variant whose schema plainly takes a payload, or plainly takes none. -/
inductive PlainVariant (sf : SchemaFile F) : Schema F → Prop where
  | scalar {s} : ScalarType s → PlainVariant sf s
  | unit : PlainVariant sf .unit
  | unitType : PlainVariant sf (.type none)
  | object (fs) : PlainVariant sf (.object fs)
  | seq (s) : PlainVariant sf (.seq s)
  | tuple (ss) : PlainVariant sf (.tuple ss)
  | map (ss) : PlainVariant sf (.map ss)
  | enum (vs) : PlainVariant sf (.enum vs)
  | literal (t) : PlainVariant sf (.literal t)
  | named {n fs} : n ≠ chars! "unit" → (some n, Schema.object fs) ∈ sf →
      PlainVariant sf (.type (some n))

/-- The scalar variants of an enum carry no constraints, and where there is an integer variant there
is a string variant as well. -/
def PlainFallback (variants : List (List Char × Schema F)) : Prop :=
  (∀ p ∈ variants, ScalarType p.2 →
    p.2 = .string none ∨ p.2 = .int none ∨ p.2 = .float none ∨ p.2 = .bool) ∧
  (∀ p ∈ variants, p.2 = Schema.int none → ∃ q ∈ variants, q.2 = Schema.string none)

/-- Schemas without patterns and flattening, whose maps have distinct keys, whose objects have at
most one catch-all, name no field with the empty text and wrap no optional field as deprecated, and
whose enums are plain. -/
inductive Plain (sf : SchemaFile F) : Schema F → Prop where
  | string {c} : (∀ c', c = some c' → c'.pattern = none) → Plain sf (.string c)
  | int (c) : Plain sf (.int c)
  | float (c) : Plain sf (.float c)
  | bool : Plain sf .bool
  | unit : Plain sf .unit
  | any : Plain sf .any
  | object {fields} : DistinctKeys fields → (∀ f ∈ fields, ProperKey f.1) →
      (∀ f ∈ fields, ∀ g ∈ fields, f.1.tag.isSome → g.1.tag.isSome → f = g) →
      (∀ f ∈ fields, Plain sf f.2) → (∀ f ∈ fields, ∀ r s, f.2 = .deprecated r s → ¬ MayBeAbsent s) →
      Plain sf (.object fields)
  | seq {s} : Plain sf s → Plain sf (.seq s)
  | tuple {ss} : (∀ s ∈ ss, Plain sf s) → Plain sf (.tuple ss)
  | map {ss} : (∀ s ∈ ss, Plain sf s) → Plain sf (.map ss)
  | union {ss} : (∀ s ∈ ss, Plain sf s) → Plain sf (.union ss)
  | optional {s} : Plain sf s → Plain sf (.optional s)
  | enum {variants} : DistinctKeys variants → (∀ p ∈ variants, Plain sf p.2) →
      (∀ p ∈ variants, PlainVariant sf p.2) → PlainFallback variants → Plain sf (.enum variants)
  | oneOf {s} (allowed) : Plain sf s → Plain sf (.oneOf s allowed)
  | default (t) {s} : Plain sf s → Plain sf (.default t s)
  | deprecated (r) {s} : Plain sf s → Plain sf (.deprecated r s)
  | literal (t) : Plain sf (.literal t)
  | type (n) : Plain sf (.type n)

/-- Every definition of the schema file is plain, and each name is defined once. -/
def PlainFile (sf : SchemaFile F) : Prop := DistinctKeys sf ∧ ∀ d ∈ sf, Plain sf d.2

end

end Styx.Schema
