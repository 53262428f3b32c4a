import Verif.Impl.Typed

/-!
# Specification: what a document means for a schema, in JavaScript

`JsMeans types v t j`: the value `v` of a document fits the type `t`, and `j` is what it means.  There is no rule for a text
that is no number where a number is declared, for a required field that is missing, and so on.
-/

namespace Styx.Spec

open Styx Styx.Impl

/-- The text of a scalar. -/
def scalarOf (v : Value) : Option (List Char) :=
  match v.payload with
  | some (.scalar text _ _) => some text
  | _ => none

/-- An integer in decimal notation. -/
inductive IntegerText : List Char → Int → Prop
  | plain {ds} : ds ≠ [] → (∀ c ∈ ds, c.isDigit = true) → IntegerText ds (Nat.ofDigitChars 10 ds 0 : Nat)
  | plus {ds} : ds ≠ [] → (∀ c ∈ ds, c.isDigit = true) → IntegerText ('+' :: ds) (Nat.ofDigitChars 10 ds 0 : Nat)
  | minus {ds} : ds ≠ [] → (∀ c ∈ ds, c.isDigit = true) → IntegerText ('-' :: ds) (-(Nat.ofDigitChars 10 ds 0 : Nat))

/-- The first definition of a name. -/
def DefinedAs {α : Type} (l : List (List Char × α)) (name : List Char) (t : α) : Prop :=
  ∃ a b, l = a ++ (name, t) :: b ∧ ∀ p ∈ a, p.1 ≠ name

/-- Names for the properties of an object: different, not empty and not `__proto__`. -/
def GoodNames (ps : List (List Char × Js)) : Prop :=
  (ps.map (·.1)).Nodup ∧ ∀ p ∈ ps, p.1 ≠ [] ∧ p.1 ≠ chars! "__proto__"

mutual
/-- What a value means without a schema: texts, lists and objects; nothing is `null`. -/
inductive Untyped : Value → Js → Prop
  | null {t sp} : Untyped (.mk t none sp) .null
  | text {t s k psp sp} : Untyped (.mk t (some (.scalar s k psp)) sp) (.str s)
  | list {t items psp sp js} : UntypedItems items js → Untyped (.mk t (some (.sequence items psp)) sp) (.arr js)
  | object {t es psp sp ps} : UntypedEntries es ps → GoodNames ps →
      Untyped (.mk t (some (.object es psp)) sp) (.obj ps none)
inductive UntypedItems : List Value → List Js → Prop
  | nil : UntypedItems [] []
  | cons {v vs j js} : Untyped v j → UntypedItems vs js → UntypedItems (v :: vs) (j :: js)
inductive UntypedEntries : List Entry → List (List Char × Js) → Prop
  | nil : UntypedEntries [] []
  | cons {k v d es name j ps} : scalarOf k = some name → Untyped v j → UntypedEntries es ps →
      UntypedEntries (.mk k v d :: es) ((name, j) :: ps)
end

/-- A field of this type can be left out, and then has no value. -/
inductive Omissible (types : List (List Char × JsType)) : JsType → Prop
  | optional {t} : Omissible types (.optional t)
  | ref {name t} : DefinedAs types name t → Omissible types t → Omissible types (.ref name)

mutual
/-- What a value of this type means. -/
inductive JsMeans (types : List (List Char × JsType)) : Value → JsType → Js → Prop
  | string {v s} : scalarOf v = some s → JsMeans types v .string (.str s)
  | int {v s n} : scalarOf v = some s → IntegerText s n → JsMeans types v .int (.int (some n))
  | float {v s} : scalarOf v = some s → s ≠ [] → JsMeans types v .float (.float s)
  | yes {v} : scalarOf v = some (chars! "true") → JsMeans types v .bool (.bool true)
  | no {v} : scalarOf v = some (chars! "false") → JsMeans types v .bool (.bool false)
  | unit {v} : v.payload = none → JsMeans types v .unit .null
  | any {v j} : Untyped v j → JsMeans types v .any j
  | seq {v items psp inner js} : v.payload = some (.sequence items psp) → JsMeansItems types inner items js →
      JsMeans types v (.seq inner) (.arr js)
  | map {v es psp inner ps} : v.payload = some (.object es psp) → JsMeansEntries types [] inner es ps → GoodNames ps →
      JsMeans types v (.map inner) (.obj ps none)
  | object {v es psp fields ps ds} : (fields.map (·.1)).Nodup → v.payload = some (.object es psp) →
      JsMeansEntries types fields .any es ps → JsMeansMissing types (ps.map (·.1)) fields ds → GoodNames (ps ++ ds) →
      JsMeans types v (.object fields) (.obj (ps ++ ds) none)
  | optional {v t j} : JsMeans types v t j → JsMeans types v (.optional t) j
  | default {v d t j} : JsMeans types v t j → JsMeans types v (.default d t) j
  | ref {v name t j} : DefinedAs types name t → JsMeans types v t j → JsMeans types v (.ref name) j
inductive JsMeansItems (types : List (List Char × JsType)) : JsType → List Value → List Js → Prop
  | nil {t} : JsMeansItems types t [] []
  | cons {t v vs j js} : JsMeans types v t j → JsMeansItems types t vs js → JsMeansItems types t (v :: vs) (j :: js)
/-- Entries of an object with these fields; others have the type `other`. -/
inductive JsMeansEntries (types : List (List Char × JsType)) :
    List (List Char × JsType) → JsType → List Entry → List (List Char × Js) → Prop
  | nil {fields other} : JsMeansEntries types fields other [] []
  | field {fields other k v d es name t j ps} : scalarOf k = some name → DefinedAs fields name t → JsMeans types v t j →
      JsMeansEntries types fields other es ps → JsMeansEntries types fields other (.mk k v d :: es) ((name, j) :: ps)
  | other {fields other k v d es name j ps} : scalarOf k = some name → (∀ f ∈ fields, f.1 ≠ name) → JsMeans types v other j →
      JsMeansEntries types fields other es ps → JsMeansEntries types fields other (.mk k v d :: es) ((name, j) :: ps)
/-- What the fields that are not among these names mean: their defaults, if they have one. -/
inductive JsMeansMissing (types : List (List Char × JsType)) :
    List (List Char) → List (List Char × JsType) → List (List Char × Js) → Prop
  | nil {names} : JsMeansMissing types names [] []
  | there {names name t fs ds} : name ∈ names → JsMeansMissing types names fs ds → JsMeansMissing types names ((name, t) :: fs) ds
  | omitted {names name t fs ds} : name ∉ names → Omissible types t → JsMeansMissing types names fs ds →
      JsMeansMissing types names ((name, t) :: fs) ds
  | default {names name t fs j ds} : name ∉ names → ByDefault types t j → JsMeansMissing types names fs ds →
      JsMeansMissing types names ((name, t) :: fs) ((name, j) :: ds)
/-- The default of a type. -/
inductive ByDefault (types : List (List Char × JsType)) : JsType → Js → Prop
  | default {v t j} : JsMeans types v t j → ByDefault types (.default v t) j
  | ref {name t j} : DefinedAs types name t → ByDefault types t j → ByDefault types (.ref name) j
end

/-- A JavaScript value of a declared type: what the users of `parseTyped` take the result for. -/
inductive HasType (types : List (List Char × JsType)) : Js → JsType → Prop
  | string {s} : HasType types (.str s) .string
  | int {n} : HasType types (.int (some n)) .int
  | float {s} : s ≠ [] → HasType types (.float s) .float
  | bool {b} : HasType types (.bool b) .bool
  | unit : HasType types .null .unit
  | any {j} : HasType types j .any
  | seq {js t} : (∀ j ∈ js, HasType types j t) → HasType types (.arr js) (.seq t)
  | map {ps t} : (∀ p ∈ ps, HasType types p.2 t) → HasType types (.obj ps none) (.map t)
  | object {ps fields} : (∀ name t j, DefinedAs fields name t → (name, j) ∈ ps → HasType types j t) →
      (∀ name t, DefinedAs fields name t → (∃ j, (name, j) ∈ ps) ∨ Omissible types t) →
      HasType types (.obj ps none) (.object fields)
  | optional {j t} : HasType types j t → HasType types j (.optional t)
  | default {j v t} : HasType types j t → HasType types j (.default v t)
  | ref {j name t} : DefinedAs types name t → HasType types j t → HasType types j (.ref name)

/-! ## What a schema says -/

/-- The words that are no names of types. -/
def builtinTypes : List (List Char) :=
  [chars! "string", chars! "int", chars! "float", chars! "bool", chars! "unit", chars! "any", chars! "object", chars! "seq",
    chars! "map", chars! "optional", chars! "default", chars! "union"]

/-- A value with this tag and this payload. -/
def Tagged (name : List Char) (payload : Option Payload) (v : Value) : Prop :=
  (∃ t, v.tag = some t ∧ t.name = name) ∧ v.payload = payload

mutual
/-- The type that a value of a schema stands for. -/
inductive TypeOf : Value → JsType → Prop
  | string {v} : Tagged (chars! "string") none v → TypeOf v .string
  | int {v} : Tagged (chars! "int") none v → TypeOf v .int
  | float {v} : Tagged (chars! "float") none v → TypeOf v .float
  | bool {v} : Tagged (chars! "bool") none v → TypeOf v .bool
  | unit {v} : Tagged (chars! "unit") none v → TypeOf v .unit
  | any {v} : Tagged (chars! "any") none v → TypeOf v .any
  | object {v es sp fields} : Tagged (chars! "object") (some (.object es sp)) v → TypeOfFields es fields →
      (fields.map (·.1)).Nodup → TypeOf v (.object fields)
  | seq {v i sp t} : Tagged (chars! "seq") (some (.sequence [i] sp)) v → TypeOf i t → TypeOf v (.seq t)
  | map {v k i sp t} : Tagged (chars! "map") (some (.sequence [k, i] sp)) v → TypeOf i t → TypeOf v (.map t)
  | optional {v i sp t} : Tagged (chars! "optional") (some (.sequence [i] sp)) v → TypeOf i t → TypeOf v (.optional t)
  | default {v d i sp t} : Tagged (chars! "default") (some (.sequence [d, i] sp)) v → TypeOf i t →
      TypeOf v (.default d t)
  | named {v name} : Tagged name none v → name ≠ [] → name ∉ builtinTypes → TypeOf v (.ref name)
inductive TypeOfFields : List Entry → List (List Char × JsType) → Prop
  | nil : TypeOfFields [] []
  | cons {k v d es name t fs} : scalarOf k = some name → name ≠ [] → name ≠ chars! "__proto__" → TypeOf v t →
      TypeOfFields es fs → TypeOfFields (.mk k v d :: es) ((name, t) :: fs)
end

/-- The block `schema`: the type of the root first, and then the types with their names. -/
def SchemaBlock (es : List Entry) (root : JsType) (types : List (List Char × JsType)) : Prop :=
  ∃ k v d es', es = .mk k v d :: es' ∧ k.tag = none ∧ k.payload = none ∧ TypeOf v root ∧ TypeOfFields es' types ∧
    (types.map (·.1)).Nodup ∧ ∀ p ∈ types, p.1 ≠ chars! "@"

/-- A schema document: an entry `schema` with such a block, which is the first of this name. -/
def SchemaDoc (doc : List Entry) (root : JsType) (types : List (List Char × JsType)) : Prop :=
  ∃ a k v d b, doc = a ++ .mk k v d :: b ∧ (∀ e ∈ a, scalarOf e.key ≠ some (chars! "schema")) ∧
    scalarOf k = some (chars! "schema") ∧ ∃ es sp, v.payload = some (.object es sp) ∧ SchemaBlock es root types

/-! ## Schemas that can be read to the end -/

mutual
/-- How deep defaults are nested in a type, if `d` says it for the named types. -/
def defaultDepth (d : List Char → Nat) : JsType → Nat
  | .object fields => fieldsDepth d fields
  | .seq t => defaultDepth d t
  | .map t => defaultDepth d t
  | .optional t => defaultDepth d t
  | .default _ t => defaultDepth d t + 1
  | .ref name => d name
  | _ => 0
def fieldsDepth (d : List Char → Nat) : List (List Char × JsType) → Nat
  | [] => 0
  | (_, t) :: fs => max (defaultDepth d t) (fieldsDepth d fs)
end

/-- How many names have to be followed to get to the form of a type, if `h` says it for the named types. -/
def headRank (h : List Char → Nat) : JsType → Nat
  | .optional t => headRank h t
  | .default _ t => headRank h t
  | .ref name => h name
  | _ => 0

/-- The named types are neither defined by themselves, nor is a default of a type of this same type. -/
def Grounded (types : List (List Char × JsType)) : Prop :=
  ∃ d h : List Char → Nat, ∀ p ∈ types, defaultDepth d p.2 ≤ d p.1 ∧ headRank h p.2 < h p.1

end Styx.Spec
