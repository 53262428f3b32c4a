import Verif.Gen.Go

/-!
# What the generated Go code should be

Names of Go types and fields are made with `Go.pascal` (types.rs:364-375); for names in snake case
`C86_names` says what it does.
-/

namespace Styx.Spec
open Styx.Schema Styx.Go

/-- The schema of a field without the `@default` and `@optional` around it, and whether there is an
`@optional` among them. -/
inductive FieldCore {F : Type} : Schema F → Bool → Schema F → Prop where
  | base {s} : (∀ v i, s ≠ .default v i) → (∀ i, s ≠ .optional i) → FieldCore s false s
  | default {v i o c} : FieldCore i o c → FieldCore (.default v i) o c
  | optional {i o c} : FieldCore i o c → FieldCore (.optional i) true c

/-- The object schema of a type of the schema file: `@default`, `@flatten` and `@deprecated` around
it do not count. -/
inductive DefinesObject {F : Type} : Schema F → List (ObjectKey × Schema F) → Prop where
  | object (fs) : DefinesObject (.object fs) fs
  | default {v i fs} : DefinesObject i fs → DefinesObject (.default v i) fs
  | flatten {i fs} : DefinesObject i fs → DefinesObject (.flatten i) fs
  | deprecated {r i fs} : DefinesObject i fs → DefinesObject (.deprecated r i) fs

/-- The same for an enum. -/
inductive DefinesEnum {F : Type} : Schema F → List (List Char) → Prop where
  | enum (vs) : DefinesEnum (.enum vs) (vs.map (·.1))
  | default {v i vs} : DefinesEnum i vs → DefinesEnum (.default v i) vs
  | flatten {i vs} : DefinesEnum i vs → DefinesEnum (.flatten i) vs
  | deprecated {r i vs} : DefinesEnum i vs → DefinesEnum (.deprecated r i) vs

/-- The objects of a schema file and the names of their Go structs: the name of the type, `Root` for
the root, and for an object that is the schema of a field the name of the outer struct followed by
the one of the field. -/
inductive ObjectNamed {F : Type} (upper : Char → List Char) (sf : SchemaFile F) :
    List Char → List (ObjectKey × Schema F) → Prop where
  | named {n s fs} : (some n, s) ∈ sf → DefinesObject s fs → ObjectNamed upper sf n fs
  | root {s fs} : (none, s) ∈ sf → DefinesObject s fs →
      ObjectNamed upper sf (chars! "Root") fs
  | nested {m fs key name s o fs'} : ObjectNamed upper sf m fs → (key, s) ∈ fs →
      key.value = some name → FieldCore s o (.object fs') →
      ObjectNamed upper sf (m ++ pascal upper name) fs'

/-- No two objects of the file have the same Go name, nor an object and another type of the file. -/
structure NoClash {F : Type} (upper : Char → List Char) (sf : SchemaFile F) : Prop where
  objects : ∀ {m fs fs'}, ObjectNamed upper sf m fs → ObjectNamed upper sf m fs' → fs = fs'
  named : ∀ {m fs s}, ObjectNamed upper sf m fs → (some m, s) ∈ sf → ∃ fs', DefinesObject s fs'
  root : ∀ {fs s}, ObjectNamed upper sf (chars! "Root") fs → (none, s) ∈ sf →
    ∃ fs', DefinesObject s fs'

/-- The Go types that need no declaration. -/
def goBuiltins : List (List Char) :=
  [chars! "string", chars! "int64", chars! "float64", chars! "bool", chars! "struct{}",
    chars! "interface{}"]

/-- The text of a Go type in which only the given names occur. -/
inductive GoTypeText (Declared : List Char → Prop) : List Char → Prop where
  | builtin {t} : t ∈ goBuiltins → GoTypeText Declared t
  | declared {n} : Declared n → GoTypeText Declared n
  | pointer {t} : GoTypeText Declared t → GoTypeText Declared (chars! "*" ++ t)
  | slice {t} : GoTypeText Declared t → GoTypeText Declared (chars! "[]" ++ t)
  | map {k v} : GoTypeText Declared k → GoTypeText Declared v →
      GoTypeText Declared (chars! "map[" ++ k ++ chars! "]" ++ v)

/-- The schema `t` is `s` or occurs in it: as the schema of a field, an item, a key or value of a
map, or below `@optional`, `@default`, `@flatten` or `@deprecated`. -/
inductive Inside {F : Type} (t : Schema F) : Schema F → Prop where
  | here : Inside t t
  | object {fs key s} : (key, s) ∈ fs → Inside t s → Inside t (.object fs)
  | seq {i} : Inside t i → Inside t (.seq i)
  | tuple {is i} : i ∈ is → Inside t i → Inside t (.tuple is)
  | map {is i} : i ∈ is → Inside t i → Inside t (.map is)
  | optional {i} : Inside t i → Inside t (.optional i)
  | default {v i} : Inside t i → Inside t (.default v i)
  | flatten {i} : Inside t i → Inside t (.flatten i)
  | deprecated {r i} : Inside t i → Inside t (.deprecated r i)

/-- A name in Pascal case: no `_` and `-`, and the first letter is in upper case. -/
def PascalCase (upper : Char → List Char) (n : List Char) : Prop :=
  ∃ c rest, n = c :: rest ∧ upper c = [c] ∧ '_' ∉ n ∧ '-' ∉ n

/-- A name in snake case: words of small letters with `_` between them. -/
def SnakeCase (n : List Char) : Prop :=
  ∃ ws : List (List Char), ws ≠ [] ∧ (∀ w ∈ ws, w ≠ [] ∧ ∀ c ∈ w, 'a' ≤ c ∧ c ≤ 'z') ∧
    n = List.intercalate ['_'] ws

/-- The Go type is a pointer, a slice or a map, so that nil can stand for a value that is absent. -/
def HasNil (t : List Char) : Prop :=
  t.head? = some '*' ∨ t.head? = some '[' ∨ (chars! "map[") <+: t

/-- The Go type for the values a schema allows. A tuple whose items have different types, or none at
all, has no Go type. -/
inductive GoTypeOf {F : Type} : Schema F → List Char → Prop where
  | string (c) : GoTypeOf (.string c) (chars! "string")
  | int (c) : GoTypeOf (.int c) (chars! "int64")
  | float (c) : GoTypeOf (.float c) (chars! "float64")
  | bool : GoTypeOf .bool (chars! "bool")
  | unit : GoTypeOf .unit (chars! "struct{}")
  | any : GoTypeOf .any (chars! "interface{}")
  | object (fs) : GoTypeOf (.object fs) (chars! "map[string]interface{}")
  | enum (vs) : GoTypeOf (.enum vs) (chars! "string")
  | literal (t) : GoTypeOf (.literal t) (chars! "string")
  | union (vs) : GoTypeOf (.union vs) (chars! "interface{}")
  | oneOf (b vs) : GoTypeOf (.oneOf b vs) (chars! "interface{}")
  | type (n) : GoTypeOf (.type (some n)) n
  | seq {i t} : GoTypeOf i t → GoTypeOf (.seq i) (chars! "[]" ++ t)
  | tuple {is t} : is ≠ [] → (∀ i ∈ is, GoTypeOf i t) → GoTypeOf (.tuple is) (chars! "[]" ++ t)
  | values {v t} : GoTypeOf v t → GoTypeOf (.map [v]) (chars! "map[string]" ++ t)
  | map {k v s t} : GoTypeOf k s → GoTypeOf v t →
      GoTypeOf (.map [k, v]) (chars! "map[" ++ s ++ chars! "]" ++ t)
  | pointer {i t} : GoTypeOf i t → ¬ HasNil t → GoTypeOf (.optional i) (chars! "*" ++ t)
  | absent {i t} : GoTypeOf i t → HasNil t → GoTypeOf (.optional i) t
  | default {v i t} : GoTypeOf i t → GoTypeOf (.default v i) t
  | flatten {i t} : GoTypeOf i t → GoTypeOf (.flatten i) t
  | deprecated {r i t} : GoTypeOf i t → GoTypeOf (.deprecated r i) t

/-- The Go field for the field `name` of an object whose struct is `m`: its name, its tags and its
type. -/
structure FieldFor {F : Type} (upper : Char → List Char) (m name : List Char) (s : Schema F)
    (g : Field F) : Prop where
  goName : g.goName = pascal upper name
  tag : g.name = name
  optional : g.optional = true ↔ ∃ c, FieldCore s true c
  nested : ∀ {fs o}, FieldCore s o (.object fs) →
    g.typeName = m ++ pascal upper name ∨
      o = true ∧ g.typeName = chars! "*" ++ (m ++ pascal upper name)

/-- A value of a field of a Go struct; values of other types are not told apart. -/
inductive GoValue (F : Type) where
  | text (t : List Char)
  | int (n : Int)
  | float (x : F)
  | nil
  | pointer (v : GoValue F)
  | other

/-- The value has the Go type. -/
inductive OfGoType {F : Type} : List Char → GoValue F → Prop where
  | text (t) : OfGoType (chars! "string") (.text t)
  | int {n} : -(2 ^ 63) ≤ n → n < 2 ^ 63 → OfGoType (chars! "int64") (.int n)
  | float (x) : OfGoType (chars! "float64") (.float x)
  | nil (t) : OfGoType ('*' :: t) .nil
  | pointer {t v} : OfGoType t v → OfGoType ('*' :: t) (.pointer v)
  | other {t v} : t ∉ [chars! "string", chars! "int64", chars! "float64"] → t.head? ≠ some '*' →
      OfGoType t v

/-- What a condition is for a value in Go; `len` counts bytes. There is no answer if the condition
is not for values of this type. -/
def condHolds {F : Type} (ltF : F → F → Bool) : Cond F → GoValue F → Option Bool
  | .lenBelow n, .text t => some (decide (utf8Len t < n))
  | .lenAbove n, .text t => some (decide (n < utf8Len t))
  | .intBelow n, .int x => some (decide (x < n))
  | .intAbove n, .int x => some (decide (n < x))
  | .floatBelow y, .float x => some (ltF x y)
  | .floatAbove y, .float x => some (ltF y x)
  | _, _ => none

mutual
/-- What a statement adds to the list of errors when the fields of the struct are `v`. There is no
answer if the statement is no Go for values of these types, or dereferences nil. -/
def runStmt {F : Type} (ltF : F → F → Bool) (v : List Char → GoValue F) :
    Stmt F → Option (List (List Char × Message))
  | .whenNil x field => match v x with
    | .nil => some [(field, .missing)]
    | .pointer _ => some []
    | _ => none
  | .check x field deref cond message =>
    let operand := match deref, v x with
      | true, .pointer y => some y
      | true, _ => none
      | false, y => some y
    match operand.bind (condHolds ltF cond) with
    | some true => some [(field, message)]
    | some false => some []
    | none => none
  | .unlessNil x body => match v x with
    | .nil => some []
    | .pointer _ => runStmts ltF v body
    | _ => none
/-- The same for statements one after the other. -/
def runStmts {F : Type} (ltF : F → F → Bool) (v : List Char → GoValue F) :
    List (Stmt F) → Option (List (List Char × Message))
  | [] => some []
  | s :: rest => match runStmt ltF v s, runStmts ltF v rest with
    | some es, some es' => some (es ++ es')
    | _, _ => none
end

/-- The value violates a bound of the schema, and the kind of the bound. -/
inductive OutOfBounds {F : Type} (ltF : F → F → Bool) : Schema F → GoValue F → Message → Prop where
  | short {c n t} : c.minLen = some n → utf8Len t < n →
      OutOfBounds ltF (.string (some c)) (.text t) .tooShort
  | long {c n t} : c.maxLen = some n → n < utf8Len t →
      OutOfBounds ltF (.string (some c)) (.text t) .tooLong
  | small {c n x} : c.min = some n → x < n → OutOfBounds ltF (.int (some c)) (.int x) .tooSmall
  | large {c n x} : c.max = some n → n < x → OutOfBounds ltF (.int (some c)) (.int x) .tooLarge
  | floatSmall {c y x} : c.min = some y → ltF x y = true →
      OutOfBounds ltF (.float (some c)) (.float x) .tooSmall
  | floatLarge {c y x} : c.max = some y → ltF y x = true →
      OutOfBounds ltF (.float (some c)) (.float x) .tooLarge
  | default {d i v m} : OutOfBounds ltF i v m → OutOfBounds ltF (.default d i) v m
  | optional {i v m} : OutOfBounds ltF i v m → OutOfBounds ltF (.optional i) v m
  | deprecated {r i v m} : OutOfBounds ltF i v m → OutOfBounds ltF (.deprecated r i) v m
  | flatten {i v m} : OutOfBounds ltF i v m → OutOfBounds ltF (.flatten i) v m
  | present {i v m} : OutOfBounds ltF i v m → OutOfBounds ltF i (.pointer v) m

/-- No `@deprecated` and no `@flatten` around the type of a field. -/
def Unmarked {F : Type} (s : Schema F) : Prop :=
  ∀ o i r, ¬ FieldCore s o (.deprecated r i) ∧ ¬ FieldCore s o (.flatten i)

/-- The bounds of an `@int` are numbers of 64 bits. -/
def Bounds64 {F : Type} (s : Schema F) : Prop :=
  ∀ o c n, FieldCore s o (.int (some c)) → (c.min = some n ∨ c.max = some n) →
    -(2 ^ 63) ≤ n ∧ n < 2 ^ 63

/-- A field in a Go struct, with its name for the readers of JSON and Styx. -/
def goFieldText (goName type name : List Char) (optional : Bool) : List Char :=
  let json := if optional then name ++ chars! ",omitempty" else name
  let styx := if optional then name ++ chars! ",optional" else name
  chars! "\t" ++ goName ++ chars! " " ++ type ++ chars! " `json:\"" ++ json ++ chars! "\" styx:\"" ++ styx ++
    chars! "\"`\n"

end Styx.Spec
