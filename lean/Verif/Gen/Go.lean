import Verif.Schema.Model

/-!
# Model of the generator of Go code

Source: crates/styx-gen-go/src/{lib,types}.rs.

* A `HashMap` is the list of its entries in iteration order; a new key goes to the end, and the
  theorems quantify over all orders of the entries of the schema file and of objects. The order in
  which the entries of the table of Go types are written is not used by any theorem.
* Documentation comments are left out, as they are in the model of schemas. The Go names of a field
  in the file of types and in the tags are `json_name` and `styx_name`, which are the same text
  (types.rs:263-264), here `name`.
* `char::to_uppercase` is a parameter.
* No case of the mapping returns an error (types.rs:89-361), so `Result` is left out; writing files
  is not modelled.
* The body of a generated `Validate` method is a list of statements, not text; their texts are the
  ones cited, without the messages and the fixed text around them.
-/

namespace Styx.Go
open Styx.Schema

/-- types.rs:46-53 `FieldConstraints`. -/
structure Constraints (F : Type) where
  minLength : Option Nat := none
  maxLength : Option Nat := none
  minInt : Option Int := none
  maxInt : Option Int := none
  minFloat : Option F := none
  maxFloat : Option F := none
  deriving DecidableEq

/-- types.rs:27-42 `StructField` without `doc`; `json_name` and `styx_name` are `name`. -/
structure Field (F : Type) where
  goName : List Char
  name : List Char
  typeName : List Char
  optional : Bool
  constraints : Option (Constraints F)
  deriving DecidableEq

/-- types.rs:9-23 `GoType` without documentation; a variant (57-62) is its name. -/
inductive GoType (F : Type) where
  | struct (fields : List (Field F))
  | enum (variants : List (List Char))
  | primitive (text : List Char)
  deriving DecidableEq

/-- types.rs:66 `TypeMapper::types`. -/
abbrev Types (F : Type) := List (List Char × GoType F)

/-- `HashMap::insert`. -/
def insert {F : Type} (k : List Char) (v : GoType F) : Types F → Types F
  | [] => [(k, v)]
  | (k', v') :: rest => if k' = k then (k, v) :: rest else (k', v') :: insert k v rest

/-- types.rs:365 `str::split(['_', '-'])`. -/
def words : List Char → List (List Char)
  | [] => [[]]
  | c :: rest =>
    if c = '_' ∨ c = '-' then [] :: words rest
    else match words rest with
      | [] => [[c]]
      | w :: ws => (c :: w) :: ws

/-- types.rs:367-373: the first letter of a word in upper case. -/
def capitalise (upper : Char → List Char) : List Char → List Char
  | [] => []
  | c :: rest => upper c ++ rest

/-- types.rs:364-375 `to_pascal_case` (lib.rs has the same function). -/
def pascal (upper : Char → List Char) (s : List Char) : List Char :=
  (((words s).filter (fun w => !w.isEmpty)).map (capitalise upper)).flatten

/-- types.rs:250-252, 333-335: the type is a pointer, a slice or a map. -/
def nilable (t : List Char) : Bool :=
  t.head? == some '*' || t.head? == some '[' || (chars! "map[").isPrefixOf t

/-- types.rs:295-361 `type_name` (`_parent_name` is not used). -/
def typeName {F : Type} (upper : Char → List Char) : Schema F → List Char
  | .string _ => chars! "string"
  | .int _ => chars! "int64"
  | .float _ => chars! "float64"
  | .bool => chars! "bool"
  | .unit => chars! "struct{}"
  | .any => chars! "interface{}"
  | .object _ => chars! "map[string]interface{}"
  | .seq item => chars! "[]" ++ typeName upper item
  | .tuple [] => chars! "[]interface{}"
  | .tuple (first :: _) => chars! "[]" ++ typeName upper first
  | .map [] => chars! "map[string]interface{}"
  | .map [k] => chars! "map[" ++ typeName upper k ++ chars! "]interface{}"
  | .map (k :: v :: _) => chars! "map[" ++ typeName upper k ++ chars! "]" ++ typeName upper v
  | .enum _ => chars! "string"
  | .optional inner =>
    let t := typeName upper inner
    if nilable t then t else '*' :: t
  | .default _ inner => typeName upper inner
  | .union _ => chars! "interface{}"
  | .oneOf _ _ => chars! "interface{}"
  | .flatten inner => typeName upper inner
  | .deprecated _ inner => typeName upper inner
  | .literal _ => chars! "string"
  | .type (some n) => pascal upper n
  | .type none => chars! "interface{}"

/-- `v as i64` for an `i128` (types.rs:281-282): the lower 64 bits, read as a signed number. -/
def toI64 (v : Int) : Int := (v + 2 ^ 63) % 2 ^ 64 - 2 ^ 63

/-- types.rs:273-292 `extract_constraints`. -/
def extractConstraints {F : Type} : Schema F → Option (Constraints F)
  | .string c => c.map fun c => { minLength := c.minLen, maxLength := c.maxLen }
  | .int c => c.map fun c => { minInt := c.min.map toI64, maxInt := c.max.map toI64 }
  | .float c => c.map fun c => { minFloat := c.min, maxFloat := c.max }
  | _ => none

/-- types.rs:249-257: a field that is optional gets a pointer type unless its type has a nil. -/
def optionalType (optional : Bool) (t : List Char) : List Char :=
  if optional && !nilable t then '*' :: t else t

/-- types.rs:261-269, the end of `map_field`. -/
def fieldOf {F : Type} (upper : Char → List Char) (name : List Char) (optional : Bool)
    (t : List Char) (constraints : Option (Constraints F)) : Field F :=
  ⟨pascal upper name, name, optionalType optional t, optional, constraints⟩

mutual
/-- types.rs:89-200 `map_schema_type`. Its callers (78, 240) pass a parent name. -/
def mapType {F : Type} (upper : Char → List Char) (types : Types F) (parent : List Char) :
    Schema F → GoType F × Types F
  | .object fields =>
    let (fs, types) := mapFields upper types parent fields
    (.struct fs, types)
  | .seq item => (.primitive (chars! "[]" ++ typeName upper item), types)
  | .tuple [] => (.primitive (chars! "[]interface{}"), types)
  | .tuple (first :: _) => (.primitive (chars! "[]" ++ typeName upper first), types)
  | .map [] => (.primitive (chars! "map[string]interface{}"), types)
  | .map [k] =>
    (.primitive (chars! "map[" ++ typeName upper k ++ chars! "]interface{}"), types)
  | .map (k :: v :: _) =>
    (.primitive (chars! "map[" ++ typeName upper k ++ chars! "]" ++ typeName upper v), types)
  | .enum variants => (.enum (variants.map (·.1)), types)
  | .optional inner => (.primitive ('*' :: typeName upper inner), types)
  | .default _ inner => mapType upper types parent inner
  | .flatten inner => mapType upper types parent inner
  | .deprecated _ inner => mapType upper types parent inner
  | .string _ => (.primitive (chars! "string"), types)
  | .int _ => (.primitive (chars! "int64"), types)
  | .float _ => (.primitive (chars! "float64"), types)
  | .bool => (.primitive (chars! "bool"), types)
  | .unit => (.primitive (chars! "struct{}"), types)
  | .any => (.primitive (chars! "interface{}"), types)
  | .union _ => (.primitive (chars! "interface{}"), types)
  | .oneOf _ _ => (.primitive (chars! "interface{}"), types)
  | .literal _ => (.primitive (chars! "string"), types)
  | .type (some n) => (.primitive (pascal upper n), types)
  | .type none => (.primitive (chars! "interface{}"), types)
/-- types.rs:103-117: the named fields of an object in order. -/
def mapFields {F : Type} (upper : Char → List Char) (types : Types F) (parent : List Char) :
    List (ObjectKey × Schema F) → List (Field F) × Types F
  | [] => ([], types)
  | entry :: rest =>
    let (f, types) := mapEntry upper types parent entry
    let (fs, types) := mapFields upper types parent rest
    (f.toList ++ fs, types)
/-- types.rs:104-116: one entry of an object. -/
def mapEntry {F : Type} (upper : Char → List Char) (types : Types F) (parent : List Char) :
    ObjectKey × Schema F → Option (Field F) × Types F
  | (key, schema) =>
    match key.value with
    | some name =>
      let (f, types) := mapField upper types parent name false schema
      (some f, types)
    | none => (none, types)
/-- types.rs:203-270 `map_field`; the loop of 214-225 is the recursion through `default` and
`optional`, with `is_optional` as a parameter. -/
def mapField {F : Type} (upper : Char → List Char) (types : Types F) (parent name : List Char)
    (optional : Bool) : Schema F → Field F × Types F
  | .default _ inner => mapField upper types parent name optional inner
  | .optional inner => mapField upper types parent name true inner
  | .object fields =>
    let nested := parent ++ pascal upper name
    let types :=
      if types.any (·.1 = nested) then types
      else
        let (fs, types) := mapFields upper types nested fields
        insert nested (.struct fs) types
    (fieldOf upper name optional nested none, types)
  | s => (fieldOf upper name optional (typeName upper s) (extractConstraints s), types)
end

/-- types.rs:77-81 `register_type`. -/
def registerType {F : Type} (upper : Char → List Char) (types : Types F) (name : List Char)
    (s : Schema F) : Types F :=
  let (t, types) := mapType upper types name s
  insert name t types

/-- lib.rs:20-23: the name of a type of the schema file. -/
def nameOf : Option (List Char) → List Char
  | some n => n
  | none => chars! "Root"

/-- lib.rs:16-25: the types of all the code that is generated. -/
def generate {F : Type} (upper : Char → List Char) (sf : SchemaFile F) : Types F :=
  sf.foldl (fun types e => registerType upper types (nameOf e.1) e.2) []

/-- lib.rs:90-97: the line of a field. -/
def fieldLine {F : Type} (f : Field F) : List Char :=
  chars! "\t" ++ f.goName ++ chars! " " ++ f.typeName ++ chars! " `json:\"" ++ f.name ++
    (if f.optional then chars! ",omitempty" else []) ++ chars! "\" styx:\"" ++ f.name ++
    (if f.optional then chars! ",optional" else []) ++ chars! "\"`\n"

/-- lib.rs:71-124 `generate_type_definition`. -/
def typeDefinition {F : Type} (upper : Char → List Char) (name : List Char) :
    GoType F → List Char
  | .struct fields =>
    chars! "type " ++ name ++ chars! " struct {\n" ++ (fields.map fieldLine).flatten ++ chars! "}\n"
  | .enum variants =>
    chars! "type " ++ name ++ chars! " string\n\nconst (\n" ++
      (variants.map fun v => chars! "\t" ++ name ++ pascal upper v ++ chars! " " ++ name ++
        chars! " = \"" ++ v ++ chars! "\"\n").flatten ++ chars! ")\n"
  | .primitive _ => []

/-- lib.rs:53-69 `generate_types_file`, without the header. -/
def typesFile {F : Type} (upper : Char → List Char) (types : Types F) : List Char :=
  (types.map fun e => typeDefinition upper e.1 e.2 ++ chars! "\n").flatten

/-- The messages of the generated errors, without the numbers in them (lib.rs:203, 230, 252, 271,
289, 308, 326). -/
inductive Message where
  | missing | tooShort | tooLong | tooSmall | tooLarge
  deriving DecidableEq, Repr

/-- The conditions of the generated `if` statements on an operand (lib.rs:223, 245, 266, 284, 303,
321). -/
inductive Cond (F : Type) where
  | lenBelow (n : Nat)
  | lenAbove (n : Nat)
  | intBelow (n : Int)
  | intAbove (n : Int)
  | floatBelow (x : F)
  | floatAbove (x : F)

/-- The statements of a generated `Validate` method. An error names `field` and goes to the end of
the list of errors. -/
inductive Stmt (F : Type) where
  /-- `if v.X == nil { … }` (lib.rs:200-205) -/
  | whenNil (goName field : List Char)
  /-- `if cond(v.X) { … }` or `if cond(*v.X) { … }` (lib.rs:215-331) -/
  | check (goName field : List Char) (deref : Bool) (cond : Cond F) (message : Message)
  /-- `if v.X != nil { … }` (lib.rs:211, 334) -/
  | unlessNil (goName : List Char) (body : List (Stmt F))

/-- lib.rs:214-331: the checks of a field. -/
def checks {F : Type} (f : Field F) (c : Constraints F) : List (Stmt F) :=
  let one := fun cond message => Stmt.check f.goName f.name (f.typeName.head? == some '*') cond message
  (c.minLength.map fun n => one (.lenBelow n) .tooShort).toList ++
  (c.maxLength.map fun n => one (.lenAbove n) .tooLong).toList ++
  (c.minInt.map fun n => one (.intBelow n) .tooSmall).toList ++
  (c.maxInt.map fun n => one (.intAbove n) .tooLarge).toList ++
  (c.minFloat.map fun x => one (.floatBelow x) .tooSmall).toList ++
  (c.maxFloat.map fun x => one (.floatAbove x) .tooLarge).toList

/-- lib.rs:198-336: the statements for one field. -/
def validateField {F : Type} (f : Field F) : List (Stmt F) :=
  (if !f.optional && f.typeName.head? == some '*' then [.whenNil f.goName f.name] else []) ++
  match f.constraints with
  | none => []
  | some c => if f.optional then [.unlessNil f.goName (checks f c)] else checks f c

/-- lib.rs:187-347 `generate_validation_function`: the statements of `Validate`, which returns the
list of errors if it is not empty (340-343). -/
def validateMethod {F : Type} (fields : List (Field F)) : List (Stmt F) :=
  (fields.map validateField).flatten

end Styx.Go
