import Verif.Schema.Model

/-!
# Model of the generation of schemas from Rust types

Source: crates/facet-styx/src/schema_gen.rs.

The `Shape`s the facet crate derives for Rust types are modelled by `Shape`, and the structs and
enums of a program by a list of `TypeDef`s to which a shape refers by position.

* A `HashMap` is the list of its entries; inserting a key that is there replaces its value.
* The text of a default (`field_default_value`, 32-88: the default value, written by the
  serializer) is part of the description of a field.
* Documentation is left out.
* The check for a type being generated (505-511) gives structs and enums the answer they get without
  it (516-521), and is left out: an opaque type or a union with the name of a type being generated
  would be queued.
-/

namespace Styx.TypeGen

open Schema (Schema SchemaFile ObjectKey)

/-- `facet_core::Shape`, as far as schema_gen.rs:375-535 looks at it. -/
inductive Shape where
  /-- `PrimitiveType::Boolean`, schema_gen.rs:480. -/
  | bool
  /-- `NumericType::Integer`, 482; the range of the type is not looked at. -/
  | int (lo hi : Int)
  /-- `NumericType::Float`, 483. -/
  | float
  /-- `PrimitiveType::Textual`, 487: `char`, and `str`. -/
  | char
  | str
  /-- `PrimitiveType::Never`, 488. -/
  | never
  /-- `UserType::Opaque`, 461 (when the shape is a scalar) and 523. -/
  | opaque (scalar : Bool) (name : List Char)
  /-- `Def::Option`, 383. -/
  | option (t : Shape)
  /-- `Def::List`, `Def::Array`, `Def::Set`, `Def::Slice` and `Type::Sequence`: 387, 391, 403, 422,
  435. -/
  | list (t : Shape)
  /-- `Def::Map`, 395. -/
  | map (k v : Shape)
  /-- `Def::Result`, 407. -/
  | result (t e : Shape)
  /-- `Def::Pointer` with a pointee, 415-417. -/
  | pointer (t : Shape)
  /-- A metadata container such as `Documented<T>`, 377-379. -/
  | documented (t : Shape)
  /-- `UserType::Struct` and `UserType::Enum`, 516: a type of the program. -/
  | user (i : Nat)
  /-- Everything that is described as `@any`: 419, 448, 453, 454, 474, 485, 490, 522. -/
  | undescribed
  deriving DecidableEq

/-- `facet_core::Field`: its effective name (schema_gen.rs:560), shape (561), whether it is
flattened (577), and the text of its default (625). -/
structure Field where
  name : List Char
  shape : Shape
  flatten : Bool := false
  default : Option (List Char) := none
  deriving DecidableEq

/-- `facet_core::StructKind`; `Tuple` and `TupleStruct` are treated alike (schema_gen.rs:542, 669). -/
inductive StructKind where
  | unit | tuple | struct
  deriving DecidableEq

/-- `facet_core::Variant`: its effective name (schema_gen.rs:666), whether it is `#[facet(other)]`
(659), and its data (667). -/
structure Variant where
  name : List Char
  other : Bool := false
  kind : StructKind
  fields : List Field
  deriving DecidableEq

/-- `UserType::Struct` and `UserType::Enum`, schema_gen.rs:363-364. -/
inductive Body where
  | struct (kind : StructKind) (fields : List Field)
  | enum (variants : List Variant)
  deriving DecidableEq

/-- A struct or enum: its `type_identifier`, and whether it is the type `Schema` itself
(schema_gen.rs:252, 339, 499). -/
structure TypeDef where
  name : List Char
  isSchema : Bool := false
  body : Body
  deriving DecidableEq

/-- The structs and enums of a program. -/
abbrev Program := List TypeDef

section

variable {F : Type}

/-- schema_gen.rs:464-466: the opaque scalars described as text. -/
def scalarTexts : List (List Char) :=
  [chars! "String", chars! "str", chars! "Cow", chars! "PathBuf", chars! "Path", chars! "OsString",
    chars! "OsStr", chars! "Url", chars! "Uri", chars! "Uuid", chars! "Duration",
    chars! "SystemTime", chars! "Instant", chars! "IpAddr", chars! "Ipv4Addr", chars! "Ipv6Addr",
    chars! "SocketAddr", chars! "SocketAddrV4", chars! "SocketAddrV6"]

/-- schema_gen.rs:524: the other opaque types described as text. -/
def opaqueTexts : List (List Char) :=
  [chars! "String", chars! "str", chars! "&str", chars! "Cow", chars! "PathBuf", chars! "Path"]

/-- schema_gen.rs:461-473 and 523-528: an opaque type. -/
def opaqueSchema (scalar : Bool) (name : List Char) : Schema F :=
  if (if scalar then scalarTexts else opaqueTexts).contains name then .string none
  else .type (some name)

/-- schema_gen.rs:494-521 `user_type_to_schema` for a struct or an enum. -/
def userSchema (prog : Program) (i : Nat) : Schema F :=
  match prog[i]? with
  | some d => if d.isSchema then .type (some (chars! "Schema")) else .type (some d.name)
  | none => .any

/-- schema_gen.rs:375-535 `shape_to_schema`, `type_to_schema`, `scalar_to_schema`,
`primitive_to_schema`, `user_type_to_schema`: the schema that is returned (`shapeTypes` is what is
queued). -/
def shapeSchema (prog : Program) : Shape → Schema F
  | .bool => .bool
  | .int .. => .int none
  | .float => .float none
  | .char => .string none
  | .str => .string none
  | .never => .unit
  | .opaque scalar name => opaqueSchema scalar name
  | .option t => .optional (shapeSchema prog t)
  | .list t => .seq (shapeSchema prog t)
  | .map k v => .map [shapeSchema prog k, shapeSchema prog v]
  | .result t e =>
    .enum [(chars! "ok", shapeSchema prog t), (chars! "err", shapeSchema prog e)]
  | .pointer t => shapeSchema prog t
  | .documented t => shapeSchema prog t
  | .user i => userSchema prog i
  | .undescribed => .any

/-- schema_gen.rs:375-535: the types queued on the way, in order (the type `Schema` is not queued,
339-341, 499-503). -/
def shapeTypes (prog : Program) : Shape → List Nat
  | .option t => shapeTypes prog t
  | .list t => shapeTypes prog t
  | .map k v => shapeTypes prog k ++ shapeTypes prog v
  | .result t e => shapeTypes prog t ++ shapeTypes prog e
  | .pointer t => shapeTypes prog t
  | .documented t => shapeTypes prog t
  | .user i => match prog[i]? with
    | some d => if d.isSchema then [] else [i]
    | none => []
  | _ => []

/-- `HashMap::insert`. -/
def put {K V : Type} [DecidableEq K] (k : K) (v : V) : List (K × V) → List (K × V)
  | [] => [(k, v)]
  | (k', v') :: rest => if k' = k then (k, v) :: rest else (k', v') :: put k v rest

/-- schema_gen.rs:302-315 `schema_to_tag_name`. -/
def tagName : Schema F → List Char
  | .string _ => chars! "string"
  | .int _ => chars! "int"
  | .float _ => chars! "float"
  | .bool => chars! "bool"
  | .unit => chars! "unit"
  | .any => chars! "any"
  | .type name => name.getD []
  | _ => chars! "any"

/-- schema_gen.rs:578-618: a flattened field with schema `s` is added to the fields. -/
def putFlattened (fields : List (ObjectKey × Schema F)) (s : Schema F) :
    List (ObjectKey × Schema F) :=
  match s with
  | .map [v] => put (.typed (chars! "string")) v fields
  | .map (k :: v :: _) => put (.typed (tagName k)) v fields
  | .object inner => inner.foldl (fun fs f => put f.1 f.2 fs) fields
  | other => put .unit other fields

/-- schema_gen.rs:559-647: one round of the loop over the fields of a struct. -/
def putField (prog : Program) (fields : List (ObjectKey × Schema F)) (f : Field) :
    List (ObjectKey × Schema F) :=
  let s := shapeSchema prog f.shape
  if f.flatten then putFlattened fields s
  else
    let s := match f.default with
      | some text => .default text s
      | none => s
    put (if f.name.isEmpty then .unit else .named f.name) s fields

/-- schema_gen.rs:537-652 `struct_to_schema`. -/
def structSchema (prog : Program) (kind : StructKind) (fields : List Field) : Schema F :=
  match kind with
  | .unit => .unit
  | .tuple => match fields with
    | [f] => shapeSchema prog f.shape
    | fs => .tuple (fs.map fun f => shapeSchema prog f.shape)
  | .struct => .object (fields.foldl (putField prog) [])

/-- schema_gen.rs:667-684: the schema of a variant. -/
def variantSchema (prog : Program) (v : Variant) : Schema F :=
  match v.kind with
  | .unit => .unit
  | .tuple => match v.fields with
    | [f] => shapeSchema prog f.shape
    | fs => .tuple (fs.map fun f => shapeSchema prog f.shape)
  | .struct => structSchema prog v.kind v.fields

/-- schema_gen.rs:654-709 `enum_to_schema`. -/
def enumSchema (prog : Program) (variants : List Variant) : Schema F :=
  if variants.any (·.other) then .any
  else .enum (variants.foldl (fun vs v => put v.name (variantSchema prog v) vs) [])

/-- schema_gen.rs:357-372 `generate_type_definition` for a struct or an enum. -/
def bodySchema (prog : Program) : Body → Schema F
  | .struct kind fields => structSchema prog kind fields
  | .enum variants => enumSchema prog variants

/-- The types queued by `struct_to_schema` (schema_gen.rs:545, 551, 561) and for the data of a
variant (671, 678, 683): those of the fields, in order. -/
def dataTypes (prog : Program) (kind : StructKind) (fields : List Field) : List Nat :=
  match kind with
  | .unit => []
  | _ => fields.flatMap fun f => shapeTypes prog f.shape

/-- The types queued by `generate_type_definition`, schema_gen.rs:357-372; for an enum with a
`#[facet(other)]` variant there are none (659-661). -/
def bodyTypes (prog : Program) : Body → List Nat
  | .struct kind fields => dataTypes prog kind fields
  | .enum variants =>
    if variants.any (·.other) then [] else variants.flatMap fun v => dataTypes prog v.kind v.fields

/-- schema_gen.rs:318-325 `SchemaGenerator`: the names queued so far, and the stack of pending
types. -/
structure Queue where
  names : List (List Char) := []
  pending : List Nat := []

/-- schema_gen.rs:337-348 `queue_type`; the pending types are a stack with its top first. -/
def Queue.add (prog : Program) (q : Queue) (i : Nat) : Queue :=
  match prog[i]? with
  | none => q
  | some d =>
    if d.isSchema then q
    else if q.names.contains d.name then q
    else ⟨d.name :: q.names, i :: q.pending⟩

/-- schema_gen.rs:250-263: the loop over the pending types. The fuel bounds the number of rounds. -/
def definePending (prog : Program) : Nat → Queue → SchemaFile F → SchemaFile F
  | 0, _, sf => sf
  | n + 1, q, sf => match q.pending with
    | [] => sf
    | i :: rest =>
      let q := { q with pending := rest }
      match prog[i]? with
      | none => definePending prog n q sf
      | some d =>
        if d.isSchema then definePending prog n q sf
        else if (Schema.lookup (some d.name) sf).isSome then definePending prog n q sf
        else definePending prog n ((bodyTypes prog d.body).foldl (Queue.add prog) q)
          (put (some d.name) (bodySchema prog d.body) sf)

/-- schema_gen.rs:223-289 `schema_file_from_type` for the type with position `root`: the table of the
schema file. A type is queued once, so that there are at most as many rounds as types. -/
def generate (prog : Program) (root : Nat) : SchemaFile F :=
  match prog[root]? with
  | none => []
  | some d =>
    definePending prog (prog.length + 1) ((bodyTypes prog d.body).foldl (Queue.add prog) {})
      [(none, bodySchema prog d.body)]

end

end Styx.TypeGen
