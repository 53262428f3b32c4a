import Verif.Schema.Model
import Verif.Lsp.Context

/-!
# Model: the schema at a path and the fields it declares (styx-lsp/src/schema_validation.rs)

Hash maps are lists, as in `Verif/Schema/Model.lean`.  The functions that follow the names of types recurse
without a bound, so they take fuel; running out of it stands for a stack overflow.
-/

namespace Styx.Lsp

open Styx Styx.Schema

/-- The outcome of a call: an answer, a panic, or no answer within the fuel. -/
inductive Outcome (α : Type) where
  | done (a : α)
  | panics
  | runsOut
  deriving DecidableEq, Repr

/-- What follows a call. -/
def Outcome.bind {α β : Type} (x : Outcome α) (f : α → Outcome β) : Outcome β :=
  match x with
  | .done a => f a
  | .panics => .panics
  | .runsOut => .runsOut

/-- schema_validation.rs:15-24 `SchemaField`. -/
structure SchemaField (F : Type) where
  name : List Char
  optional : Bool
  defaultValue : Option (List Char)
  schema : Schema F

variable {F : Type}

/-- schema_validation.rs:398-412 `unwrap_field_modifiers`. -/
def unwrapModifiers : Schema F → Bool × Option (List Char) × Schema F
  | .optional inner => (true, (unwrapModifiers inner).2)
  | .default value inner => ((unwrapModifiers inner).1, some value, (unwrapModifiers inner).2.2)
  | .deprecated _ inner => unwrapModifiers inner
  | s => (false, none, s)

/-- schema_validation.rs:366-379: the fields of an object schema, without those that have no name. -/
def ownFields (fields : List (ObjectKey × Schema F)) : List (SchemaField F) :=
  fields.filterMap fun f => f.1.value.map fun name =>
    ⟨name, (unwrapModifiers f.2).1, (unwrapModifiers f.2).2.1, (unwrapModifiers f.2).2.2⟩

/-- schema_validation.rs:699-712 `resolve_type_reference`. -/
def resolveType (sf : SchemaFile F) : Nat → Schema F → Outcome (Schema F)
  | 0, _ => .runsOut
  | fuel + 1, .type (some n) =>
    match lookup (some n) sf with
    | some s => resolveType sf fuel s
    | none => .done (.type (some n))
  | _ + 1, s => .done s

/-- schema_validation.rs:363-395 `collect_object_fields`. -/
def collectFields (sf : SchemaFile F) : Nat → Schema F → Outcome (List (SchemaField F))
  | 0, _ => .runsOut
  | _ + 1, .object fields => .done (ownFields fields)
  | fuel + 1, .flatten inner => collectFields sf fuel inner
  | fuel + 1, .type (some n) =>
    match lookup (some n) sf with
    | some s => (resolveType sf fuel s).bind (collectFields sf fuel)
    | none => .done []
  | _ + 1, _ => .done []

/-- schema_validation.rs:638-646: the first key that stands for all keys not named. -/
def anyKey (fields : List (ObjectKey × Schema F)) : Option (Schema F) :=
  (fields.find? fun f => f.1.value.isNone && f.1.tag.isSome).map (·.2)

/-- schema_validation.rs:613-682 `get_schema_at_path_recursive`.  `map_schema.0[1]` panics when the map has
no second schema. -/
def schemaAt (sf : SchemaFile F) : Nat → Schema F → List (List Char) → Outcome (Option (Schema F))
  | 0, _, _ => .runsOut
  | _ + 1, s, [] => .done (some s)
  | fuel + 1, .object fields, name :: rest =>
    match lookup (ObjectKey.named name) fields with
    | some s => schemaAt sf fuel s rest
    | none => match anyKey fields with
      | some s => schemaAt sf fuel s rest
      | none => .done none
  | fuel + 1, .enum variants, name :: rest =>
    match stripPrefix ['@'] name with
    | some variant => match lookup variant variants with
      | some s => schemaAt sf fuel s rest
      | none => .done none
    | none => .done none
  | fuel + 1, .map types, _ :: rest =>
    match types with
    | [vs] => schemaAt sf fuel vs rest
    | _ :: vs :: _ => schemaAt sf fuel vs rest
    | [] => .panics
  | fuel + 1, .optional inner, path => schemaAt sf fuel inner path
  | fuel + 1, .default _ inner, path => schemaAt sf fuel inner path
  | fuel + 1, .deprecated _ inner, path => schemaAt sf fuel inner path
  | fuel + 1, .type (some n), path =>
    match lookup (some n) sf with
    | some s => schemaAt sf fuel s path
    | none => .done none
  | _ + 1, _, _ => .done none

/-- schema_validation.rs:608-611 `get_schema_at_path`. -/
def schemaAtPath (sf : SchemaFile F) (fuel : Nat) (path : List (List Char)) : Outcome (Option (Schema F)) :=
  match lookup none sf with
  | some root => schemaAt sf fuel root path
  | none => .done none

/-- schema_validation.rs:685-696 `get_schema_fields_at_path`. -/
def fieldsAtPath (sf : SchemaFile F) (fuel : Nat) (path : List (List Char)) : Outcome (List (SchemaField F)) :=
  (schemaAtPath sf fuel path).bind fun
    | none => .done []
    | some s => (resolveType sf fuel s).bind (collectFields sf fuel)

mutual
/-- schema_validation.rs:415-459 `generate_placeholder`. -/
def placeholder : Schema F → List Char
  | .string _ => chars! "\"\""
  | .int _ => chars! "0"
  | .float _ => chars! "0.0"
  | .bool => chars! "false"
  | .unit => chars! "@"
  | .any => chars! "@"
  | .seq _ => chars! "[]"
  | .map _ => chars! "{}"
  | .object _ => chars! "{}"
  | .optional inner => placeholder inner
  | .default value _ => value
  | .deprecated _ inner => placeholder inner
  | .union [] => chars! "@"
  | .union (s :: _) => placeholder s
  | .enum [] => chars! "@"
  | .enum ((name, _) :: _) => '@' :: name
  | .oneOf base [] => placeholder base
  | .oneOf _ (text :: _) => text
  | .flatten inner => placeholder inner
  | .literal text => text
  | .type none => chars! "@"
  | .type (some n) => '@' :: n
  | .tuple items => '(' :: placeholders items ++ [')']
/-- schema_validation.rs:453-457: the placeholders of a tuple, `elements.join(" ")`. -/
def placeholders : List (Schema F) → List Char
  | [] => []
  | [s] => placeholder s
  | s :: ss => placeholder s ++ ' ' :: placeholders ss
end

/-- server.rs:1432-1437: the names of the fields an object has. -/
def existingNames (es : List Entry) : List (List Char) := es.filterMap fun e => e.key.asStr

/-- server.rs:1451-1454: the fields that are neither optional nor there. -/
def missingRequired (fields : List (SchemaField F)) (existing : List (List Char)) : List (SchemaField F) :=
  fields.filter fun f => !f.optional && !existing.contains f.name

/-- server.rs:1517-1520: the fields that are not there. -/
def allMissing (fields : List (SchemaField F)) (existing : List (List Char)) : List (SchemaField F) :=
  fields.filter fun f => !existing.contains f.name

end Styx.Lsp
