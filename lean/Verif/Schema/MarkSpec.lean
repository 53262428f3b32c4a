import Verif.Schema.Model

/-!
# Specification: a schema with more of its parts marked as deprecated
-/

namespace Styx.Schema

variable {F : Type}

/-- The schema is written as optional or with a default. -/
inductive Omittable : Schema F → Prop where
  | optional (s) : Omittable (.optional s)
  | default (t s) : Omittable (.default t s)

/-- The second schema is the first with any number of its parts, at any depth, wrapped as deprecated;
but no wrapping directly around an optional or default field of an object, nor directly around the
schema of an enum variant.  `pairs` lists the corresponding parts. -/
inductive Marked : Schema F → Schema F → Prop where
  | same (s) : Marked s s
  | wrap {s s'} (reason) : Marked s s' → Marked s (.deprecated reason s')
  | object (pairs : List (ObjectKey × Schema F × Schema F)) : (∀ q ∈ pairs, Marked q.2.1 q.2.2) →
      (∀ q ∈ pairs, Omittable q.2.1 → Omittable q.2.2) →
      Marked (.object (pairs.map fun q => (q.1, q.2.1))) (.object (pairs.map fun q => (q.1, q.2.2)))
  | enum (pairs : List (List Char × Schema F × Schema F)) : (∀ q ∈ pairs, Marked q.2.1 q.2.2) →
      (∀ q ∈ pairs, ∀ reason s, q.2.2 = .deprecated reason s → q.2.1 = q.2.2) →
      Marked (.enum (pairs.map fun q => (q.1, q.2.1))) (.enum (pairs.map fun q => (q.1, q.2.2)))
  | seq {s s'} : Marked s s' → Marked (.seq s) (.seq s')
  | tuple (pairs : List (Schema F × Schema F)) : (∀ q ∈ pairs, Marked q.1 q.2) →
      Marked (.tuple (pairs.map (·.1))) (.tuple (pairs.map (·.2)))
  | map (pairs : List (Schema F × Schema F)) : (∀ q ∈ pairs, Marked q.1 q.2) →
      Marked (.map (pairs.map (·.1))) (.map (pairs.map (·.2)))
  | union (pairs : List (Schema F × Schema F)) : (∀ q ∈ pairs, Marked q.1 q.2) →
      Marked (.union (pairs.map (·.1))) (.union (pairs.map (·.2)))
  | optional {s s'} : Marked s s' → Marked (.optional s) (.optional s')
  | oneOf {s s'} (allowed) : Marked s s' → Marked (.oneOf s allowed) (.oneOf s' allowed)
  | flatten {s s'} : Marked s s' → Marked (.flatten s) (.flatten s')
  | default {s s'} (t) : Marked s s' → Marked (.default t s) (.default t s')
  | deprecated {s s'} (t) : Marked s s' → Marked (.deprecated t s) (.deprecated t s')

/-- The same for every definition of a schema file. -/
inductive MarkedFile : SchemaFile F → SchemaFile F → Prop where
  | mk (pairs : List (Option (List Char) × Schema F × Schema F)) :
      (∀ q ∈ pairs, Marked q.2.1 q.2.2) →
      MarkedFile (pairs.map fun q => (q.1, q.2.1)) (pairs.map fun q => (q.1, q.2.2))

/-- Where the errors of a report are. -/
def errorPlaces (r : Result) : List (List Char × Option Span) := r.errors.map fun e => (e.path, e.span)

end Styx.Schema
