import Verif.Schema.Model

/-!
# Specification: two schemas that differ in the iteration order of their tables
-/

namespace Styx.Schema

variable {F : Type}

/-- The schemas differ at most in the order of the entries of object and enum tables, at any depth.
`pairs` lists the corresponding parts. -/
inductive SameSchema : Schema F → Schema F → Prop where
  | same (s) : SameSchema s s
  | object {fields fields'} (pairs : List (ObjectKey × Schema F × Schema F)) :
      (∀ q ∈ pairs, SameSchema q.2.1 q.2.2) → fields.Perm (pairs.map fun q => (q.1, q.2.1)) →
      fields'.Perm (pairs.map fun q => (q.1, q.2.2)) → SameSchema (.object fields) (.object fields')
  | enum {variants variants'} (pairs : List (List Char × Schema F × Schema F)) :
      (∀ q ∈ pairs, SameSchema q.2.1 q.2.2) → variants.Perm (pairs.map fun q => (q.1, q.2.1)) →
      variants'.Perm (pairs.map fun q => (q.1, q.2.2)) → SameSchema (.enum variants) (.enum variants')
  | seq {s s'} : SameSchema s s' → SameSchema (.seq s) (.seq s')
  | tuple (pairs : List (Schema F × Schema F)) : (∀ q ∈ pairs, SameSchema q.1 q.2) →
      SameSchema (.tuple (pairs.map (·.1))) (.tuple (pairs.map (·.2)))
  | map (pairs : List (Schema F × Schema F)) : (∀ q ∈ pairs, SameSchema q.1 q.2) →
      SameSchema (.map (pairs.map (·.1))) (.map (pairs.map (·.2)))
  | union (pairs : List (Schema F × Schema F)) : (∀ q ∈ pairs, SameSchema q.1 q.2) →
      SameSchema (.union (pairs.map (·.1))) (.union (pairs.map (·.2)))
  | optional {s s'} : SameSchema s s' → SameSchema (.optional s) (.optional s')
  | oneOf {s s'} (allowed) : SameSchema s s' → SameSchema (.oneOf s allowed) (.oneOf s' allowed)
  | flatten {s s'} : SameSchema s s' → SameSchema (.flatten s) (.flatten s')
  | default {s s'} (t) : SameSchema s s' → SameSchema (.default t s) (.default t s')
  | deprecated {s s'} (t) : SameSchema s s' → SameSchema (.deprecated t s) (.deprecated t s')

/-- The schema files differ at most in the order of their definitions and of the tables in them. -/
def SameFile (sf sf' : SchemaFile F) : Prop :=
  ∃ pairs : List (Option (List Char) × Schema F × Schema F),
    (∀ q ∈ pairs, SameSchema q.2.1 q.2.2) ∧ sf.Perm (pairs.map fun q => (q.1, q.2.1)) ∧
    sf'.Perm (pairs.map fun q => (q.1, q.2.2))

end Styx.Schema
