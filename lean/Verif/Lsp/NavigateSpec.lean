import Verif.Schema.Spec

/-!
# Specification: paths of names, and parts of schemas
-/

namespace Styx.Spec

open Styx Styx.Schema

/-- The names lead from a value to another: each is the key of an entry of the object reached so far, and the
values of these entries have no tags. -/
inductive ByNames (x : Value) : Value → List (List Char) → Prop
  | here : ByNames x x []
  | entry {v es e name path} : HasEntries v es → e ∈ es → KeyIs e name → e.value.tag = none →
      ByNames x e.value path → ByNames x v (name :: path)

/-- The schema is a part of another, names of types not followed. -/
inductive PartOf {F : Type} (s : Schema F) : Schema F → Prop
  | self : PartOf s s
  | field {fields k t} : (k, t) ∈ fields → PartOf s t → PartOf s (.object fields)
  | variant {variants n t} : (n, t) ∈ variants → PartOf s t → PartOf s (.enum variants)
  | mapped {types t} : t ∈ types → PartOf s t → PartOf s (.map types)
  | optional {t} : PartOf s t → PartOf s (.optional t)
  | default (text) {t} : PartOf s t → PartOf s (.default text t)
  | deprecated (text) {t} : PartOf s t → PartOf s (.deprecated text t)

/-- The keys of the object schemas are names or stand for other keys, not both. -/
def KeysApart {F : Type} (s : Schema F) : Prop :=
  ∀ fields, PartOf (.object fields) s → ∀ f ∈ fields, f.1.value = none ∨ f.1.tag = none

end Styx.Spec
