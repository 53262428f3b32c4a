import Verif.Schema.Model

/-!
# Specification: schemas whose named types are guarded
-/

namespace Styx.Schema

variable {F : Type}

/-- The schema refers to the type `n` without passing through a container (object, sequence, tuple,
map) or a tag (enum variant). -/
inductive DirectRef : Schema F → List Char → Prop where
  | type (n) : DirectRef (.type (some n)) n
  | union {ss s n} : s ∈ ss → DirectRef s n → DirectRef (.union ss) n
  | optional {s n} : DirectRef s n → DirectRef (.optional s) n
  | oneOf {s n} (allowed) : DirectRef s n → DirectRef (.oneOf s allowed) n
  | flatten {s n} : DirectRef s n → DirectRef (.flatten s) n
  | default {s n} (t) : DirectRef s n → DirectRef (.default t s) n
  | deprecated {s n} (t) : DirectRef s n → DirectRef (.deprecated t s) n

/-- The definition of type `a` refers, possibly through other definitions, to type `b` without
passing through a container. -/
inductive Reaches (sf : SchemaFile F) : List Char → List Char → Prop where
  | one {a b s} : (some a, s) ∈ sf → DirectRef s b → Reaches sf a b
  | more {a b c s} : (some a, s) ∈ sf → DirectRef s b → Reaches sf b c → Reaches sf a c

/-- No named type refers to itself without passing through a container. -/
def Guarded (sf : SchemaFile F) : Prop := ∀ a, ¬ Reaches sf a a

end Styx.Schema
