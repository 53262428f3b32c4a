import Verif.Cli.Model
import Verif.Tree.PathSpec

/-!
# Specification: versions, schema documents and the schema declaration (C43, C44, C46)
-/

namespace Styx.Spec

open Styx Styx.Cli

/-- The text of a version: three decimal numbers without leading zeros, between dots. -/
def versionText (a b c : Nat) : List Char := decimal a ++ '.' :: decimal b ++ '.' :: decimal c

/-- The order of versions. -/
def OlderVersion (a b c a' b' c' : Nat) : Prop := a < a' ∨ (a = a' ∧ (b < b' ∨ (b = b' ∧ c < c')))

/-- The key of a type in a schema document: `none` is `@`, the root. -/
def IsTypeKey (k : Value) (name : Option (List Char)) : Prop :=
  match name with
  | some n => k.asStr = some n
  | none => k.asStr = none

/-- The schema document defines the type `name` as `ty`: it has an entry `schema` whose value is an object
with the entry.  A key that is neither a plain scalar nor `@` counts as `@`. -/
def Defines (doc : Value) (name : Option (List Char)) (ty : Value) : Prop :=
  ∃ t es sp s, doc = .mk t (some (.object es sp)) s ∧
    ∃ e ∈ es, e.key.asStr = some (chars! "schema") ∧
      ∃ t' ses sp' s', e.value = .mk t' (some (.object ses sp')) s' ∧
        ∃ e' ∈ ses, IsTypeKey e'.key name ∧ e'.value = ty

/-- The type has an entry with this name, a field of an object type or a variant of an enum type. -/
def HasEntry (ty : Value) (name : List Char) (v : Value) : Prop :=
  ∃ t es sp s, ty = .mk t (some (.object es sp)) s ∧ ∃ e ∈ es, e.key.asStr = some name ∧ e.value = v

/-- The tag of a value is `n`. -/
def HasTag (v : Value) (n : List Char) : Prop := ∃ sp p s, v = .mk (some ⟨n, sp⟩) p s

/-- No type is defined twice: documents with duplicate keys are rejected by the parser. -/
def UniqueTypes (doc : Value) : Prop := ∀ n ty ty', Defines doc n ty → Defines doc n ty' → ty = ty'

/-- No field is declared twice. -/
def UniqueEntries (ty : Value) : Prop := ∀ f v v', HasEntry ty f v → HasEntry ty f v' → v = v'

/-- The changes that break documents and that the comparison knows of: a type is gone or has another tag; a
field or variant is gone; a new field must be given. -/
inductive Breaking (old new : Value) : Change → Prop
  | removedType {n ty} : Defines old n ty → (∀ ty', ¬ Defines new n ty') → Breaking old new (.removedType n)
  | changedTag {n ty ty'} : Defines old n ty → Defines new n ty' → ty.tagName ≠ ty'.tagName →
      Breaking old new (.changedTag n ty.tagName ty'.tagName)
  | removedField {n ty ty' f v} : Defines old n ty → Defines new n ty' →
      HasTag ty (chars! "object") → HasTag ty' (chars! "object") →
      HasEntry ty f v → (∀ v', ¬ HasEntry ty' f v') → Breaking old new (.removedField n f)
  | addedRequired {n ty ty' f v} : Defines old n ty → Defines new n ty' →
      HasTag ty (chars! "object") → HasTag ty' (chars! "object") →
      HasEntry ty' f v → (∀ v', ¬ HasEntry ty f v') →
      ¬ HasTag v (chars! "optional") → ¬ HasTag v (chars! "default") → Breaking old new (.addedRequired n f)
  | removedVariant {n ty ty' f v} : Defines old n ty → Defines new n ty' →
      HasTag ty (chars! "enum") → HasTag ty' (chars! "enum") →
      HasEntry ty f v → (∀ v', ¬ HasEntry ty' f v') → Breaking old new (.removedVariant n f)

/-- The entries of the second list are those of the first that have not the tag `schema` as key, in
order. -/
inductive Undeclared : List Entry → List Entry → Prop
  | nil : Undeclared [] []
  | drop {e es es'} : HasTag e.key (chars! "schema") → Undeclared es es' → Undeclared (e :: es) es'
  | keep {e es es'} : ¬ HasTag e.key (chars! "schema") → Undeclared es es' →
      Undeclared (e :: es) (e :: es')

end Styx.Spec
