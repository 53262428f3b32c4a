import Verif.Cli.Publish
import Verif.Cli.Spec

/-! # Specification: compatible versions of a schema (C123) -/

namespace Styx.Spec

open Styx Styx.Cli

/-- Cargo takes the second version for a dependency on the first: it is newer, and the first number that is not zero
is the same. -/
def Compatible (a b c a' b' c' : Nat) : Prop :=
  OlderVersion a b c a' b' c' ∧
    ((a ≠ 0 ∧ a' = a) ∨ (a = 0 ∧ a' = 0 ∧ b ≠ 0 ∧ b' = b))

/-- The new schema has all types of the old one, with their tags, and these have all the fields and variants. -/
def Keeps (old new : Value) : Prop :=
  ∀ n ty, Defines old n ty → ∃ ty', Defines new n ty' ∧ ty'.tagName = ty.tagName ∧
    ((HasTag ty (chars! "object") ∨ HasTag ty (chars! "enum")) →
      ∀ f v, HasEntry ty f v → ∃ v', HasEntry ty' f v')

/-- All versions consist of three numbers of 64 bits, and no version of a crate is there twice. -/
def Numbered (R : Registry) : Prop :=
  (∀ r ∈ R, ∃ a b c, r.version = versionText a b c ∧ a < 2 ^ 64 ∧ b < 2 ^ 64 ∧ c < 2 ^ 64) ∧
  ∀ r ∈ R, ∀ r' ∈ R, r.name = r'.name → r.version = r'.version → r = r'

/-- In no schema a type or an entry of a type is defined twice. -/
def NoTwice (R : Registry) : Prop := ∀ r ∈ R, ∀ v, parseTree r.content = some (.ok v) →
  UniqueTypes v ∧ ∀ n ty, Defines v n ty → UniqueEntries ty

/-- Compatible versions of a crate keep what the older ones have. -/
def KeepsPromise (R : Registry) : Prop := ∀ r ∈ R, ∀ r' ∈ R, r.name = r'.name → ∀ a b c a' b' c',
  r.version = versionText a b c → r'.version = versionText a' b' c' → Compatible a b c a' b' c' →
  ∀ v v', parseTree r.content = some (.ok v) → parseTree r'.content = some (.ok v') → Keeps v v'

/-- The version is the newest of the crate. -/
def Newest (R : Registry) (name version : List Char) : Prop :=
  (∃ r ∈ R, r.name = name ∧ r.version = version) ∧ ∀ r ∈ R, r.name = name → ∀ a b c a' b' c',
    version = versionText a b c → r.version = versionText a' b' c' → ¬ OlderVersion a b c a' b' c'

/-- A registry that can be reached: it says that there is no version only if there is none. -/
def Truthful (R : Registry) (name : List Char) : Option (List Char) → Prop
  | none => ∀ r ∈ R, r.name ≠ name
  | some version => Newest R name version

/-- A registry to which requests can fail. -/
def Unreliable (R : Registry) (name : List Char) : Option (List Char) → Prop
  | none => True
  | some version => Newest R name version

/-- Any number of steps. -/
inductive Steps (answers : Registry → List Char → Option (List Char) → Prop) : Market → Market → Prop
  | refl {m} : Steps answers m m
  | tail {m m' m''} : Steps answers m m' → MarketStep answers m' m'' → Steps answers m m''

end Styx.Spec
