import Verif.Tree.SpanSpec
import Verif.Tree.Value

/-!
# Specification: where a schema declares the fields of a document

Said of the tree of a schema, without the code that looks fields up.
-/

namespace Styx.Spec

open Styx

/-- The first entry with this name. -/
def FirstNamed (es : List Entry) (name : List Char) (e : Entry) : Prop :=
  ∃ a b, es = a ++ e :: b ∧ e.key.asStr = some name ∧ ∀ x ∈ a, x.key.asStr ≠ some name

/-- The type is `@name{…}`. -/
def Braces (v : Value) (name : List Char) (es : List Entry) : Prop := v.tagName = some name ∧ v.asObject = some es

/-- The type is `@name(…)`. -/
def Parens (v : Value) (name : List Char) (items : List Value) : Prop :=
  v.tagName = some name ∧ v.asSequence = some items

/-- The type is `@name`, and the schema defines that name here. -/
def RefTo (defs : List Entry) (v : Value) (e : Entry) : Prop :=
  ∃ name, v.tagName = some name ∧ v.payload = none ∧ FirstNamed defs name e

/-- `@optional(T)`, `@default(x T)` and `@deprecated(x T)` around `T`. -/
inductive Wraps (v t : Value) : Prop
  | optional : Parens v (chars! "optional") [t] → Wraps v t
  | default {x} : Parens v (chars! "default") [x, t] → Wraps v t
  | deprecated {x} : Parens v (chars! "deprecated") [x, t] → Wraps v t

/-- The type stands for another: through the names the schema defines and through wrappers. -/
inductive Means (defs : List Entry) : Value → Value → Prop
  | self {v} : Means defs v v
  | ref {v e w} : RefTo defs v e → Means defs e.value w → Means defs v w
  | wrapped {v t w} : Wraps v t → Means defs t w → Means defs v w

/-- The key of an entry for any other name: `@string` and the like. -/
def AnyName (e : Entry) : Prop := e.key.tag ≠ none ∧ e.key.payload = none

/-- The type gives a key the type `t`: a field of an object, declared by an entry of the schema; the other keys of an
object; the keys of a map. -/
inductive Member (v : Value) (name : List Char) : Value → Option Entry → Prop
  | field {es e} : Braces v (chars! "object") es → FirstNamed es name e → Member v name e.value (some e)
  | other {es e} : Braces v (chars! "object") es → (∀ x ∈ es, x.key.asStr ≠ some name) → e ∈ es → AnyName e →
      Member v name e.value none
  | value {t} : Parens v (chars! "map") [t] → Member v name t none
  | value2 {k t} : Parens v (chars! "map") [k, t] → Member v name t none

/-- The schema gives the key at the end of the path the type `t`, in the entry `e` when it is a field.  The path has
the names of fields and the numbers of items, as texts (below 2^64, like
all positions in a list).  Variants of enumerations are left out. -/
inductive GivesType (defs : List Entry) : Value → List (List Char) → Value → Option Entry → Prop
  | last {v w name t e} : Means defs v w → Member w name t e → GivesType defs v [name] t e
  | inside {v w name u e' rest t e} : Means defs v w → Member w name u e' → GivesType defs u rest t e →
      GivesType defs v (name :: rest) t e
  | item {v w i u rest t e} : i < 2 ^ 64 → Means defs v w → Parens w (chars! "seq") [u] → GivesType defs u rest t e →
      GivesType defs v (Nat.toDigits 10 i :: rest) t e

/-- A key of the object, or of an object that is the value of a key, and so on. -/
inductive KeyWithin (k : Value) : Value → Prop
  | here {t es psp sp v d} : Entry.mk k v d ∈ es → KeyWithin k (.mk t (some (.object es psp)) sp)
  | deeper {t es psp sp k' v d} : Entry.mk k' v d ∈ es → KeyWithin k v → KeyWithin k (.mk t (some (.object es psp)) sp)

/-- The value of the entry `schema` of a schema file. -/
def BlockOf (tree block : Value) : Prop :=
  ∃ es e, tree.asObject = some es ∧ FirstNamed es (chars! "schema") e ∧ block = e.value

/-- The entries of the block `schema`, and the type under its first key `@`, for the whole document. -/
def RootOf (tree : Value) (defs : List Entry) (root : Value) : Prop :=
  ∃ block a b e, BlockOf tree block ∧ block.asObject = some defs ∧ defs = a ++ e :: b ∧ e.key.isUnit = true ∧
    (∀ x ∈ a, x.key.isUnit = false) ∧ root = e.value

/-- The type under the key `@` is not written as an object with a key tagged `@object`, and is not `@object` alone. -/
def PlainRoot (block : Value) : Prop := ∀ es e, block.asObject = some es → e ∈ es → e.key.isUnit = true →
  (∃ inner, e.value.asObject = some inner ∧ ∀ x ∈ inner, x.key.tagName ≠ some (chars! "object")) ∨
  (e.value.asObject = none ∧ e.value.tagName ≠ some (chars! "object"))

/-! ### The schemas that hover can follow -/

/-- The arguments before the wrapped type are texts. -/
def TextArguments (v : Value) : Prop :=
  ∀ items, v.asSequence = some items → ∀ x ∈ items.dropLast, x.tag = none ∧ x.asObject = none

/-- An object type, a name of an object type, or one of these in wrappers. -/
inductive OpensTo (defs : List Entry) : Value → List Entry → Prop
  | object {v es} : Braces v (chars! "object") es → OpensTo defs v es
  | named {v e es} : RefTo defs v e → Braces e.value (chars! "object") es → OpensTo defs v es
  | wrapped {v t es} : Wraps v t → TextArguments v → OpensTo defs t es → OpensTo defs v es

/-- A sequence type, or one in the wrappers `@optional` and `@default`. -/
inductive ListOf : Value → Value → Prop
  | seq {v t} : Parens v (chars! "seq") [t] → ListOf v t
  | wrapped {v u t} : Wraps v u → v.tagName ≠ some (chars! "deprecated") → TextArguments v → ListOf u t → ListOf v t

/-- An object type whose only entry is for any name. -/
def AnyNames (v t : Value) : Prop := ∃ e, Braces v (chars! "object") [e] ∧ AnyName e ∧ t = e.value

/-- A map type. -/
def MapOf (v t : Value) : Prop := Parens v (chars! "map") [t] ∨ ∃ k, Parens v (chars! "map") [k, t]

/-- What a type stands for, when it is a name, one step further. -/
def Deref (defs : List Entry) (v u : Value) : Prop :=
  (∃ e, RefTo defs v e ∧ u = e.value) ∨ ((∀ e, ¬ RefTo defs v e) ∧ u = v)

/-- The types met on the way of a path from the root of the schema. -/
inductive Met (defs : List Entry) (root : Value) : Value → Prop
  | root : Met defs root root
  | field {v es e} : Met defs root v → OpensTo defs v es → e ∈ es → Met defs root e.value
  | item {v t u} : Met defs root v → ListOf v t → Deref defs t u → Met defs root u
  | other {v t u} : Met defs root v → AnyNames v t → Deref defs t u → Met defs root u
  | value {v t u} : Met defs root v → MapOf v t → Deref defs t u → Met defs root u

/-- The type is an object with named fields (or a name of one, or one in wrappers), a sequence (or one in wrappers),
an object with any keys, a map, or has no keys at all. -/
inductive Followable (defs : List Entry) (v : Value) : Prop
  | fields {es} : OpensTo defs v es → (∀ e ∈ es, ∃ s, e.key.asStr = some s) → Followable defs v
  | list {t} : ListOf v t → Followable defs v
  | other {t} : AnyNames v t → Followable defs v
  | map {t} : MapOf v t → Followable defs v
  | closed : (∀ path t e, ¬ GivesType defs v path t e) → Followable defs v

/-! ### The text of a type -/

mutual
/-- The text that stands for a type on one line: names and words as they are written, arguments in parentheses with a
space between them; of objects only the number of fields, or nothing if they have a tag. -/
inductive ShownAs : Value → List Char → Prop
  | unit {sp} : ShownAs (.mk none none sp) (chars! "@")
  | empty {k p sp} : ShownAs (.mk none (some (.scalar [] k p)) sp) (chars! "@")
  | word {text k p sp} : text ≠ [] → ShownAs (.mk none (some (.scalar text k p)) sp) text
  | block {es p sp} : ShownAs (.mk none (some (.object es p)) sp)
      (chars! "{...} (" ++ Nat.toDigits 10 es.length ++ chars! " fields)")
  | list {items p sp s} : ShownItems items s → ShownAs (.mk none (some (.sequence items p)) sp) ('(' :: s ++ [')'])
  | name {n nsp sp} : ShownAs (.mk (some ⟨n, nsp⟩) none sp) ('@' :: n)
  | text {n nsp text k p sp} : ShownAs (.mk (some ⟨n, nsp⟩) (some (.scalar text k p)) sp)
      ('@' :: n ++ ['('] ++ text ++ [')'])
  | braces {n nsp es p sp} : ShownAs (.mk (some ⟨n, nsp⟩) (some (.object es p)) sp) ('@' :: n ++ chars! "{...}")
  | args {n nsp items p sp s} : ShownItems items s → ShownAs (.mk (some ⟨n, nsp⟩) (some (.sequence items p)) sp)
      ('@' :: n ++ ['('] ++ s ++ [')'])
/-- Texts with a space between them. -/
inductive ShownItems : List Value → List Char → Prop
  | none : ShownItems [] []
  | one {v s} : ShownAs v s → ShownItems [v] s
  | more {v w vs s t} : ShownAs v s → ShownItems (w :: vs) t → ShownItems (v :: w :: vs) (s ++ [' '] ++ t)
end

/-! ### References that come back -/

/-- The type leads to a name without a field in between: it is the name, or it has such a type in parentheses, in an
enumeration or under the key `@`. -/
inductive LeadsToName (n : List Char) : Value → Prop
  | ref {v} : v.tagName = some n → (v.payload = none ∨ ∃ k sp, v.payload = some (.scalar [] k sp)) → LeadsToName n v
  | item {v items x} : v.asSequence = some items → x ∈ items → LeadsToName n x → LeadsToName n v
  | variant {v es e} : Braces v (chars! "enum") es → e ∈ es → LeadsToName n e.value → LeadsToName n v
  | unit {v es e} : v.asObject = some es → e ∈ es → e.key.isUnit = true → LeadsToName n e.value → LeadsToName n v

/-- No name leads back to itself without a field in between: the names can be ranked. -/
def NoLoops (defs : List Entry) : Prop :=
  ∃ rank : List Char → Nat, ∀ m e, FirstNamed defs m e → ∀ n, LeadsToName n e.value → rank n < rank m

end Styx.Spec
