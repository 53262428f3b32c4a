import Verif.Tree.SpanSpec
import Verif.Parse.Parser

/-!
# Specification: the fields that a schema text writes

On the tree of the text, without types.
-/

namespace Styx.Lsp.Spec

open Styx

/-- The object `v` writes the field `name` with the type `w`: as an entry, or in the type of its unit key. -/
inductive Writes (name : List Char) (w : Value) : Value → Prop
  | field {t es psp sp k d} : Entry.mk k w d ∈ es → k.asStr = some name →
      Writes name w (.mk t (some (.object es psp)) sp)
  | inner {t es psp sp k u d} : Entry.mk k u d ∈ es → k.isUnit = true → Writes name w u →
      Writes name w (.mk t (some (.object es psp)) sp)

/-- The name is mentioned with the type `w` in `v`, also in the items of its sequences. -/
inductive Mentions (name : List Char) (w : Value) : Value → Prop
  | field {t es psp sp k d} : Entry.mk k w d ∈ es → k.asStr = some name →
      Mentions name w (.mk t (some (.object es psp)) sp)
  | inner {t es psp sp k u d} : Entry.mk k u d ∈ es → k.isUnit = true → Mentions name w u →
      Mentions name w (.mk t (some (.object es psp)) sp)
  | item {t items psp sp u} : u ∈ items → Mentions name w u → Mentions name w (.mk t (some (.sequence items psp)) sp)

/-- The type is not modified. -/
def Unmodified (w : Value) : Prop :=
  ∀ n, w.tagName = some n → n ≠ chars! "optional" ∧ n ≠ chars! "default" ∧ n ≠ chars! "deprecated"

/-- The type below the modifiers `@optional(type)`, `@default(value type)` and `@deprecated(reason type)`. -/
inductive Below : Value → Value → Prop
  | plain {w} : Unmodified w → Below w w
  | optional {t u w psp sp} : t.name = chars! "optional" → Below u w →
      Below (.mk (some t) (some (.sequence [u] psp)) sp) w
  | default {t d u w psp sp} : t.name = chars! "default" → Below u w →
      Below (.mk (some t) (some (.sequence [d, u] psp)) sp) w
  | deprecated {t r u w psp sp} : t.name = chars! "deprecated" → Below u w →
      Below (.mk (some t) (some (.sequence [r, u] psp)) sp) w

/-- The type below `@optional(type)`. -/
inductive BelowOptional : Value → Value → Prop
  | plain {w} : Unmodified w → BelowOptional w w
  | optional {t u w psp sp} : t.name = chars! "optional" → BelowOptional u w →
      BelowOptional (.mk (some t) (some (.sequence [u] psp)) sp) w

/-- From the type `v` the path leads to the type `w`, through fields that are mentioned once. -/
inductive Leads (B : Value → Value → Prop) : List (List Char) → Value → Value → Prop
  | here {v} : Leads B [] v v
  | step {name path v x u w} : Writes name x v → (∀ y, Mentions name y v → y = x) → B x u → Leads B path u w →
      Leads B (name :: path) v w

/-- `v` is the value of the entry `schema` of the document. -/
def SchemaEntry (tree v : Value) : Prop :=
  ∃ t a k d b psp sp, tree = .mk t (some (.object (a ++ Entry.mk k v d :: b) psp)) sp ∧
    k.asStr = some (chars! "schema") ∧ ∀ e ∈ a, e.key.asStr ≠ some (chars! "schema")

end Styx.Lsp.Spec
