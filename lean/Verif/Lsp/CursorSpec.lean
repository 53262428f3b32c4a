import Verif.Lsp.Cursor
import Verif.Tree.SpanSpec

/-!
# Specification: what stands at the cursor
-/

namespace Styx.Spec

open Styx Styx.Lsp

/-- The cursor is on one of the bytes of the place. -/
def On (off : Nat) (place : Option Span) : Prop := ∃ sp, place = some sp ∧ sp.start ≤ off ∧ off < sp.stop

/-- The path leads from one node to another: through the entries of objects, by the text of the key, and
through the items of sequences, by their number.  A key without text (`@`, or a key with a tag) adds
nothing to the path. -/
inductive LeadsTo (x : Value) : Value → List Seg → Prop
  | here : LeadsTo x x []
  | field {t es o sp k y d name p} : Entry.mk k y d ∈ es → k.asStr = some name → LeadsTo x y p →
      LeadsTo x (.mk t (some (.object es o)) sp) (.field name :: p)
  | unnamed {t es o sp k y d p} : Entry.mk k y d ∈ es → k.asStr = none → LeadsTo x y p →
      LeadsTo x (.mk t (some (.object es o)) sp) p
  | item {t items o sp i y p} : items[i]? = some y → LeadsTo x y p →
      LeadsTo x (.mk t (some (.sequence items o)) sp) (.index i :: p)

/-- The cursor is on no value, no item and no key with a text right inside the node. -/
def NothingInside (off : Nat) (x : Value) : Prop :=
  (∀ es o k y d, x.payload = some (.object es o) → Entry.mk k y d ∈ es →
    ¬ On off y.span ∧ (k.asStr ≠ none → ¬ On off k.span)) ∧
  (∀ items o y, x.payload = some (.sequence items o) → y ∈ items → ¬ On off y.span)

/-- What the cursor is on: the key of an entry, or a value or item and nothing further inside. -/
inductive AtCursor (off : Nat) (v : Value) : List Seg → Prop
  | key {w es o k y d name p} : LeadsTo w v p → w.payload = some (.object es o) → Entry.mk k y d ∈ es →
      k.asStr = some name → On off k.span → AtCursor off v (p ++ [.field name])
  | value {x p} : LeadsTo x v p → p ≠ [] → On off x.span → NothingInside off x → AtCursor off v p

end Styx.Spec
