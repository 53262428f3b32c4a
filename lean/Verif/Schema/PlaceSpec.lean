import Verif.Schema.ReportSpec

/-!
# Specification: the part of a document an error is about
-/

namespace Styx.Schema

/-- From the value `v`, which has the path `p`, the path `q` leads to `w`: by the names of entries, the numbers of
items and the names of tags.  The keys of an object have the path of the object. -/
inductive PathTo : List Char → Value → List Char → Value → Prop
  | here {p v} : PathTo p v p v
  | entry {p t es o sp e shown q w} : e ∈ es → KeyShown e shown → PathTo (pathAt p shown) e.value q w →
      PathTo p (.mk t (some (.object es o)) sp) q w
  | key {p t es o sp e q w} : e ∈ es → PathTo p e.key q w → PathTo p (.mk t (some (.object es o)) sp) q w
  | item {p t vs o sp i x q w} : vs[i]? = some x →
      PathTo (p ++ ['['] ++ Nat.toDigits 10 i ++ [']']) x q w → PathTo p (.mk t (some (.sequence vs o)) sp) q w
  | payload {p t pl sp q w} : PathTo (pathAt p t.name) (.mk none (some pl) sp) q w →
      PathTo p (.mk (some t) (some pl) sp) q w

/-- An error is about the value with the path `q` that stands at `place`: about the value itself, a field it lacks, or
a key of it that is not known or not allowed. -/
def About (q : List Char) (w : Value) (place : Option Span) (e : Err) : Prop :=
  (e.path = q ∧ e.span = place ∧ (∀ name, e.kind ≠ .missingField name) ∧ ∀ name a b, e.kind ≠ .unknownField name a b) ∨
  (∃ name es o, w.payload = some (.object es o) ∧ (∀ x ∈ es, ¬ KeyIs x name) ∧ e.path = pathAt q name ∧
    e.kind = .missingField name ∧ e.span = place) ∨
  (∃ x shown names suggestion es o, w.payload = some (.object es o) ∧ x ∈ es ∧ KeyShown x shown ∧
    e.path = pathAt q shown ∧ e.kind = .unknownField shown names suggestion ∧ e.span = x.key.span) ∨
  (∃ x es o, w.payload = some (.object es o) ∧ x ∈ es ∧ e.path = q ∧
    (e.kind = .invalidValue .badKey ∨ e.kind = .invalidValue .badMapKey) ∧ e.span = x.key.span)

/-- The value with the path `q` is what the tag of a value stands before. -/
def BehindTag (p : List Char) (v : Value) (q : List Char) (w : Value) : Prop :=
  ∃ t pl sp q', PathTo p v q' (.mk (some t) (some pl) sp) ∧ q = pathAt q' t.name ∧ w = .mk none (some pl) sp

end Styx.Schema
