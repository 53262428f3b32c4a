import Verif.Lsp.CursorSpec

/-!
# Specification: the object and the tagged value around the cursor

A cursor stands between two bytes; it touches a place when it stands in it or at one of its ends.
-/

namespace Styx.Spec

open Styx

/-- The cursor is in the place or at one of its ends. -/
def Touches (off : Nat) (place : Option Span) : Prop := ∃ sp, place = some sp ∧ sp.start ≤ off ∧ off ≤ sp.stop

/-- The cursor is behind the first byte of the place, and in it or at its end: behind the opening brace of
an object, up to behind its closing brace. -/
def Behind (off : Nat) (place : Option Span) : Prop := ∃ sp, place = some sp ∧ sp.start < off ∧ off ≤ sp.stop

/-- What an entry adds to the path: the text of the key, and the tag of the value. -/
def stepNames (k v : Value) : List (List Char) :=
  (match k.asStr with | some name => [name] | none => []) ++
  (match v.tag with | some t => ['@' :: t.name] | none => [])

/-- The path leads from one object to another, through objects only. -/
inductive ThroughObjects (x : Value) : Value → List (List Char) → Prop
  | here : ThroughObjects x x []
  | entry {t es o sp k y d p} : Entry.mk k y d ∈ es → ThroughObjects x y p →
      ThroughObjects x (.mk t (some (.object es o)) sp) (stepNames k y ++ p)

end Styx.Spec
