import Verif.Tree.Value

/-!
# Specification: the places noted in a document tree

Every node of a document tree notes the bytes of the source it stands for.  This file says what nodes a
tree has, what places a node notes and what a place says about the source, without the parser.
-/

namespace Styx.Spec

/-- A place covers a text of the source. -/
def Covers (source : List Char) (sp : Span) (text : List Char) : Prop :=
  ∃ before after, source = before ++ text ++ after ∧ sp.start = utf8Len before ∧
    sp.stop = utf8Len before + utf8Len text

/-- `x` is an item, a key or a value right inside `p`. -/
inductive Child (x : Value) : Value → Prop
  | item {t items psp sp} : x ∈ items → Child x (.mk t (some (.sequence items psp)) sp)
  | key {t es psp sp v d} : Entry.mk x v d ∈ es → Child x (.mk t (some (.object es psp)) sp)
  | value {t es psp sp k d} : Entry.mk k x d ∈ es → Child x (.mk t (some (.object es psp)) sp)

/-- `x` is a node of the tree `v`: the tree itself, or somewhere inside. -/
inductive Node (x : Value) : Value → Prop
  | self : Node x x
  | inside {y v} : Child y v → Node x y → Node x v

/-- The place a payload notes. -/
def payloadPlace : Payload → Option Span
  | .scalar _ _ sp | .sequence _ sp | .object _ sp => sp

/-- The node notes this place: as its own, as its tag's or as its payload's. -/
def Notes (v : Value) (sp : Span) : Prop :=
  v.span = some sp ∨ (∃ t, v.tag = some t ∧ t.span = some sp) ∨ (∃ p, v.payload = some p ∧ payloadPlace p = some sp)

/-- Some node of the tree notes this place. -/
def NotesInside (v : Value) (sp : Span) : Prop := ∃ x, Node x v ∧ Notes x sp

/-- Some node of the entry's key or value notes this place. -/
def EntryNotes : Entry → Span → Prop
  | .mk k v _, sp => NotesInside k sp ∨ NotesInside v sp

/-- No object of these entries starts where its key starts: that is what the objects of a dotted key such
as `a.b.c` do. -/
def Undotted (es : List Entry) : Prop :=
  ∀ k v d ksp vsp, Entry.mk k v d ∈ es → k.span = some ksp → v.span = some vsp → v.payload ≠ none →
    vsp.start ≠ ksp.start

end Styx.Spec
