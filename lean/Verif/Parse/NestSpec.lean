import Verif.Parse.Parser

/-!
# Specification: nesting and grammar of event streams

Independent of how the parser produces events: only event kinds occur here.
-/

namespace Styx.Spec

/-- What can be open. -/
inductive Opened where
  | object | sequence | tag | entry
  deriving DecidableEq, Repr

/-- `closing o stack`: pop `o` if it is the most recent open start. -/
def close (o : Opened) : List Opened → Option (List Opened)
  | [] => none
  | o' :: rest => if o = o' then some rest else none

/-- Effect of one event on the stack of open starts (most recent first); `none` is a mismatch. -/
def nestStep (stack : List Opened) : EventKind → Option (List Opened)
  | .objectStart => some (.object :: stack)
  | .objectEnd => close .object stack
  | .sequenceStart => some (.sequence :: stack)
  | .sequenceEnd => close .sequence stack
  | .tagStart _ => some (.tag :: stack)
  | .tagEnd => close .tag stack
  | .entryStart => some (.entry :: stack)
  | .entryEnd => close .entry stack
  | _ => some stack

/-- Effect of a list of events. -/
def nest (stack : List Opened) : List Event → Option (List Opened)
  | [] => some stack
  | e :: es => (nestStep stack e.kind).bind fun st => nest st es

mutual
/-- Event kinds of one value. -/
inductive IsValue : List EventKind → Prop
  | scalar (v : List Char) (k : ScalarKind) : IsValue [.scalar v k]
  | unit : IsValue [.unit]
  | bareTag (n : List Char) : IsValue [.tagStart n, .tagEnd]
  | tag (n : List Char) {v : List EventKind} : IsValue v → IsValue (.tagStart n :: v ++ [.tagEnd])
  | sequence {vs : List EventKind} : IsValues vs → IsValue (.sequenceStart :: vs ++ [.sequenceEnd])
  | object {es : List EventKind} : IsEntries es → IsValue (.objectStart :: es ++ [.objectEnd])

/-- Event kinds of any number of values. -/
inductive IsValues : List EventKind → Prop
  | nil : IsValues []
  | cons {v vs : List EventKind} : IsValue v → IsValues vs → IsValues (v ++ vs)

/-- Event kinds of any number of entries, with comments between them. -/
inductive IsEntries : List EventKind → Prop
  | nil : IsEntries []
  | comment (t : List Char) {es : List EventKind} : IsEntries es → IsEntries (.comment t :: es)
  | doc (ls : List (List Char)) {es : List EventKind} : IsEntries es → IsEntries (.docComment ls :: es)
  | entry (t p : Option (List Char)) (k : ScalarKind) {v es : List EventKind} : IsValue v →
      IsEntries es → IsEntries (.entryStart :: .key t p k :: v ++ .entryEnd :: es)
end

/-- Event kinds of any number of comments. -/
def IsComments (cs : List EventKind) : Prop := ∀ c ∈ cs, (∃ t, c = .comment t) ∨ ∃ ls, c = .docComment ls

/-- Event kinds of a document: comments and at most one root object. -/
inductive IsDocument : List EventKind → Prop
  | empty {cs : List EventKind} : IsComments cs → IsDocument (.documentStart :: cs ++ [.documentEnd])
  | root {cs es : List EventKind} : IsComments cs → IsEntries es →
      IsDocument (.documentStart :: cs ++ .objectStart :: es ++ [.objectEnd, .documentEnd])

/-- The kinds of a list of events. -/
def kinds (evs : List Event) : List EventKind := evs.map (·.kind)

/-- No error (and no panic) among the events. -/
def NoError (evs : List Event) : Prop := ∀ e ∈ evs, (∀ k, e.kind ≠ .error k) ∧ e.kind ≠ .panic

/-- `NoError` is decidable (used for concrete examples). -/
instance (evs : List Event) : Decidable (NoError evs) :=
  decidable_of_iff (evs.all fun e => match e.kind with | .error _ => false | .panic => false | _ => true) (by
    simp only [List.all_eq_true, NoError]
    constructor
    · intro h e he
      have := h e he
      revert this
      cases e.kind <;> simp
    · intro h e he
      have := h e he
      revert this
      cases e.kind <;> simp)

end Styx.Spec
