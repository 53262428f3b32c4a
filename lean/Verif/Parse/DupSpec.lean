import Verif.Parse.EscapeSpec
import Verif.Parse.NestSpec
import Verif.Tokenizer.Spec

/-!
# Specification: keys and duplicate-key errors of one object

Independent of how the parser tracks keys: only events occur here.
-/

namespace Styx.Spec

/-- Nesting depth after an event. -/
def depthStep (d : Nat) : EventKind → Nat
  | .objectStart | .sequenceStart | .tagStart _ | .entryStart => d + 1
  | .objectEnd | .sequenceEnd | .tagEnd | .entryEnd => d - 1
  | _ => d

/-- The events that occur at depth `n`, reading from depth `d`. -/
def atDepth (n : Nat) : Nat → List Event → List Event
  | _, [] => []
  | d, e :: es => (if d = n then [e] else []) ++ atDepth n (depthStep d e.kind) es

/-- Is the event a key? -/
def isKey : Event → Bool
  | ⟨_, .key ..⟩ => true
  | _ => false

/-- Is the event a duplicate-key error? -/
def isDup : Event → Bool
  | ⟨_, .error (.duplicateKey _)⟩ => true
  | _ => false

/-- The keys of an object's own entries (not of objects nested in it); `body` is what stands between
the start and the end of the object. -/
def ownKeys (body : List Event) : List Event := (atDepth 1 0 body).filter isKey

/-- The duplicate-key errors for the object itself (not for objects nested in it). -/
def ownDups (body : List Event) : List Event := (atDepth 0 0 body).filter isDup

/-- Two key events with the same tag and the same text.  For tags without text the lengths are
compared, too: `@a` and `@a@` have the same tag and no text. -/
def SameKey (a b : Event) : Prop :=
  ∃ t p k k', a.kind = .key t p k ∧ b.kind = .key t p k' ∧
    (t ≠ none → p = none → a.span.stop - a.span.start = b.span.stop - b.span.start)

/-- Without duplicate-key errors for the object its keys all differ; every such error stands for two
equal keys of the object, at the spans it names. -/
def KeysOK (body : List Event) : Prop :=
  (ownDups body = [] → (ownKeys body).Pairwise fun a b => ¬ SameKey a b) ∧
  ∀ e ∈ ownDups body, ∃ k1 k2, [k1, k2].Sublist (ownKeys body) ∧ SameKey k1 k2 ∧
    e = ⟨k2.span, .error (.duplicateKey k1.span)⟩

/-- The keys of the root object of a whole document. -/
def rootKeys (evs : List Event) : List Event := (atDepth 2 0 evs).filter isKey

/-- The root object is not written with braces: the object starts at the top and directly inside the
root object (outside all entries) take up no source text. -/
def ImplicitRoot (evs : List Event) : Prop :=
  ∀ e, e ∈ atDepth 0 0 evs ∨ e ∈ atDepth 1 0 evs → e.kind = .objectStart → e.span = ⟨0, 0⟩

/-- Every two neighbours in the list are related. -/
def Adjacent {α : Type} (R : α → α → Prop) (l : List α) : Prop := ∀ x y, [x, y] <:+: l → R x y

/-- The object start at span `sp` is a `{` in the source (and not the start of the implicit root
object, an attribute list or a dotted path). -/
def Braced (source : List Char) (sp : Span) : Prop :=
  sp.start < sp.stop ∧ slice source sp.start (sp.start + 1) = some ['{']

/-- Every `\u` in the text begins a proper escape: four hexadecimal digits, or one or more between braces, that are the
number of a character. -/
def ProperUni (s : List Char) : Prop := ∀ a b, s = a ++ '\\' :: 'u' :: b →
  (∃ h t, ∃ c : Char, b = h ++ t ∧ h.length = 4 ∧ HexNumber h c.toNat) ∨
  (∃ h t, ∃ c : Char, b = '{' :: h ++ '}' :: t ∧ h ≠ [] ∧ HexNumber h c.toNat)

/-- The only errors are duplicate-key errors. -/
def OnlyDup (evs : List Event) : Prop :=
  ∀ e ∈ evs, e.kind ≠ .panic ∧ ∀ k, e.kind = .error k → ∃ o, k = .duplicateKey o

/-- `OnlyDup` is decidable (used for concrete examples). -/
instance (evs : List Event) : Decidable (OnlyDup evs) :=
  decidable_of_iff (evs.all fun e => match e.kind with
      | .error (.duplicateKey _) => true | .error _ => false | .panic => false | _ => true) (by
    simp only [List.all_eq_true, OnlyDup]
    constructor
    · intro h e he
      have := h e he
      revert this
      cases hk : e.kind <;> simp
      rename_i k
      cases k <;> simp
    · intro h e he
      have := h e he
      revert this
      cases hk : e.kind <;> simp
      rename_i k
      cases k <;> simp)

end Styx.Spec
