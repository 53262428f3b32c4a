import Verif.Format.ValueFormat
import Verif.Text.Grammar

/-!
# Specification: which trees the formatter writes faithfully

`Printable o line v`: the value `v` is in the fragment for which formatting with the options `o` is faithful;
`line` says whether a line break follows the value.  What is left out is what the formatter does not write
faithfully, see the `C24_false` theorems.
-/

namespace Styx.Spec

mutual
/-- A value without spans and without the forms of its scalars. -/
def forget : Value → Value
  | .mk t none _ => .mk (t.map fun t => ⟨t.name, none⟩) none none
  | .mk t (some (.scalar s _ _)) _ => .mk (t.map fun t => ⟨t.name, none⟩) (some (.scalar s .bare none)) none
  | .mk t (some (.sequence items _)) _ =>
    .mk (t.map fun t => ⟨t.name, none⟩) (some (.sequence (forgetAll items) none)) none
  | .mk t (some (.object es _)) _ =>
    .mk (t.map fun t => ⟨t.name, none⟩) (some (.object (forgetEntries es) none)) none
/-- … of all items. -/
def forgetAll : List Value → List Value
  | [] => []
  | v :: vs => forget v :: forgetAll vs
/-- … of all entries. -/
def forgetEntries : List Entry → List Entry
  | [] => []
  | .mk k v d :: es => .mk (forget k) (forget v) d :: forgetEntries es
end

/-- A string that is written faithfully: if no character forces quotes there is no `>`; and it has fewer
line breaks than make it a heredoc, or a line break follows, it ends with a line break and one of the
delimiters does not occur in it. -/
def PlainString (o : FormatOptions) (line : Bool) (s : List Char) : Prop :=
  (canBeBare s = true → '>' ∉ s) ∧
  (countNewlines s < o.heredocThreshold ∨
    (line = true ∧ s.getLast? = some '\n' ∧ ∃ d ∈ heredocDelimiters, ¬ d <:+: s))

/-- A doc comment that is written faithfully. -/
def PlainDoc (d : List Char) : Prop := d ≠ [] ∧ '\r' ∉ d ∧ d.getLast? ≠ some '\n'

/-- A key that is written faithfully: unit, a scalar, a tag, or a tag with a scalar that needs quotes. -/
def PrintableKey : Value → Prop
  | .mk none none _ => True
  | .mk none (some (.scalar s _ _)) _ => canBeBare s = true → '>' ∉ s
  | .mk (some t) none _ => TagName t.name
  | .mk (some t) (some (.scalar s _ _)) _ => TagName t.name ∧ canBeBare s = false ∧
      t.name.tail.getLast? ≠ some 'r' ∧ '\\' ∉ s
  | _ => False

mutual
/-- A value that is written faithfully. -/
def Printable (o : FormatOptions) (line : Bool) : Value → Prop
  | .mk none none _ => True
  | .mk (some t) none _ => TagName t.name
  | .mk none (some (.scalar s _ _)) _ => PlainString o line s
  | .mk (some _) (some (.scalar _ _ _)) _ => False
  | .mk t (some (.sequence items _)) _ => (∀ t', t = some t' → TagName t'.name) ∧ PrintableItems o items
  | .mk t (some (.object es _)) _ => (∀ t', t = some t' → TagName t'.name) ∧ DistinctKeys es ∧
      PrintableEntries o false (objectMultiline es && o.forceStyle != .inline) es
/-- Items of a sequence: no unit, and no tag without payload except at the end. -/
def PrintableItems (o : FormatOptions) : List Value → Prop
  | [] => True
  | v :: vs => Printable o false v ∧ (v.tag = none → v.payload ≠ none) ∧ (vs ≠ [] → v.payload ≠ none) ∧
      PrintableItems o vs
/-- Entries, of the root or of an object; with the inline style only the root may have doc comments. -/
def PrintableEntries (o : FormatOptions) (root line : Bool) : List Entry → Prop
  | [] => True
  | .mk k v d :: es => PrintableKey k ∧ Printable o line v ∧
      (∀ d', d = some d' → PlainDoc d' ∧ (root = false → o.forceStyle ≠ .inline)) ∧
      PrintableEntries o root line es
end

/-- A document that is written faithfully: an object whose keys are distinct, and not dotted when bare. -/
def PrintableRoot (o : FormatOptions) (es : List Entry) : Prop :=
  (∀ c ∈ o.indent, Blank c) ∧ PrintableEntries o true true es ∧
  (es.map fun e => keyName (entryKey e)).Pairwise (· ≠ ·) ∧
  ∀ s k sp sp' v d, Entry.mk (.mk none (some (.scalar s k sp)) sp') v d ∈ es → canBeBare s = true → '.' ∉ s

end Styx.Spec

namespace Styx.Spec

mutual
/-- Are two values equal? -/
def sameValue : Value → Value → Bool
  | .mk t p s, .mk t' p' s' => decide (t = t') && samePayload p p' && decide (s = s')
/-- … payloads … -/
def samePayload : Option Payload → Option Payload → Bool
  | none, none => true
  | some (.scalar s k sp), some (.scalar s' k' sp') => decide (s = s') && decide (k = k') && decide (sp = sp')
  | some (.sequence vs sp), some (.sequence vs' sp') => sameItems vs vs' && decide (sp = sp')
  | some (.object es sp), some (.object es' sp') => sameEntries es es' && decide (sp = sp')
  | _, _ => false
/-- … items … -/
def sameItems : List Value → List Value → Bool
  | [], [] => true
  | v :: vs, v' :: vs' => sameValue v v' && sameItems vs vs'
  | _, _ => false
/-- … and entries. -/
def sameEntries : List Entry → List Entry → Bool
  | [], [] => true
  | .mk k v d :: es, .mk k' v' d' :: es' =>
    sameValue k k' && sameValue v v' && decide (d = d') && sameEntries es es'
  | _, _ => false
end

mutual
theorem sameValue_refl : ∀ v : Value, sameValue v v = true
  | .mk t p s => by rw [sameValue, samePayload_refl p]; simp
theorem samePayload_refl : ∀ p : Option Payload, samePayload p p = true
  | none => by rw [samePayload]
  | some (.scalar s k sp) => by simp [samePayload]
  | some (.sequence vs sp) => by rw [samePayload, sameItems_refl vs]; simp
  | some (.object es sp) => by rw [samePayload, sameEntries_refl es]; simp
theorem sameItems_refl : ∀ vs : List Value, sameItems vs vs = true
  | [] => by rw [sameItems]
  | v :: vs => by rw [sameItems, sameValue_refl v, sameItems_refl vs]; rfl
theorem sameEntries_refl : ∀ es : List Entry, sameEntries es es = true
  | [] => by rw [sameEntries]
  | .mk k v d :: es => by
    rw [sameEntries, sameValue_refl k, sameValue_refl v, sameEntries_refl es]; simp
end

theorem ne_of_sameValue {v v' : Value} (h : sameValue v v' = false) : v ≠ v' := by
  rintro rfl
  rw [sameValue_refl] at h
  cases h

end Styx.Spec
