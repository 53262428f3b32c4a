import Verif.Props.Marks
import Verif.Props.Braced
import Verif.Cst.BracedSound

/-! # C85 for documents with braces around the root -/

namespace Styx.Props

open Styx Styx.Spec Styx.Lsp

/-- **C85** for documents with braces around the root (partial: without an object as an item of a sequence, or
without attributes): a document that can be read is not marked as broken. -/
theorem C85_braced_accepted_partial {es : List RootEntry} {s : List Char} (h : BracedText es s)
    (hp : '>' ∉ s ∨ ∀ e ∈ es, NoObjectItems e.value) (checked : Checked) (hint : Bool) (t : Value)
    (ht : parseTree s = some (.ok t)) : ∃ ms, marks s checked hint = some ms ∧ ¬ Broken ms :=
  clean_notBroken (Cst.Sound.braced_clean h hp) checked hint t ht

/-- **C85**, both directions, with braces around the root: the document is marked as broken exactly if two of its
keys that are not dotted are the same, and exactly if it cannot be read. -/
theorem C85_braced_exact_partial {es : List RootEntry} {s : List Char} (h : BracedText es s)
    (hp : '>' ∉ s ∨ ∀ e ∈ es, NoObjectItems e.value) (checked : Checked) (hint : Bool) :
    ∃ ms, marks s checked hint = some ms ∧ (Broken ms ↔ ¬ DistinctSimple es) ∧
      (Broken ms ↔ ¬ ∃ t, parseTree s = some (.ok t)) := by
  by_cases hc : DistinctSimple es
  · obtain ⟨t, ht, -⟩ := C47_braced h hc
    obtain ⟨ms, h1, h2⟩ := C85_braced_accepted_partial h hp checked hint t ht
    exact ⟨ms, h1, iff_of_false h2 (not_not_intro hc), iff_of_false h2 (not_not_intro ⟨t, ht⟩)⟩
  · obtain ⟨k, sp, hk, -⟩ := C47_braced_duplicate h hc
    obtain ⟨ms, h1, h2⟩ := C85_rejected s checked hint _ hk
    exact ⟨ms, h1, iff_of_true h2 hc, iff_of_true h2 (by rintro ⟨t, ht⟩; rw [hk] at ht; cases ht)⟩

/-- The hypotheses are met by a document that is not marked, and by one that is. -/
example : ∃ ms, marks (chars! "// hi\n{/// doc\na.b x>1 y>(2) // c\n\ta.b.c\n} // end\n") .unresolved false = some ms ∧
    ¬ Broken ms := by
  obtain ⟨ms, h1, h2, -⟩ := C85_braced_exact_partial sample_braced (.inr sample_noObjects) .unresolved false
  exact ⟨ms, h1, fun h => h2.1 h (by unfold DistinctSimple; decide)⟩

example : ∃ ms, marks (chars! "{a 1, \"a\"}") .unresolved false = some ms ∧ Broken ms := by
  obtain ⟨ms, h1, h2, -⟩ := C85_braced_exact_partial sample_bracedTwice (.inl (by decide)) .unresolved false
  exact ⟨ms, h1, h2.2 (by unfold DistinctSimple; decide)⟩

end Styx.Props
