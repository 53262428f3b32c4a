import Verif.Cst.RelayoutValue
import Verif.Props.CstFormat
import Verif.Props.Text

/-! # Property theorem C29: the source formatter keeps the meaning of documents

`Verif.Text.Grammar` (how documents are written) and `Verif.Cst.FormatSpec` are the specifications. -/

namespace Styx.Props

open Styx Styx.Spec Styx.Cst

/-! ## C29 -/

/-- **C29** (partial: for documents in the form of `RootText` – no chains of tags; braces around the root are in
`Verif.Props.BracedFormat` – and
without sequences that consist of one heredoc, for which `C29_false` shows it false).  The formatted text of a
document is again a text of the same root entries: the same keys, values and doc comments in the same order. -/
theorem C29_entries_partial (ind : List Char) (hi : Blanks ind) {es : List RootEntry} {s : List Char}
    (h : RootText es s) (hn : ∀ e ∈ es, NoLoneHeredoc e.value) : RootText es (formatSource ind s) := by
  by_cases he : (Cst.parse s).isOk = true
  · obtain ⟨g, ks, h1, h2, h3⟩ := parse_root h he
    have hok : OkG (Cst.parse s).green := ⟨parse_shaped s (by simpa [Parse.isOk] using he), C26_kinds s⟩
    simp only [formatSource, he, if_true]
    rw [h1] at hok ⊢
    exact document_fmt hi h3 h2 hok hn
  · rw [formatSource]
    simpa [he] using h

/-- **C29** (partial, as above).  The source and the formatted text parse to the same tree, spans aside. -/
theorem C29_tree_partial (ind : List Char) (hi : Blanks ind) {es : List RootEntry} {s : List Char}
    (h : RootText es s) (hn : ∀ e ∈ es, NoLoneHeredoc e.value) (hc : Consistent (callsOf es)) :
    ∃ t t', parseTree s = some (.ok t) ∧ parseTree (formatSource ind s) = some (.ok t') ∧ erase t = erase t' :=
  C47_layout h (C29_entries_partial ind hi h hn) hc

/-- **C29** (partial, as above), the other case: if the source is rejected for its keys, so is the formatted text. -/
theorem C29_conflict_partial (ind : List Char) (hi : Blanks ind) {es : List RootEntry} {s : List Char}
    (h : RootText es s) (hn : ∀ e ∈ es, NoLoneHeredoc e.value) (hc : ¬ Consistent (callsOf es)) :
    (∃ e, parseTree s = some (.error e)) ∧ ∃ e, parseTree (formatSource ind s) = some (.error e) := by
  obtain ⟨k, sp, h1, -⟩ := C47_conflict h hc
  obtain ⟨k', sp', h2, -⟩ := C47_conflict (C29_entries_partial ind hi h hn) hc
  exact ⟨⟨_, h1⟩, ⟨_, h2⟩⟩

/-- The same again: formatting twice still gives the same tree. -/
theorem C29_twice_partial (ind ind' : List Char) (hi : Blanks ind) (hi' : Blanks ind') {es : List RootEntry}
    {s : List Char} (h : RootText es s) (hn : ∀ e ∈ es, NoLoneHeredoc e.value) (hc : Consistent (callsOf es)) :
    ∃ t t', parseTree s = some (.ok t) ∧ parseTree (formatSource ind' (formatSource ind s)) = some (.ok t') ∧
      erase t = erase t' :=
  C47_layout h (C29_entries_partial ind' hi' (C29_entries_partial ind hi h hn) hn) hc

theorem sample_noLone : ∀ e ∈ sampleEntries, NoLoneHeredoc e.value := by
  intro e he
  simp only [sampleEntries, List.mem_cons, List.not_mem_nil, or_false] at he
  rcases he with rfl | rfl <;> simp [NoLoneHeredoc, NoLoneEntries, NoLoneItems, LoneHeredoc, scalarValue]

-- keep the elaborator from evaluating the parser
attribute [local irreducible] Cst.parse formatSource parseTree

/-- The sample document – a comment, a doc comment, dotted keys, attributes, a trailing comment, a lone key – is
changed by the formatter: the trailing comment goes to a line of its own, and the tab becomes an empty line.  The
trees are the same. -/
example : formatSource (chars! "  ") (chars! "// hi\n/// doc\na.b x>1 y>(2) // c\n\ta.b.c\n") =
      chars! "// hi\n/// doc\na.b x>1 y>(2)\n// c\n\na.b.c\n" ∧
    ∃ t t', parseTree (chars! "// hi\n/// doc\na.b x>1 y>(2) // c\n\ta.b.c\n") = some (.ok t) ∧
      parseTree (formatSource (chars! "  ") (chars! "// hi\n/// doc\na.b x>1 y>(2) // c\n\ta.b.c\n")) = some (.ok t') ∧
      erase t = erase t' := by
  refine ⟨by decide +kernel, C29_tree_partial _ (by simp [Blanks, Blank]) sample_text sample_noLone ?_⟩
  exact (C16_accepted_iff_partial [⟨[chars! "a", chars! "b"], .object, ⟨0, 0⟩⟩,
    ⟨[chars! "a", chars! "b", chars! "c"], .terminal, ⟨0, 0⟩⟩] (by decide)).1 ⟨_, rfl⟩

end Styx.Props
