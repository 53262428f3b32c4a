import Verif.Cst.Braced
import Verif.Props.Braced
import Verif.Props.Relayout

/-! # Property theorem C29: the source formatter and documents with braces around the root

`Verif.Text.BracedSpec` (how such documents are written) is the specification. -/

namespace Styx.Props

open Styx Styx.Spec Styx.Cst

/-- **C29** (partial, as `C29_entries_partial`), documents with braces around the root: the formatted text is again
such a document with the same root entries. -/
theorem C29_braced_entries_partial (ind : List Char) (hi : Blanks ind) {es : List RootEntry} {s : List Char}
    (h : BracedText es s) (hn : ∀ e ∈ es, NoLoneHeredoc e.value) : BracedText es (formatSource ind s) := by
  by_cases he : (Cst.parse s).isOk = true
  · obtain ⟨g, cs, es', h1, h2, h3, h4⟩ := parse_braced h he
    have hok : OkG (Cst.parse s).green := ⟨parse_shaped s (by simpa [Parse.isOk] using he), C26_kinds s⟩
    simp only [formatSource, he, if_true]
    rw [h1] at hok ⊢
    exact braced_fmt hi h2 h3 h4 hok hn
  · rw [formatSource]
    simpa [he] using h

/-- **C29** (partial, as above), braces around the root: source and formatted text parse to the same tree, spans
aside. -/
theorem C29_braced_tree_partial (ind : List Char) (hi : Blanks ind) {es : List RootEntry} {s : List Char}
    (h : BracedText es s) (hn : ∀ e ∈ es, NoLoneHeredoc e.value) (hd : DistinctSimple es) :
    ∃ t t', parseTree s = some (.ok t) ∧ parseTree (formatSource ind s) = some (.ok t') ∧ erase t = erase t' :=
  C47_braced_layout h (C29_braced_entries_partial ind hi h hn) hd

/-- **C29** (partial, as above), braces around the root: if the source is rejected for a key that occurs twice, so is
the formatted text. -/
theorem C29_braced_duplicate_partial (ind : List Char) (hi : Blanks ind) {es : List RootEntry} {s : List Char}
    (h : BracedText es s) (hn : ∀ e ∈ es, NoLoneHeredoc e.value) (hd : ¬ DistinctSimple es) :
    (∃ e, parseTree s = some (.error e)) ∧ ∃ e, parseTree (formatSource ind s) = some (.error e) := by
  obtain ⟨k, sp, h1, -⟩ := C47_braced_duplicate h hd
  obtain ⟨k', sp', h2, -⟩ := C47_braced_duplicate (C29_braced_entries_partial ind hi h hn) hd
  exact ⟨⟨_, h1⟩, ⟨_, h2⟩⟩

-- keep the elaborator from evaluating the parser
attribute [local irreducible] Cst.parse formatSource parseTree

/-- The sample document with braces is changed by the formatter; the trees are the same. -/
example : formatSource (chars! "  ") (chars! "// hi\n{/// doc\na.b x>1 y>(2) // c\n\ta.b.c\n} // end\n") =
      chars! "// hi\n{\n  /// doc\n  a.b x>1 y>(2)\n  // c\n  a.b.c\n}\n// end\n" ∧
    ∃ t t', parseTree (chars! "// hi\n{/// doc\na.b x>1 y>(2) // c\n\ta.b.c\n} // end\n") = some (.ok t) ∧
      parseTree (formatSource (chars! "  ") (chars! "// hi\n{/// doc\na.b x>1 y>(2) // c\n\ta.b.c\n} // end\n")) =
        some (.ok t') ∧ erase t = erase t' :=
  ⟨by decide +kernel, C29_braced_tree_partial _ (by simp [Blanks, Blank]) sample_braced sample_noLone
    (by unfold DistinctSimple; decide)⟩

end Styx.Props
