import Verif.Cst.AgainBraced
import Verif.Props.Again
import Verif.Props.BracedFormat

/-! # Property theorem C70: formatting a formatted document with braces around the root changes nothing

`Verif.Text.BracedSpec` (how such documents are written), `Verif.Cst.FormatSpec` and `Verif.Cst.AgainSpec` are the
specifications. -/

namespace Styx.Props

open Styx Styx.Spec Styx.Cst

/-- **C70** (partial, as `C70_again_partial`), documents with braces around the root: formatting the formatted text
gives the same text. -/
theorem C70_braced_partial (ind : List Char) (hi : Blanks ind) {es : List RootEntry} {s : List Char}
    (h : BracedText es s) (hn : ∀ e ∈ es, NoLoneHeredoc e.value) (ht : Tidy (Cst.parse s).green) :
    formatSource ind (formatSource ind s) = formatSource ind s := by
  by_cases he : (Cst.parse s).isOk = true
  · obtain ⟨g, cs, es', h1, h2, h3, h4⟩ := parse_braced h he
    have herr : (Cst.parse s).errors = [] := by simpa [Parse.isOk] using he
    have hf : Cst.Fine (Cst.parse s).green := ⟨⟨parse_shaped s herr, C26_kinds s⟩, parse_neat s herr, ht⟩
    have e1 : formatSource ind s = formatCst ind (.node .DOCUMENT g) := by
      simp only [formatSource, he, if_true, h1]
    rw [e1]
    rw [h1] at hf
    by_cases ho : (Cst.parse (formatCst ind (.node .DOCUMENT g))).isOk = true
    · simp only [formatSource, ho, if_true]
      exact braced_again hi h2 h3 h4 hf hn ho
    · simp [formatSource, ho]
  · have e1 : formatSource ind s = s := by simp [formatSource, he]
    rw [e1, e1]

/-- Formatting any number of times is formatting once (partial, as above). -/
theorem C70_braced_iterate_partial (ind : List Char) (hi : Blanks ind) {es : List RootEntry} {s : List Char}
    (h : BracedText es s) (hn : ∀ e ∈ es, NoLoneHeredoc e.value) (ht : Tidy (Cst.parse s).green) (n : Nat) :
    Nat.repeat (formatSource ind) (n + 1) s = formatSource ind s := by
  induction n with
  | zero => rfl
  | succ n ih =>
    rw [Nat.repeat, ih]
    exact C70_braced_partial ind hi h hn ht

/-- **C70 is false** with stray commas between braces around the root, too. -/
theorem C70_false_braced :
    formatSource fourBlanks (chars! "{a 1,,}") = chars! "{a 1, }\n" ∧
    formatSource fourBlanks (chars! "{a 1, }\n") = chars! "{a 1}\n" := by
  refine ⟨?_, ?_⟩ <;> decide +kernel

/-! ## The theorem applies -/

-- keep the elaborator from evaluating the parser
attribute [local irreducible] Cst.parse formatSource parseTree

theorem sample_braced_tidy :
    Tidy (Cst.parse (chars! "// hi\n{/// doc\na.b x>1 y>(2) // c\n\ta.b.c\n} // end\n")).green :=
  tidy_of_test _ (by decide +kernel)

/-- The sample document with braces. -/
example : formatSource fourBlanks (formatSource fourBlanks
      (chars! "// hi\n{/// doc\na.b x>1 y>(2) // c\n\ta.b.c\n} // end\n")) =
    formatSource fourBlanks (chars! "// hi\n{/// doc\na.b x>1 y>(2) // c\n\ta.b.c\n} // end\n") :=
  C70_braced_partial _ (by simp [Blanks, Blank, fourBlanks]) sample_braced sample_noLone sample_braced_tidy

end Styx.Props
