import Verif.Cst.Again
import Verif.Props.Relayout

/-! # Property theorem C70: formatting a formatted document changes nothing

`Verif.Text.Grammar`, `Verif.Cst.FormatSpec` and `Verif.Cst.AgainSpec` are the specifications. -/

namespace Styx.Props

open Styx Styx.Spec Styx.Cst

/-- **C70** (partial: for documents in the form of `RootText` – without braces around the root, see `C70_braced_partial` for those, and without chains of tags –
without sequences that consist of one heredoc, without stray commas and without line breaks in empty objects; for the last
two `C70_false_comma` and `C70_false_empty` show it false).  Formatting the formatted text gives the same text. -/
theorem C70_again_partial (ind : List Char) (hi : Blanks ind) {es : List RootEntry} {s : List Char}
    (h : RootText es s) (hn : ∀ e ∈ es, NoLoneHeredoc e.value) (ht : Tidy (Cst.parse s).green) :
    formatSource ind (formatSource ind s) = formatSource ind s := by
  by_cases he : (Cst.parse s).isOk = true
  · obtain ⟨g, ks, h1, h2, h3⟩ := parse_root h he
    have herr : (Cst.parse s).errors = [] := by simpa [Parse.isOk] using he
    have hf : Cst.Fine (Cst.parse s).green := ⟨⟨parse_shaped s herr, C26_kinds s⟩, parse_neat s herr, ht⟩
    have e1 : formatSource ind s = formatCst ind (.node .DOCUMENT g) := by
      simp only [formatSource, he, if_true, h1]
    rw [e1]
    rw [h1] at hf
    by_cases ho : (Cst.parse (formatCst ind (.node .DOCUMENT g))).isOk = true
    · simp only [formatSource, ho, if_true]
      exact document_again hi h3 h2 hf hn ho
    · simp [formatSource, ho]
  · have e1 : formatSource ind s = s := by simp [formatSource, he]
    rw [e1, e1]

/-- Formatting any number of times is formatting once (partial, as above). -/
theorem C70_iterate_partial (ind : List Char) (hi : Blanks ind) {es : List RootEntry} {s : List Char}
    (h : RootText es s) (hn : ∀ e ∈ es, NoLoneHeredoc e.value) (ht : Tidy (Cst.parse s).green) (n : Nat) :
    Nat.repeat (formatSource ind) (n + 1) s = formatSource ind s := by
  induction n with
  | zero => rfl
  | succ n ih =>
    rw [Nat.repeat, ih]
    exact C70_again_partial ind hi h hn ht

/-! ## C70 is false of the code -/

/-- The indentation of the default options. -/
def fourBlanks : List Char := chars! "    "

/-- **C70 is false** with stray commas: each pass takes away one of the commas at the end of an object, and a comma at
the start becomes an empty line that the next pass removes. -/
theorem C70_false_comma :
    formatSource fourBlanks (chars! "x {a 1,,,}") = chars! "x {a 1, , }\n" ∧
    formatSource fourBlanks (chars! "x {a 1, , }\n") = chars! "x {a 1, }\n" ∧
    formatSource fourBlanks (chars! "x {a 1, }\n") = chars! "x {a 1}\n" ∧
    formatSource fourBlanks (chars! ",b") = chars! "\nb\n" ∧ formatSource fourBlanks (chars! "\nb\n") = chars! "b\n" := by
  refine ⟨?_, ?_, ?_, ?_, ?_⟩ <;> decide +kernel

/-- **C70 is false** with a line break in an empty object: it counts as a block in the first pass only. -/
theorem C70_false_empty :
    formatSource fourBlanks (chars! "a (\n{\n}\n)") = chars! "a (\n    {}\n)\n" ∧
    formatSource fourBlanks (chars! "a (\n    {}\n)\n") = chars! "a ({})\n" := by
  refine ⟨?_, ?_⟩ <;> decide +kernel

/-- **C70 is false** with a comment after a doc comment: the first pass writes one empty line between them, the second
two. -/
theorem C70_false_doc :
    formatSource fourBlanks (chars! "x {\n/// d\n// c\n\"q\"\n\n}") = chars! "x {\n    /// d\n\n    // c\n    \"q\"\n}\n" ∧
    formatSource fourBlanks (chars! "x {\n    /// d\n\n    // c\n    \"q\"\n}\n") =
      chars! "x {\n    /// d\n\n\n    // c\n    \"q\"\n}\n" := by
  refine ⟨?_, ?_⟩ <;> decide +kernel

/-! ## The theorem applies -/

-- keep the elaborator from evaluating the parser
attribute [local irreducible] Cst.parse formatSource parseTree

theorem sample_tidy : Tidy (Cst.parse (chars! "// hi\n/// doc\na.b x>1 y>(2) // c\n\ta.b.c\n")).green :=
  tidy_of_test _ (by decide +kernel)

/-- The sample document of C29. -/
example : formatSource fourBlanks (formatSource fourBlanks (chars! "// hi\n/// doc\na.b x>1 y>(2) // c\n\ta.b.c\n")) =
    formatSource fourBlanks (chars! "// hi\n/// doc\na.b x>1 y>(2) // c\n\ta.b.c\n") :=
  C70_again_partial _ (by simp [Blanks, Blank, fourBlanks]) sample_text sample_noLone sample_tidy

end Styx.Props
