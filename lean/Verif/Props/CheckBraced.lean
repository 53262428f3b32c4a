import Verif.Cst.CheckBraced
import Verif.Props.Braced
import Verif.Props.Check

/-! # Property theorem C71: the warnings for keys given twice, with braces around the root

`Verif.Cst.CheckSpec` and `Verif.Text.BracedSpec` (how such documents are written) are the specifications. -/

namespace Styx.Props

open Styx Styx.Spec Styx.Cst

/-- **C71** at the level of documents (partial, as `C71_document_partial`), braces around the root: the key `v` is
reported exactly if two entries between the braces have the same path, and `v` is that path.  Dotted paths given twice are
among them, which the parser accepts there (C16). -/
theorem C71_braced_partial {es : List RootEntry} {s : List Char} (h : BracedText es s) (ho : (Cst.parse s).isOk = true)
    (hu : NoUnicodeEscape s) (hw : ∀ e ∈ es, WordKey e) (hr : ∀ e ∈ es, NoRawKeys e.value) (v : List Char) (hv : v ≠ []) :
    (∃ a b, duplicateWarning a b v ∈ validate (Cst.parse s).green) ↔
      ∃ l1 e1 l2 e2 l3, es = l1 ++ e1 :: l2 ++ e2 :: l3 ∧ e1.path = e2.path ∧ dotted e1.path = v := by
  obtain ⟨g, cs, es', h1, h2, h3, h4⟩ := parse_braced h ho
  have herr : (Cst.parse s).errors = [] := by simpa [Parse.isOk] using ho
  have hc : Calm (Cst.parse s).green :=
    ⟨⟨parse_shaped s herr, C26_kinds s⟩, by rw [UniFree, (C26_cst_lossless s).2]; exact hu⟩
  rw [h1] at hc ⊢
  exact braced_duplicates h2 h3 h4 hc hw hr hv

-- keep the elaborator from evaluating the parser
attribute [local irreducible] Cst.parse

/-- The second `a` is reported, although it is written with quotes. -/
example : ∃ a b, duplicateWarning a b ['a'] ∈ validate (Cst.parse (chars! "{a 1, \"a\"}")).green :=
  (C71_braced_partial sample_bracedTwice (by decide +kernel)
    (by
      have hd : ('\\' ∉ chars! "{a 1, \"a\"}") := by decide
      intro a b h
      exact hd (by rw [h]; simp))
    (by
      intro e he
      simp only [List.mem_cons, List.not_mem_nil, or_false] at he
      rcases he with rfl | rfl
      · exact .inl (fun k hk => ⟨_, List.mem_singleton.1 hk⟩)
      · exact .inr ⟨_, rfl, by decide⟩)
    (by
      intro e he
      simp only [List.mem_cons, List.not_mem_nil, or_false] at he
      rcases he with rfl | rfl <;> simp [scalarValue, NoRawKeys])
    ['a'] (by simp)).2 ⟨[], _, [], _, [], rfl, rfl, rfl⟩

end Styx.Props
