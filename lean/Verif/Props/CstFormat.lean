import Verif.Cst.Ink
import Verif.Props.Cst
import Verif.Tree.Builder
import Verif.Tree.TreeSpec

/-! # Property theorems C28, C29, C49: the source formatter -/

namespace Styx.Props

open Styx Styx.Spec Styx.Cst

/-! ## C28 -/

/-- **C28**: a source for which the parser for concrete syntax trees reports an error is returned
unchanged. -/
theorem C28_errors_unchanged (ind s : List Char) (h : (Cst.parse s).errors ≠ []) :
    formatSource ind s = s := by
  have : (Cst.parse s).isOk = false := by simpa [Parse.isOk] using h
  simp [formatSource, this]

/-- An unclosed object after an entry that formatting would change. -/
example : formatSource (chars! "  ") (chars! "a  1\nb {") = chars! "a  1\nb {" ∧
    formatSource (chars! "  ") (chars! "a  1\nb {}") = chars! "a 1\nb {}\n" := by
  refine ⟨C28_errors_unchanged _ _ (by decide +kernel), by decide +kernel⟩

/-! ## C29 -/

/-- Whether parsing gives a tree. -/
def hasTree (s : List Char) : Bool :=
  match parseTree s with
  | some (.ok _) => true
  | _ => false

theorem hasTree_iff {s : List Char} : hasTree s = true ↔ ∃ t, parseTree s = some (.ok t) := by
  unfold hasTree
  split
  · rename_i t h
    simp [h]
  · rename_i h
    simp only [Bool.false_eq_true, false_iff, not_exists]
    exact fun t ht => h t ht

/-- **C29** is false: a heredoc alone in a sequence is put on one line with the closing parenthesis, and
the formatted text has no tree any more. -/
theorem C29_false : ∃ ind s t, parseTree s = some (.ok t) ∧
    ¬ ∃ t', parseTree (formatSource ind s) = some (.ok t') := by
  have h : hasTree (chars! "x (<<A\nhi\nA\n)\n") = true ∧
      hasTree (formatSource (chars! "  ") (chars! "x (<<A\nhi\nA\n)\n")) = false := by decide +kernel
  obtain ⟨t, ht⟩ := hasTree_iff.1 h.1
  refine ⟨chars! "  ", _, t, ht, fun h' => ?_⟩
  rw [← hasTree_iff, h.2] at h'
  cases h'

/-! ## C49 -/

/-- **C49** is false: of several values of an entry only the first is kept, and attributes in place of a
key are dropped – without an error. -/
theorem C49_false : ∃ ind s s', (∀ c ∈ ind, layout c = true) ∧
    ink (formatSource ind s) ≠ ink s ∧ formatSource ind s = chars! "a 1\n// two\n" ∧
    ink (formatSource ind s') ≠ ink s' ∧ formatSource ind s' = [] := by
  refine ⟨chars! "  ", chars! "a 1 2 // two\n", chars! "x>1\n", ?_⟩
  decide +kernel

/-- **C49** (partial: only for sources in which no entry has several values or consists of attributes).
Formatting changes nothing but blanks, line ends and commas: all other characters of the source – keys,
scalars, tags, brackets, comments, heredocs – are in the result, in the same order, and nothing else. -/
theorem C49_ink_partial (ind s : List Char) (hind : ∀ c ∈ ind, layout c = true)
    (h : SingleEntries (Cst.parse s).green) : ink (formatSource ind s) = ink s := by
  have hi : ink ind = [] := by
    simp only [ink, List.filter_eq_nil_iff, Bool.not_eq_true', Bool.not_eq_false]
    exact hind
  by_cases he : (Cst.parse s).errors = []
  · have hok : (Cst.parse s).isOk = true := by simp [Parse.isOk, he]
    simp only [formatSource, hok, if_true, formatCst]
    obtain ⟨_, g, _, _, hg, _⟩ := C27_cst_terminates s
    have h0 : Fmt.ink {} = [] := rfl
    rw [finish_ink, keeps ind hi _ _ _ hg (parse_shaped s he) h, (C26_cst_lossless s).2, h0, List.nil_append]
  · rw [C28_errors_unchanged ind s he]

mutual
/-- A checkable form of `SingleEntries`. -/
def singleB : Green → Bool
  | .token _ _ => true
  | .node k cs => (k != .ENTRY || (decide ((nodesOf .VALUE cs).length ≤ 1) && (nodesOf .ATTRIBUTES cs).isEmpty)) &&
      singleBL cs
/-- The same for a list of elements. -/
def singleBL : List Green → Bool
  | [] => true
  | g :: gs => singleB g && singleBL gs
end

mutual
theorem singleB_sound : (g : Green) → singleB g = true → SingleEntries g
  | .token _ _ => fun _ => trivial
  | .node k cs => fun h => by
    simp only [singleB, Bool.and_eq_true] at h
    rw [SingleEntries]
    refine ⟨?_, singleBL_sound cs h.2⟩
    rintro rfl
    simpa [SingleEntry] using h.1
theorem singleBL_sound : (gs : List Green) → singleBL gs = true → SingleEntriesL gs
  | [] => fun _ => trivial
  | g :: gs => fun h => by
    simp only [singleBL, Bool.and_eq_true] at h
    exact ⟨singleB_sound g h.1, singleBL_sound gs h.2⟩
end

/-- A document with all kinds of nodes. -/
def sampleSource : List Char :=
  chars! "@schema x\n/// d\na {b (1  2),c @t/@u{}}// c\nq x>1   y>@ , k <<E\n z\nE\n"

-- keep the elaborator from evaluating the parser
attribute [local irreducible] SingleEntries Cst.parse formatSource

theorem sampleSource_single : SingleEntries (Cst.parse sampleSource).green := by
  have h : singleB (Cst.parse sampleSource).green = true := by decide +kernel
  generalize (Cst.parse sampleSource).green = g at h ⊢
  exact singleB_sound g h

/-- It meets the hypothesis of C49, and formatting changes it. -/
example : (Cst.parse sampleSource).errors = [] ∧
    ink (formatSource (chars! "  ") sampleSource) = ink sampleSource ∧
    formatSource (chars! "  ") sampleSource =
      chars! "@schema x\n\n/// d\na {b (1 2), c @t/@u{}}\n// c\n\nq x>1 y>@\nk <<E\n z\nE\n" :=
  ⟨by decide +kernel, C49_ink_partial _ _ (by decide) sampleSource_single, by decide +kernel⟩

end Styx.Props
