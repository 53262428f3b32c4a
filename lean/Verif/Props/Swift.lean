import Verif.Swift.Mono
import Verif.Swift.Hang

/-! # Property theorem C112: the parser of the Swift implementation ends

A run of `Swift.parse` with fuel `n` has at most `n` rounds of each loop and at most `n` nested calls; `none` is a
run that needs more.  `U` are the Unicode properties of characters; nothing is assumed about them. -/

namespace Styx.Props

open Styx

/-- The Swift parser answers: with every sufficient number of steps it gives the same result. -/
def SwiftAnswers (U : Swift.Classes) (s : List Char) (r : Except Swift.Err (List Entry)) : Prop :=
  ∃ n, ∀ m, n ≤ m → Swift.parse U m s = some r

/-- The Swift parser never answers, however many steps it makes. -/
def SwiftHangs (U : Swift.Classes) (s : List Char) : Prop := ∀ n, Swift.parse U n s = none

/-- Either it answers or it hangs, and there is only one answer. -/
theorem C112_answer (U : Swift.Classes) (s : List Char) :
    (SwiftHangs U s ∨ ∃ r, SwiftAnswers U s r) ∧ (∀ r r', SwiftAnswers U s r → SwiftAnswers U s r' → r = r') ∧
      ∀ r, SwiftAnswers U s r → ¬ SwiftHangs U s := by
  refine ⟨?_, ?_, ?_⟩
  · by_cases h : SwiftHangs U s
    · exact .inl h
    · right
      have : ∃ n r, Swift.parse U n s = some r := by
        refine Classical.byContradiction fun hn => h fun n => ?_
        cases hr : Swift.parse U n s with
        | none => rfl
        | some r => exact (hn ⟨n, r, hr⟩).elim
      obtain ⟨n, r, hr⟩ := this
      exact ⟨r, n, fun m hm => Swift.parse_mono _ hm _ hr⟩
  · rintro r r' ⟨n, h⟩ ⟨n', h'⟩
    have h1 := h (n + n') (by omega)
    have h2 := h' (n + n') (by omega)
    rw [h1] at h2
    exact Option.some.inj h2
  · rintro r ⟨n, h⟩ hh
    have := h n (Nat.le_refl n)
    rw [hh n] at this
    cases this

/-- **C112** is false: on a document that begins with a sequence whose first place is taken by a closing brace or `>`,
or with an object whose first place is taken by a closing parenthesis or `>`, the parser never ends, whatever follows. -/
theorem C112_false (U : Swift.Classes) (s : List Char) :
    SwiftHangs U ('(' :: '}' :: s) ∧ SwiftHangs U ('(' :: '>' :: s) ∧ SwiftHangs U ('{' :: ')' :: s) ∧
      SwiftHangs U ('{' :: '>' :: s) :=
  ⟨Swift.sequence_hangs U (.inl rfl), Swift.sequence_hangs U (.inr rfl), Swift.object_hangs U (.inl rfl),
    Swift.object_hangs U (.inr rfl)⟩

/-- **C112**, partly: a document is answered, after a number of steps that grows linearly with its length, if it has
no `(`, or no `}` and no `>`; and no `{`, or no `)` and no `>`.  (Missing: the documents with both kinds of brackets,
or with brackets and attributes, on which the parser ends.) -/
theorem C112_ends_partial (U : Swift.Classes) (s : List Char) (h1 : '(' ∈ s → '}' ∉ s ∧ '>' ∉ s)
    (h2 : '{' ∈ s → ')' ∉ s ∧ '>' ∉ s) : ∃ r, ∀ m, 4 * s.length + 6 ≤ m → Swift.parse U m s = some r := by
  obtain ⟨r, hr⟩ := Swift.parse_ends U ⟨h1, h2⟩ (Nat.le_refl (4 * s.length + 6))
  exact ⟨r, fun m hm => Swift.parse_mono _ hm _ hr⟩

/-- The hypotheses are met by documents with nested values, with stray brackets at the root, and with attributes. -/
example : (∀ s ∈ [chars! "a.b (1 @t\"x\" (2 ,\n] b )", chars! "}} a>1 b>2 \n )", chars! "a {b {c @d}, e\n} }"],
    ('(' ∈ s → '}' ∉ s ∧ '>' ∉ s) ∧ ('{' ∈ s → ')' ∉ s ∧ '>' ∉ s)) := by decide

end Styx.Props
