import Verif.Impl.Mono
import Verif.Impl.NoBrace

/-! # Property theorem C92: the parsers of the Python, JavaScript and Go implementations end

A run of `Impl.parse` with fuel `n` has at most `n` rounds of each loop and at most `n` nested calls; `none` is a
run that needs more.  So a parser ends on a document exactly if some fuel gives an answer. -/

namespace Styx.Props

open Styx

/-- The parser answers: with every sufficient number of steps it gives the same result. -/
def Answers (d : Impl.Dialect) (s : List Char) (r : Except Impl.Err (List Entry)) : Prop :=
  ∃ n, ∀ m, n ≤ m → Impl.parse d m s = some r

/-- The parser never answers, however many steps it makes. -/
def Hangs (d : Impl.Dialect) (s : List Char) : Prop := ∀ n, Impl.parse d n s = none

/-- Either it answers or it hangs, and there is only one answer. -/
theorem C92_answer (d : Impl.Dialect) (s : List Char) :
    (Hangs d s ∨ ∃ r, Answers d s r) ∧ (∀ r r', Answers d s r → Answers d s r' → r = r') ∧
      ∀ r, Answers d s r → ¬ Hangs d s := by
  refine ⟨?_, ?_, ?_⟩
  · by_cases h : Hangs d s
    · exact .inl h
    · right
      have : ∃ n r, Impl.parse d n s = some r := by
        refine Classical.byContradiction fun hn => h fun n => ?_
        cases hr : Impl.parse d n s with
        | none => rfl
        | some r => exact (hn ⟨n, r, hr⟩).elim
      obtain ⟨n, r, hr⟩ := this
      exact ⟨r, n, fun m hm => Impl.parse_mono _ hm _ hr⟩
  · rintro r r' ⟨n, h⟩ ⟨n', h'⟩
    have h1 := h (n + n') (by omega)
    have h2 := h' (n + n') (by omega)
    rw [h1] at h2
    exact Option.some.inj h2
  · rintro r ⟨n, h⟩ hh
    have := h n (Nat.le_refl n)
    rw [hh n] at this
    cases this

/-- **C92** is false: on a document that begins with a closing brace none of the three parsers ever ends. -/
theorem C92_false (d : Impl.Dialect) (s : List Char) : Hangs d ('}' :: s) := by
  intro n
  have hn : Impl.nextToken d ('}' :: s) = .ok (⟨.rbrace, ['}'], false, false⟩, s) := rfl
  unfold Impl.parse
  rw [hn]
  have : Impl.parseDocument d n ⟨⟨.rbrace, ['}'], false, false⟩, none, s, none⟩ = .fuel := by
    cases n with
    | zero => rfl
    | succ n =>
      exact Impl.root_hangs d (n + 1) ⟨⟨.rbrace, ['}'], false, false⟩, none, s, none⟩
        ⟨[], [], []⟩ rfl rfl
  simp only [this]

/-- **C92**, partly: a document without closing braces is answered, after a number of steps that grows linearly with
its length.  (Missing: the documents with closing braces on which the parsers end.) -/
theorem C92_ends_partial (d : Impl.Dialect) (s : List Char) (h : '}' ∉ s) :
    ∃ r, ∀ m, 4 * s.length + 8 ≤ m → Impl.parse d m s = some r := by
  have := Impl.parse_ends d s (.inl h)
  cases hr : Impl.parse d (4 * s.length + 8) s with
  | none => exact (this hr).elim
  | some r => exact ⟨r, fun m hm => Impl.parse_mono _ hm _ hr⟩

/-- **C92**, partly: so is a document that is an object in braces, whatever is in it and follows it. -/
theorem C92_braced_partial (d : Impl.Dialect) (s : List Char) :
    ∃ r, ∀ m, 4 * s.length + 12 ≤ m → Impl.parse d m ('{' :: s) = some r := by
  have := Impl.parse_ends d ('{' :: s) (.inr ⟨⟨.lbrace, ['{'], false, false⟩, s, rfl, rfl⟩)
  cases hr : Impl.parse d (4 * ('{' :: s).length + 8) ('{' :: s) with
  | none => exact (this hr).elim
  | some r => exact ⟨r, fun m hm => Impl.parse_mono _ (by simp at *; omega) _ hr⟩

/-- The hypothesis of `C92_ends_partial` is met by documents with nested values, errors and all. -/
example : '}' ∉ (chars! "a.b (1 @t\"x\")\n{ , a>1 b") := by decide

/-- The answers to some documents: one is read, one is not, and Python and Go are not of one mind about a string that
is not closed. -/
example : Answers .python (chars! "a b\nc") (.ok [.mk (Impl.bareValue ['a']) (Impl.bareValue ['b']) none,
      .mk (Impl.bareValue ['c']) Impl.unitValue none]) ∧
    Answers .javascript (chars! "a (1, 2)") (.error .commaInSequence) ∧
    Answers .python (chars! "a b\n\"c") (.error .unexpectedToken) ∧
    Answers .go (chars! "a b\n\"c") (.ok [.mk (Impl.bareValue ['a']) (Impl.bareValue ['b']) none]) :=
  ⟨⟨20, fun _ hm => Impl.parse_mono _ hm _ rfl⟩, ⟨20, fun _ hm => Impl.parse_mono _ hm _ rfl⟩,
    ⟨20, fun _ hm => Impl.parse_mono _ hm _ rfl⟩, ⟨20, fun _ hm => Impl.parse_mono _ hm _ rfl⟩⟩

end Styx.Props
