import Verif.Cli.Report
import Verif.Props.Marks
import Verif.Tokenizer.Spec

/-! # Property theorem C116: the report of a syntax error underlines the text the error is about -/

namespace Styx.Props

open Styx Styx.Spec Styx.Cli

/-- The last label of the report for an error. -/
def mainLabel (sp : Span) (k : ParseErrorKind) : Option Label := (buildReport sp k).labels.getLast?

/-- A label underlines the text that stands at the bytes `sp` of the source, and not an equal one elsewhere. -/
def Underlines (source : List Char) (range sp : Span) : Prop :=
  ∃ before text after, source = before ++ text ++ after ∧ sp.start = utf8Len before ∧
    sp.stop = utf8Len before + utf8Len text ∧ underlined source range = some (before, text)

theorem length_le_utf8Len (s : List Char) : s.length ≤ utf8Len s := by
  induction s with
  | nil => exact Nat.le_refl _
  | cons c s ih => have := Char.utf8Size_pos c; simp [utf8Len]; omega

theorem utf8Len_length (s : List Char) : utf8Len s = s.length ↔ ∀ c ∈ s, c.utf8Size = 1 := by
  induction s with
  | nil => simp [utf8Len]
  | cons c s ih =>
    have h1 := Char.utf8Size_pos c
    have h2 := length_le_utf8Len s
    rw [List.forall_mem_cons, ← ih]
    simp only [utf8Len, List.length_cons]
    omega

/-- Every report has a label at the place of the error, which is its last. -/
theorem mainLabel_range (sp : Span) (k : ParseErrorKind) : (mainLabel sp k).map (·.range) = some sp := by
  cases k <;> rfl

/-- **C116**, exactly: a label underlines the text of its place if and only if every character of the source up to the end
of that text is one byte. -/
theorem C116_exact {source : List Char} {sp : Span} {text : List Char} (h : Covers source sp text) :
    Underlines source sp sp ↔ ∃ before after, source = before ++ text ++ after ∧ sp.start = utf8Len before ∧
      ∀ c ∈ before ++ text, c.utf8Size = 1 := by
  obtain ⟨before, after, rfl, h1, h2⟩ := h
  constructor
  · rintro ⟨b, t, a, e1, e2, e3, e4⟩
    have hlen : ∀ {x y z w : List Char}, x ++ y = z ++ w → utf8Len x = utf8Len z → x = z := by
      intro x
      induction x with
      | nil =>
        intro y z w _ hl
        cases z with
        | nil => rfl
        | cons c z => have := Char.utf8Size_pos c; simp [utf8Len] at hl; omega
      | cons c x ih =>
        intro y z w he hl
        cases z with
        | nil => have := Char.utf8Size_pos c; simp [utf8Len] at hl; omega
        | cons d z =>
          simp only [List.cons_append, List.cons.injEq] at he
          obtain ⟨rfl, he⟩ := he
          rw [ih he (by simp [utf8Len] at hl; omega)]
    have hb : before = b := by
      simp only [List.append_assoc] at e1
      exact hlen e1 (by omega)
    subst hb
    have ht : text = t := by
      simp only [List.append_assoc, List.append_cancel_left_eq] at e1
      exact hlen e1 (by omega)
    subst ht
    refine ⟨before, after, rfl, h1, ?_⟩
    unfold underlined at e4
    split at e4
    · rename_i hr
      simp only [Option.some.injEq, Prod.mk.injEq] at e4
      have l1 := congrArg List.length e4.1
      have l2 := congrArg List.length e4.2
      simp only [List.length_take, List.length_drop, List.length_append] at l1 l2 hr
      have := length_le_utf8Len before
      have := length_le_utf8Len text
      rw [← utf8Len_length, utf8Len_append, List.length_append]
      omega
    · cases e4
  · rintro ⟨b, a, e1, e2, e3⟩
    have e3' := e3
    rw [← utf8Len_length, utf8Len_append, List.length_append] at e3
    have i1 := length_le_utf8Len b
    have i2 := length_le_utf8Len text
    refine ⟨b, text, a, e1, e2, by omega, ?_⟩
    have hs : sp.start = b.length := by omega
    have he : sp.stop = b.length + text.length := by omega
    rw [e1, underlined, if_pos (by rw [hs, he]; simp only [List.length_append]; omega), hs, he]
    simp [List.append_assoc]

/-- The place of a syntax error covers a text of the source (except for escapes, see C11). -/
theorem rejected_covers {source : List Char} {k : ParseErrorKind} {sp : Span}
    (h : parseTree source = some (.error (.parse k sp)))
    (hk : (∀ seq, k ≠ .invalidEscape seq) ∨ (¬ ['\\', '\\'] <:+: source ∧ ¬ ['\\', 'u'] <:+: source)) :
    ∃ text, Covers source sp text := by
  obtain ⟨evs, h1, h2⟩ := rejected_event h
  obtain ⟨evs', h1', hg⟩ := parseEvents_good source
  rw [h1] at h1'
  cases h1'
  have hok : SpanOK source sp := by
    rcases (hg.1 _ h2).1 with h | ⟨⟨seq, g1⟩, g2⟩
    · exact h
    · simp only [EventKind.error.injEq] at g1
      rcases hk with hk | ⟨hk1, hk2⟩
      · exact absurd g1 (hk seq)
      · rcases g2 with g2 | g2
        · exact absurd g2 hk1
        · exact absurd g2 hk2
  exact spanOK_text hok

/-- **C116**, partly: the report of a syntax error underlines the text the parser reports exactly if every character up to
the end of that text is one byte.  (Missing: errors in escapes whose place is wrong, see C11.) -/
theorem C116_iff_partial {source : List Char} {k : ParseErrorKind} {sp : Span}
    (h : parseTree source = some (.error (.parse k sp)))
    (hk : (∀ seq, k ≠ .invalidEscape seq) ∨ (¬ ['\\', '\\'] <:+: source ∧ ¬ ['\\', 'u'] <:+: source)) :
    ∃ label text, mainLabel sp k = some label ∧ Covers source sp text ∧
      (Underlines source label.range sp ↔ ∃ before after, source = before ++ text ++ after ∧ sp.start = utf8Len before ∧
        ∀ c ∈ before ++ text, c.utf8Size = 1) := by
  obtain ⟨text, hc⟩ := rejected_covers h hk
  have hm := mainLabel_range sp k
  cases hl : mainLabel sp k with
  | none => rw [hl] at hm; cases hm
  | some label =>
    rw [hl] at hm
    simp only [Option.map_some, Option.some.injEq] at hm
    exact ⟨label, text, rfl, hc, by rw [hm]; exact C116_exact hc⟩

/-- **C116** for sources all of whose characters are one byte. -/
theorem C116_ascii_partial {source : List Char} {k : ParseErrorKind} {sp : Span} (hs : ∀ c ∈ source, c.utf8Size = 1)
    (h : parseTree source = some (.error (.parse k sp)))
    (hk : (∀ seq, k ≠ .invalidEscape seq) ∨ (¬ ['\\', '\\'] <:+: source ∧ ¬ ['\\', 'u'] <:+: source)) :
    ∃ label, mainLabel sp k = some label ∧ Underlines source label.range sp := by
  obtain ⟨label, text, h1, ⟨a, b, e1, e2, -⟩, h3⟩ := C116_iff_partial h hk
  exact ⟨label, h1, h3.2 ⟨a, b, e1, e2, fun c hc => hs c (by rw [e1]; exact List.mem_append_left _ hc)⟩⟩

/-- **C116** is false: behind an `é` the report on the comma of `é (1,2)` underlines the `2`, and the one on the third atom
of `é ü 2` underlines nothing at all. -/
theorem C116_false :
    (parseTree (chars! "é (1,2)") = some (.error (.parse .commaInSequence ⟨5, 6⟩)) ∧
      mainLabel ⟨5, 6⟩ .commaInSequence = some ⟨⟨5, 6⟩, chars! "comma not allowed here"⟩ ∧
      slice (chars! "é (1,2)") 5 6 = some [','] ∧
      underlined (chars! "é (1,2)") ⟨5, 6⟩ = some (chars! "é (1,", ['2']) ∧
      ¬ Underlines (chars! "é (1,2)") ⟨5, 6⟩ ⟨5, 6⟩) ∧
    parseTree (chars! "é ü 2") = some (.error (.parse .tooManyAtoms ⟨6, 7⟩)) ∧
      underlined (chars! "é ü 2") ⟨6, 7⟩ = none := by
  refine ⟨⟨rfl, rfl, by decide +kernel, by decide +kernel, ?_⟩, rfl, by decide +kernel⟩
  rintro ⟨b, t, a, h1, h2, h3, h4⟩
  have h5 : underlined (chars! "é (1,2)") ⟨5, 6⟩ = some (chars! "é (1,", ['2']) := by decide +kernel
  rw [h5] at h4
  cases h4
  revert h2
  decide +kernel

/-! ## A report -/

example : ∃ label, mainLabel ⟨4, 5⟩ .commaInSequence = some label ∧ Underlines (chars! "a (1,2)") label.range ⟨4, 5⟩ :=
  C116_ascii_partial (by decide) (k := .commaInSequence) rfl (.inl (by simp))

/-- The first label of a report on a duplicate key stands at the first of the keys. -/
theorem C116_duplicate (sp original : Span) :
    (buildReport sp (.duplicateKey original)).labels.map (·.range) = [original, sp] := rfl

end Styx.Props
