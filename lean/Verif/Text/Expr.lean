import Verif.Text.Root

/-! # Expressions written as in `Verif.Text.Grammar` are read back -/

namespace Styx

open Styx.Spec

theorem advanceExpression_gaps (input : List Char) {gs : List Lexeme} (h1 : ∀ l ∈ gs, l.isGap = true)
    (h2 : ∀ l ∈ gs, ∀ sp, l ≠ .comma sp) (ls : List Lexeme) :
    advanceExpression input (gs ++ ls) = advanceExpression input ls := by
  induction gs with
  | nil => rfl
  | cons g gs ih =>
    have h3 := h1 g (by simp)
    have h4 := h2 g (by simp)
    rw [List.cons_append, ← ih (fun l hl => h1 l (by simp [hl])) (fun l hl => h2 l (by simp [hl]))]
    cases g <;> simp only [Lexeme.isGap, Bool.false_eq_true] at h3
    · exact absurd rfl (h4 _)
    · rfl
    · rfl

/-- A value at the beginning of an expression, with space before it: the events are those of the value, after
those of the comments inside; what follows is not read. -/
theorem expression_events {v : Value} {e : Tail} {g s rest : List Char} (hg : Gap false g) (h : ValueText v e s)
    (hf : Follows e rest) :
    ∃ cs a, parseExprEvents (g ++ (s ++ rest)) = some (cs ++ emitValue a) ∧ CommentEvents cs ∧
      ValueOf (kinds (emitValue a)) v ∧ ∃ l ls ls', AtomR (g ++ (s ++ rest)) l ls a cs ls' ∧ .eof ∉ ls' := by
  obtain ⟨gs, g1, g2, g3⟩ := lexAt_gap hg (s ++ rest) 0
  obtain ⟨l, ls, a, evs, h1, h2, h3, h4, h5, -⟩ := valueText_reads (g ++ (s ++ rest)) h rest (0 + utf8Len g) hf
  rw [h1] at g1
  have hne : .eof ∉ ls := by
    have := lexAt_no_eof (s ++ rest) (0 + utf8Len g)
    rw [h1] at this
    simp_all
  have hatom : ∃ l ls ls', AtomR (g ++ (s ++ rest)) l ls a evs ls' ∧ .eof ∉ ls' := by
    obtain ⟨a', evs', ls', k1, k2, k3⟩ := (totalAt (g ++ (s ++ rest)) (parseFuel ls)).atom l ls hne
      (by unfold parseFuel; omega)
    have := h2.fuel hne
    rw [k1] at this
    cases this
    exact ⟨_, _, _, k2, lexAt_no_eof _ _⟩
  refine ⟨evs, a, ?_, h3, h4, hatom⟩
  have hadv : advance (g ++ (s ++ rest)) .beforeExpression (lexAt (g ++ (s ++ rest)) 0) =
      some (evs ++ emitValue a, .afterExpression, lexAt rest (0 + utf8Len g + utf8Len s)) := by
    rw [advance, g1, advanceExpression_gaps _ g2 (g3 rfl)]
    have := h2.fuel hne
    cases l <;> simp only [Lexeme.startsValue, Bool.false_eq_true] at h5 <;>
      (unfold advanceExpression; simp only [this])
  unfold parseExprEvents
  rw [lex_eq_lexAt]
  show runParser _ ((lexAt (g ++ (s ++ rest)) 0).length + 3 + 2) _ _ = _
  rw [runParser, hadv]
  cases hev : evs ++ emitValue a with
  | nil => rfl
  | cons x xs =>
    have : runParser (g ++ (s ++ rest)) ((lexAt (g ++ (s ++ rest)) 0).length + 3 + 1) .afterExpression
      (lexAt rest (0 + utf8Len g + utf8Len s)) = some [] := rfl
    simp only [this, List.append_nil]

end Styx
