import Verif.Editor.History

/-!
# Reading along a rule, without saving and restoring
-/

namespace Styx.Editor

open Styx.Spec

/-- `readRule` with the scanner's state kept instead of saved and restored.  Models no code. -/
def followRule : Nat → Nat → Scanner → List Char → Option (List Piece × List Char)
  | 0, _, _, _ => none
  | n + 1, row, s, text =>
    match scan (validSymbols row) s (.at text) with
    | .ok (some y, s', l) =>
      let stop := l.mark.getD l.here
      if !validSymbols row y then none else
      let p : Piece := ⟨y, between text l.start, between l.start stop⟩
      match rowAfter y with
      | none => some ([p], stop)
      | some row =>
        match followRule n row s' stop with
        | none => none
        | some (ps, rest) => some (p :: ps, rest)
    | _ => none

theorem readRule_follow : ∀ (n row : Nat) {b : List UInt8} {t old : Scanner} (text : List Char), Saves b t →
    old.buf.length = 17 → readRule n row old b text = .ok (followRule n row t text) := by
  intro n
  induction n with
  | zero => intro row b t old text _ _; rfl
  | succ n ih =>
    intro row b t old text h ho
    obtain ⟨y, s1, s2, l, h1, h2, _, h3⟩ := lex_spec h ho (validSymbols row) text
    rcases h3 with ⟨hy, h3⟩ | ⟨sym, bytes, hy, hser, _, h3⟩
    · subst hy
      simp only [readRule, followRule, h1, h3]; rfl
    · subst hy
      simp only [readRule, followRule, h1, h3]
      show (if _ then _ else _) = _
      split
      · rfl
      · cases hr : rowAfter sym with
        | none => rfl
        | some row' =>
          simp only
          have := ih row' (l.mark.getD l.here) (.inr ⟨h2.left, hser⟩) (old := s2) h2.bufT
          show (readRule n row' s2 bytes _ >>= _) = _
          rw [this]
          show (match followRule n row' s1 _ with | none => _ | some (ps, rest) => _) = _
          cases followRule n row' s1 (l.mark.getD l.here) <;> rfl

theorem readExternal_follow (text : List Char) :
    readExternal text = .ok (followRule 4 2 .create text) :=
  readRule_follow 4 2 text (.inl ⟨rfl, rfl⟩) rfl

/-- One step along a rule. -/
theorem followRule_step {n row : Nat} {s s' : Scanner} {text : List Char} {y : Symbol} {l : Lexer}
    (h : scan (validSymbols row) s (.at text) = .ok (some y, s', l)) :
    followRule (n + 1) row s text =
      if !validSymbols row y then none else
      match rowAfter y with
      | none => some ([⟨y, between text l.start, between l.start (l.mark.getD l.here)⟩], l.mark.getD l.here)
      | some row =>
        match followRule n row s' (l.mark.getD l.here) with
        | none => none
        | some (ps, rest) =>
          some (⟨y, between text l.start, between l.start (l.mark.getD l.here)⟩ :: ps, rest) := by
  simp only [followRule, h]

theorem followRule_none {n row : Nat} {s s' : Scanner} {text : List Char} {l : Lexer}
    (h : scan (validSymbols row) s (.at text) = .ok (none, s', l)) :
    followRule (n + 1) row s text = none := by
  simp only [followRule, h]

theorem between_append (a b : List Char) : between (a ++ b) b = a := by simp [between]

theorem between_self (a : List Char) : between a a = [] := by simp [between]

end Styx.Editor
