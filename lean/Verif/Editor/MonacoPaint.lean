import Verif.Editor.MonacoSpec

/-!
# Painting in rounds

The main loop paints a line round by round; what a round paints does not depend on where in the line it starts.
-/

namespace Styx.Monaco

open Styx.Spec

/-! ## Colours of tokens -/

/-- Tokens moved to the right. -/
def shift (k : Nat) (ts : List Token) : List Token := ts.map fun t => (k + t.1, t.2)

theorem colourAt_before {ts us : List Token} {k i : Nat} (h : i < k) : colourAt (ts ++ shift k us) i = colourAt ts i := by
  have : (shift k us).filter (fun t => decide (t.1 ≤ i)) = [] := by
    simp [shift, List.filter_map]
    intros; omega
  simp [colourAt, this]

theorem colourAt_behind {ts us : List Token} {k i : Nat} (h : ∃ s vs, us = (0, s) :: vs) :
    colourAt (ts ++ shift k us) (k + i) = colourAt us i := by
  have hf : (shift k us).filter (fun t => decide (t.1 ≤ k + i)) = shift k (us.filter (fun t => decide (t.1 ≤ i))) := by
    simp [shift, List.filter_map, Function.comp_def]
  have hn : us.filter (fun t => decide (t.1 ≤ i)) ≠ [] := by
    obtain ⟨s, vs, rfl⟩ := h
    simp
  obtain ⟨x, hx⟩ : ∃ x, (us.filter (fun t => decide (t.1 ≤ i))).getLast? = some x := by
    cases hc : (us.filter (fun t => decide (t.1 ≤ i))).getLast? with
    | none => exact absurd (List.getLast?_eq_none_iff.1 hc) hn
    | some x => exact ⟨x, rfl⟩
  simp only [colourAt, List.filter_append, hf, List.getLast?_append]
  simp [shift, hx]

theorem paint_nil (ts : List Token) : paint ts [] = [] := rfl

theorem paint_append {ts us : List Token} {w r : List Char} (h : r ≠ [] → ∃ s vs, us = (0, s) :: vs) :
    paint (ts ++ shift w.length us) (w ++ r) = paint ts w ++ paint us r := by
  simp only [paint, List.zipIdx_append, List.map_append]
  congr 1
  · apply List.map_congr_left
    rintro ⟨c, i⟩ hm
    have := List.mem_zipIdx hm
    simp only [Prod.mk.injEq, true_and]
    exact colourAt_before (by simpa using this.2.1)
  · cases r with
    | nil => rfl
    | cons c r =>
      have h := h (by simp)
      rw [List.zipIdx_eq_map_add]
      simp only [List.map_map]
      apply List.map_congr_left
      rintro ⟨c, i⟩ hm
      simp only [Function.comp, Prod.mk.injEq, true_and]
      rw [show 0 + w.length + i = w.length + i by omega, colourAt_behind h]

theorem paint_one (s : Scope) (w : List Char) : paint [(0, s)] w = ink s w := by
  have : ∀ i, colourAt [(0, s)] i = some s := by intro i; simp [colourAt]
  simp only [paint, this, ink]
  conv => rhs; rw [← List.zipIdx_map_fst 0 w, List.map_map]
  rfl

/-! ## Rounds -/

theorem quotedLoop_length (scope : Scope) (pos : Nat) (cs : List Char) :
    (quotedLoop scope pos cs).2.1.length ≤ cs.length := by
  fun_induction quotedLoop scope pos cs <;> simp_all <;> omega

theorem heredocStart_pos {s d n} (h : heredocStart s = some (d, n)) : 0 < n := by
  unfold heredocStart at h
  repeat' split at h
  all_goals simp at h
  all_goals omega

theorem step_round (st : St) (c : Char) (cs : List Char) :
    0 < (step st (c :: cs)).used ∧ ∃ s ts, (step st (c :: cs)).tokens = (0, s) :: ts := by
  simp only [step]
  by_cases h1 : blank c = true
  · rw [if_pos h1]; exact ⟨by show 0 < 1 + _; omega, _, _, rfl⟩
  rw [if_neg h1]
  by_cases h2 : ['/', '/', '/'].isPrefixOf (c :: cs) = true
  · rw [if_pos h2]; exact ⟨by show 0 < 3 + _; omega, _, _, rfl⟩
  rw [if_neg h2]
  by_cases h3 : ['/', '/'].isPrefixOf (c :: cs) = true
  · rw [if_pos h3]; exact ⟨by show 0 < 2 + _; omega, _, _, rfl⟩
  rw [if_neg h3]
  by_cases h4 : c = '{'
  · rw [if_pos h4]; exact ⟨by show 0 < 1; omega, _, _, rfl⟩
  rw [if_neg h4]
  by_cases h5 : c = '}'
  · rw [if_pos h5]; exact ⟨by show 0 < 1; omega, _, _, rfl⟩
  rw [if_neg h5]
  by_cases h6 : c = '('
  · rw [if_pos h6]; exact ⟨by show 0 < 1; omega, _, _, rfl⟩
  rw [if_neg h6]
  by_cases h7 : c = ')'
  · rw [if_pos h7]; exact ⟨by show 0 < 1; omega, _, _, rfl⟩
  rw [if_neg h7]
  by_cases h8 : c = ','
  · rw [if_pos h8]; exact ⟨by show 0 < 1; omega, _, _, rfl⟩
  rw [if_neg h8]
  cases h9 : heredocStart (c :: cs) with
  | some p =>
    obtain ⟨d, n⟩ := p
    exact ⟨heredocStart_pos h9, _, _, rfl⟩
  | none =>
    simp only
    cases h10 : rawStart (c :: cs) with
    | some n =>
      simp only [rawStep]
      split
      · exact ⟨by show 0 < n + 2 + _ + _; omega, _, _, rfl⟩
      · exact ⟨by simp, _, _, rfl⟩
    | none =>
      simp only
      by_cases h11 : c = '"'
      · rw [if_pos h11]
        have := quotedLoop_length (stringScope (isKey st)) 1 cs
        refine ⟨?_, _, _, rfl⟩
        show 0 < 1 + cs.length - (quotedLoop (stringScope (isKey st)) 1 cs).2.1.length
        exact Nat.lt_of_lt_of_le Nat.one_pos (by exact Nat.le_sub_of_add_le (by exact Nat.add_le_add_left this 1))
      rw [if_neg h11]
      by_cases h12 : c = '@'
      · rw [if_pos h12]
        by_cases h13 : cs.head?.any tagStart = true
        · rw [if_pos h13]; exact ⟨by simp only [tagStep]; omega, _, _, rfl⟩
        · rw [if_neg h13]; exact ⟨by show 0 < 1; omega, _, _, rfl⟩
      rw [if_neg h12]
      by_cases h14 : bareFirst c = true
      · rw [if_pos h14]; exact ⟨by show 0 < 1 + _; omega, _, _, rfl⟩
      · rw [if_neg h14]; exact ⟨by show 0 < 1; omega, _, _, rfl⟩

theorem step_pos (st : St) (c : Char) (cs : List Char) : 0 < (step st (c :: cs)).used := (step_round st c cs).1

theorem step_head (st : St) (c : Char) (cs : List Char) :
    ∃ s ts, (step st (c :: cs)).tokens = (0, s) :: ts := (step_round st c cs).2

/-- The rest of a line in the main loop. -/
def loop (st : St) (rest : List Char) : List Token × St := mainLoop rest.length 0 rest st

theorem mainLoop_shift (n pos : Nat) (rest : List Char) (st : St) :
    mainLoop n pos rest st = (shift pos (mainLoop n 0 rest st).1, (mainLoop n 0 rest st).2) := by
  induction n generalizing pos rest st with
  | zero => simp [mainLoop, shift]
  | succ n ih =>
    simp only [mainLoop]
    split
    · simp [shift]
    · split
      · simp [shift]
      · rw [ih (pos + _), ih (0 + _)]
        simp [shift, Function.comp_def, Nat.add_assoc]

theorem mainLoop_fuel {n : Nat} {rest : List Char} (h : rest.length ≤ n) (pos : Nat) (st : St) :
    mainLoop n pos rest st = mainLoop rest.length pos rest st := by
  induction n using Nat.strongRecOn generalizing rest pos st with
  | ind n ih =>
    cases rest with
    | nil => cases n <;> simp [mainLoop]
    | cons c cs =>
      cases n with
      | zero => simp at h
      | succ n =>
        have hp := step_pos st c cs
        simp only [List.length_cons, mainLoop]
        simp at h
        have hl : ((c :: cs).drop (step st (c :: cs)).used).length ≤ cs.length := by
          simp; omega
        rw [ih n (by omega) (rest := (c :: cs).drop (step st (c :: cs)).used) (by omega)]
        by_cases hn : cs.length = n
        · subst hn
          rw [ih cs.length (by omega) (rest := (c :: cs).drop (step st (c :: cs)).used) (by omega)]
        · rw [ih cs.length (by omega) (rest := (c :: cs).drop (step st (c :: cs)).used) (by omega)]

theorem loop_nil (st : St) : loop st [] = ([], endLine st) := rfl

/-- A round that stops. -/
theorem loop_stop {st : St} {rest : List Char} (hr : rest ≠ []) (h : (step st rest).stop = true) :
    loop st rest = ((step st rest).tokens, (step st rest).st) := by
  cases rest with
  | nil => exact absurd rfl hr
  | cons c cs => simp [loop, mainLoop, h]

/-- A round that goes on. -/
theorem loop_step {st : St} {w r : List Char} (hw : w ≠ []) (hu : (step st (w ++ r)).used = w.length)
    (hs : (step st (w ++ r)).stop = false) :
    loop st (w ++ r) = ((step st (w ++ r)).tokens ++ shift w.length (loop (step st (w ++ r)).st r).1,
      (loop (step st (w ++ r)).st r).2) := by
  obtain ⟨c, cs, rfl⟩ : ∃ c cs, w = c :: cs := by cases w with | nil => exact absurd rfl hw | cons c cs => exact ⟨_, _, rfl⟩
  simp only [loop, List.cons_append, List.length_cons, mainLoop]
  simp only [List.cons_append] at hu hs
  rw [if_neg (by simp), if_neg (by simp [hs]), hu]
  simp only [List.length_cons, List.drop_succ_cons, List.drop_left]
  rw [mainLoop_fuel (rest := r) (by simp), mainLoop_shift]
  simp

theorem loop_head {st : St} {r : List Char} (h : r ≠ []) : ∃ s vs, (loop st r).1 = (0, s) :: vs := by
  cases r with
  | nil => exact absurd rfl h
  | cons c cs =>
    obtain ⟨s, ts, ht⟩ := step_head st c cs
    simp only [loop, List.length_cons, mainLoop]
    rw [if_neg (by simp)]
    split
    · exact ⟨s, ts, by simp [ht]⟩
    · exact ⟨s, _, by simp only [ht, List.map_cons, List.cons_append]; rfl⟩

/-- What a round paints. -/
theorem paint_step {st : St} {w r : List Char} (hw : w ≠ []) (hu : (step st (w ++ r)).used = w.length)
    (hs : (step st (w ++ r)).stop = false) :
    paint (loop st (w ++ r)).1 (w ++ r) =
      paint (step st (w ++ r)).tokens w ++ paint (loop (step st (w ++ r)).st r).1 r := by
  rw [loop_step hw hu hs]
  exact paint_append fun h => loop_head h

/-! ## Texts of several lines -/

/-- The first line. -/
def line (t : List Char) : List Char := t.takeWhile (· != '\n')

/-- The text from the middle of a line on, in the main loop. -/
def mid (st : St) (t : List Char) : Painted :=
  match linesOf t with
  | [] => []
  | [l] => paint (loop st l).1 l
  | l :: ls => paint (loop st l).1 l ++ ('\n', none) :: colourLines (loop st l).2 ls

/-- The text from the start of a line on. -/
def start (st : St) (t : List Char) : Painted := colourLines st (linesOf t)

theorem linesOf_ne (t : List Char) : linesOf t ≠ [] := by
  cases t with
  | nil => simp [linesOf]
  | cons c cs =>
    simp only [linesOf]
    split
    · simp
    · split <;> simp

theorem linesOf_break (t : List Char) : linesOf ('\n' :: t) = [] :: linesOf t := by simp [linesOf]

theorem linesOf_append {w : List Char} (hw : '\n' ∉ w) {t l ls} (h : linesOf t = l :: ls) :
    linesOf (w ++ t) = (w ++ l) :: ls := by
  induction w with
  | nil => exact h
  | cons c w ih =>
    have := ih (fun hm => hw (List.mem_cons_of_mem _ hm))
    simp only [List.cons_append, linesOf]
    rw [if_neg (fun hc => hw (by simp [hc])), this]

theorem linesOf_line (t : List Char) : ∃ ls, linesOf t = line t :: ls := by
  induction t with
  | nil => exact ⟨[], rfl⟩
  | cons c cs ih =>
    obtain ⟨ls, ih⟩ := ih
    by_cases hc : c = '\n'
    · subst hc; exact ⟨linesOf cs, by simp [linesOf, line]⟩
    · exact ⟨ls, by simp [linesOf, hc, ih, line]⟩

theorem line_append {w : List Char} (hw : '\n' ∉ w) (t : List Char) : line (w ++ t) = w ++ line t := by
  simp only [line]
  exact List.takeWhile_append_of_pos (fun a ha => by simp; rintro rfl; exact hw ha)

/-- Between constructs: not in a heredoc or a string. -/
structure Calm (st : St) : Prop where
  heredoc : st.heredoc = none
  raw : st.raw = none
  inString : st.inString = false

theorem tokenize_calm {st : St} (h : Calm st) (l : List Char) : tokenize l st = loop st l := by
  simp [tokenize, h.heredoc, h.inString, tokenizeRaw, h.raw, loop]

theorem start_calm {st : St} (h : Calm st) (t : List Char) : start st t = mid st t := by
  unfold start mid
  split <;> simp_all [colourLines, tokenize_calm]

theorem mid_nil (st : St) : mid st [] = [] := by simp [mid, linesOf, paint]

theorem start_break (st : St) (t : List Char) {l : List Char} (hl : '\n' ∉ l) :
    start st (l ++ '\n' :: t) = paint (tokenize l st).1 l ++ ('\n', none) :: start (tokenize l st).2 t := by
  have h := linesOf_append hl (linesOf_break t)
  rw [List.append_nil] at h
  simp only [start, h]
  have := linesOf_ne t
  cases h' : linesOf t with
  | nil => exact absurd h' this
  | cons a b => simp [colourLines]

theorem mid_stop {st : St} {w : List Char} (hw : '\n' ∉ w) (hn : w ≠ []) (t : List Char) (hs : (step st w).stop = true) :
    mid st (w ++ '\n' :: t) = paint (step st w).tokens w ++ ('\n', none) :: start (step st w).st t := by
  have h := linesOf_append hw (linesOf_break t)
  rw [List.append_nil] at h
  have := linesOf_ne t
  simp only [mid, h, start]
  cases h' : linesOf t with
  | nil => exact absurd h' this
  | cons a b => simp [loop_stop hn hs]

theorem mid_break (st : St) (t : List Char) : mid st ('\n' :: t) = ('\n', none) :: start (endLine st) t := by
  have := linesOf_ne t
  simp only [mid, linesOf_break, start]
  cases h' : linesOf t with
  | nil => exact absurd h' this
  | cons a b => simp [loop_nil, paint]

theorem mid_step {st : St} {w : List Char} (hw : '\n' ∉ w) (hn : w ≠ []) (t : List Char)
    (hu : (step st (w ++ line t)).used = w.length) (hs : (step st (w ++ line t)).stop = false) :
    mid st (w ++ t) = paint (step st (w ++ line t)).tokens w ++ mid (step st (w ++ line t)).st t := by
  obtain ⟨ls, hl⟩ := linesOf_line t
  have h := linesOf_append hw hl
  have hp := paint_step hn hu hs
  have hl2 := loop_step hn hu hs
  simp only [mid, h, hl]
  cases ls with
  | nil => exact hp
  | cons a b => simp only [hp, List.append_assoc]; rw [hl2]

/-- A round with one token. -/
theorem mid_one {st st' : St} {w : List Char} {s : Scope} (hw : '\n' ∉ w) (hn : w ≠ []) (t : List Char)
    (h : step st (w ++ line t) = ⟨[(0, s)], w.length, st', false⟩) : mid st (w ++ t) = ink s w ++ mid st' t := by
  rw [mid_step hw hn t (by rw [h]) (by rw [h]), h, paint_one]

end Styx.Monaco
