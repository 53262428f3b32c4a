import Verif.Editor.EmacsSpec

/-!
# Lemmas about indentation in Emacs
-/

namespace Styx.Editor.Emacs

open Styx Styx.Editor.Emacs.Spec

theorem blankChar_iff (c : Char) : isBlankChar c = true ↔ c = ' ' ∨ c = '\t' := by simp [isBlankChar]

theorem dropBlanks_split : ∀ (l : List Char), ∃ a, (∀ b ∈ a, isBlankChar b = true) ∧ l = a ++ l.dropWhile isBlankChar
  | [] => ⟨[], (nofun), rfl⟩
  | c :: l => by
    obtain ⟨a, ha, hl⟩ := dropBlanks_split l
    cases hc : isBlankChar c with
    | false => exact ⟨[], (nofun), by simp [hc]⟩
    | true =>
      refine ⟨c :: a, ?_, by simp [hc, ← hl]⟩
      intro b hb
      rcases List.mem_cons.mp hb with rfl | hb
      · exact hc
      · exact ha b hb

theorem dropBlanks_append : ∀ (a r : List Char) (c : Char), (∀ b ∈ a, isBlankChar b = true) → isBlankChar c = false →
    (a ++ c :: r).dropWhile isBlankChar = c :: r
  | [], r, c, _, hc => by simp [hc]
  | b :: a, r, c, h, hc => by
    simp only [List.cons_append, List.dropWhile_cons, h b (List.mem_cons_self ..), if_true]
    exact dropBlanks_append a r c (fun x hx => h x (List.mem_cons_of_mem _ hx)) hc

theorem opens_iff (l : Line) : l.opens = true ↔ Opening l.text := by
  unfold Line.opens
  constructor
  · intro h
    obtain ⟨a, ha, hl⟩ := dropBlanks_split l.text.reverse
    cases hd : l.text.reverse.dropWhile isBlankChar with
    | nil => rw [hd] at h; simp at h
    | cons c r =>
      rw [hd] at h hl
      refine ⟨r.reverse, c, a.reverse, ?_, by simpa using h, ?_⟩
      · have := congrArg List.reverse hl
        simpa using this
      · intro b hb
        exact (blankChar_iff b).mp (ha b (List.mem_reverse.mp hb))
  · rintro ⟨before, c, blanks, ht, hc, hb⟩
    have : l.text.reverse = blanks.reverse ++ c :: before.reverse := by rw [ht]; simp
    rw [this, dropBlanks_append _ _ _ (fun b h => (blankChar_iff b).mpr (hb b (List.mem_reverse.mp h)))
      (by rcases hc with rfl | rfl <;> decide)]
    simpa using hc

theorem closes_iff (l : Line) : l.closes = true ↔ Closing l.text := by
  unfold Line.closes
  cases h : l.text with
  | nil => simp [Closing]
  | cons c r => simp [Closing]

theorem not_opening_nil : ¬ Opening [] := by
  rintro ⟨_, _, _, h, _⟩
  simp at h

theorem not_closing_nil : ¬ Closing [] := by
  rintro ⟨_, _, h, _⟩
  simp at h

/-- The lines above are done: the next line is at depth `d`. -/
inductive Done (offset : Nat) : Nat → List Line → Prop
  | nil : Done offset 0 []
  | first {p : Line} : p.text = [] → p.col = 0 → Done offset 0 [p]
  | blank {d p q ps} : p.text = [] → Done offset d (q :: ps) → Done offset d (p :: q :: ps)
  | stay {d p ps} : p.text ≠ [] → ¬ Opening p.text → p.col = d * offset → Done offset d (p :: ps)
  | deeper {d p ps} : p.text ≠ [] → Opening p.text → p.col = d * offset → Done offset (d + 1) (p :: ps)

/-- Where the indentation is taken from. -/
theorem walkUp_done {offset d : Nat} {above : List Line} (h : Done offset d above) : above ≠ [] → ∀ below : Line,
    (if (walkUp below above).1.opens then (walkUp below above).1.col + offset else (walkUp below above).1.col) = d * offset
    ∧ ((walkUp below above).2 = below ∨ (walkUp below above).2.text = []) ∧
      ((∀ p ps, above = p :: ps → p.text ≠ []) → (walkUp below above).2 = below) := by
  induction h with
  | nil => intro h; exact absurd rfl h
  | first ht hc =>
    rename_i p
    intro _ below
    have ho : p.opens = false := by
      cases ho : p.opens with
      | false => rfl
      | true => exact absurd ((opens_iff p).mp ho) (by rw [ht]; exact not_opening_nil)
    simp [walkUp, ho, hc]
  | blank ht hd ih =>
    rename_i p q ps
    intro _ below
    have hb : p.blank = true := by simp [Line.blank, ht]
    obtain ⟨h1, h2, h3⟩ := ih (by simp) p
    simp only [walkUp, hb, if_true]
    refine ⟨h1, ?_, fun h => absurd ht (h p _ rfl)⟩
    rcases h2 with h2 | h2
    · right; rw [h2]; exact ht
    · right; exact h2
  | stay ht ho hc =>
    rename_i d p ps
    intro _ below
    have hb : p.blank = false := by simp [Line.blank, ht]
    have ho : p.opens = false := by
      cases h : p.opens with
      | false => rfl
      | true => exact absurd ((opens_iff p).mp h) ho
    cases ps with
    | nil => simp [walkUp, ho, hc]
    | cons q ps => simp [walkUp, hb, ho, hc]
  | deeper ht ho hc =>
    rename_i d p ps
    intro _ below
    have hb : p.blank = false := by simp [Line.blank, ht]
    have ho : p.opens = true := (opens_iff p).mpr ho
    cases ps with
    | nil => simp [walkUp, ho, hc, Nat.add_mul]
    | cons q ps => simp [walkUp, hb, ho, hc, Nat.add_mul]

theorem indentColumn_done {offset d : Nat} {above : List Line} (h : Done offset d above) (cur : Line)
    (hb : (∀ p ps, above = p :: ps → p.text ≠ []) ∨ ¬ Closing cur.text) :
    (¬ Closing cur.text → indentColumn offset above cur = d * offset) ∧
    (Closing cur.text → ∀ e, d = e + 1 → indentColumn offset above cur = e * offset) := by
  unfold indentColumn
  by_cases ha : above = []
  · subst ha
    cases h
    simp
  · obtain ⟨h1, h2, h3⟩ := walkUp_done h ha cur
    have hne : above.isEmpty = false := by simp [ha]
    simp only [hne, Bool.false_eq_true, if_false]
    refine ⟨fun hc => ?_, fun hc e he => ?_⟩
    · have : (walkUp cur above).2.closes = false := by
        cases hx : (walkUp cur above).2.closes with
        | false => rfl
        | true =>
          have hx := (closes_iff _).mp hx
          rcases h2 with h2 | h2
          · rw [h2] at hx; exact absurd hx hc
          · rw [h2] at hx; exact absurd hx not_closing_nil
      simp only [this, Bool.false_eq_true, if_false]
      exact h1
    · have hb := hb.resolve_right (fun h => h hc)
      have : (walkUp cur above).2.closes = true := by rw [h3 hb]; exact (closes_iff _).mpr hc
      simp only [this, if_true]
      rw [h1, he, Nat.add_mul]
      omega

/-- Each line that is not blank is at its depth. -/
def AtDepth (offset : Nat) : List Line → List Nat → Prop
  | [], [] => True
  | l :: ls, d :: ds => (l.text ≠ [] → l.col = d * offset) ∧ AtDepth offset ls ds
  | _, _ => False

theorem indentLines_spec {offset : Nat} : ∀ (ls : List Line) (d : Nat) (ds : List Nat) (above : List Line),
    Done offset d above → Depths d (ls.map (·.text)) ds → Compact (ls.map (·.text)) →
    (∀ l ls', ls = l :: ls' → (∀ p ps, above = p :: ps → p.text ≠ []) ∨ ¬ Closing l.text) →
    AtDepth offset (indentLines offset above ls) ds
  | [], d, ds, above, _, hd, _, _ => by cases hd; trivial
  | l :: ls, d, ds, above, hdone, hd, hc, hb => by
    have hcol := indentColumn_done hdone l (hb l ls rfl)
    have hc' : Compact (ls.map (·.text)) := by
      intro a t b he
      exact hc (l.text :: a) t b (by simp [he])
    have next : ∀ (l' : Line), l'.text = l.text → ∀ m ms, ls = m :: ms →
        (∀ p ps, l' :: above = p :: ps → p.text ≠ []) ∨ ¬ Closing m.text := by
      intro l' hl' m ms he
      by_cases ht : l.text = []
      · right
        exact hc [] m.text (ms.map (·.text)) (by simp [he, ht])
      · left
        intro p ps hp
        cases hp
        rw [hl']; exact ht
    rw [indentLines]
    by_cases ht : l.text = []
    · have hdd : ∃ ds', ds = d :: ds' ∧ Depths d (ls.map (·.text)) ds' := by
        rw [List.map_cons, ht] at hd
        cases hd with
        | plain _ _ h => exact ⟨_, rfl, h⟩
        | opening ho _ _ => exact absurd ho not_opening_nil
        | closing _ hx _ => exact absurd hx not_closing_nil
        | both ho _ _ => exact absurd ho not_opening_nil
      obtain ⟨ds', rfl, hd2⟩ := hdd
      have hlb : l.blank = true := by simp [Line.blank, ht]
      generalize hl' : (if l.blank && l.col = 0 then l else { l with col := indentColumn offset above l }) = l'
      have htext : l'.text = l.text := by rw [← hl']; split <;> rfl
      refine ⟨fun h => absurd (htext.trans ht) h, ?_⟩
      refine indentLines_spec ls d ds' (l' :: above) ?_ hd2 hc' (next l' htext)
      cases above with
      | nil =>
        have h0 : d = 0 := by cases hdone; rfl
        subst h0
        refine .first (htext.trans ht) ?_
        rw [← hl']
        split
        · rename_i h; simp at h; exact h.2
        · simp [indentColumn]
      | cons q ps => exact .blank (htext.trans ht) hdone
    · have hlb : l.blank = false := by simp [Line.blank, ht]
      simp only [hlb, Bool.false_and, Bool.false_eq_true, if_false]
      cases hd with
      | plain ho hx h =>
        exact ⟨fun _ => hcol.1 hx, indentLines_spec ls _ _ _ (.stay ht ho (hcol.1 hx)) h hc' (next _ rfl)⟩
      | opening ho hx h =>
        exact ⟨fun _ => hcol.1 hx, indentLines_spec ls _ _ _ (.deeper ht ho (hcol.1 hx)) h hc' (next _ rfl)⟩
      | closing ho hx h =>
        exact ⟨fun _ => hcol.2 hx _ rfl, indentLines_spec ls _ _ _ (.stay ht ho (hcol.2 hx _ rfl)) h hc' (next _ rfl)⟩
      | both ho hx h =>
        exact ⟨fun _ => hcol.2 hx _ rfl, indentLines_spec ls _ _ _ (.deeper ht ho (hcol.2 hx _ rfl)) h hc' (next _ rfl)⟩

theorem indentLines_text (offset : Nat) : ∀ (ls above : List Line),
    (indentLines offset above ls).map (·.text) = ls.map (·.text)
  | [], _ => rfl
  | l :: ls, above => by
    rw [indentLines]
    simp only [List.map_cons, indentLines_text offset ls]
    congr 1
    split <;> rfl

theorem atDepth_get {offset : Nat} : ∀ {ls : List Line} {ds : List Nat}, AtDepth offset ls ds →
    ds.length = ls.length ∧ ∀ (i : Nat) (l : Line) (d : Nat), ls[i]? = some l → ds[i]? = some d → l.text ≠ [] → l.col = d * offset
  | [], [], _ => ⟨rfl, by simp⟩
  | l :: ls, d :: ds, h => by
    obtain ⟨h1, h2⟩ := atDepth_get h.2
    refine ⟨by simp [h1], ?_⟩
    intro i m e hm he ht
    cases i with
    | zero => simp at hm he; subst hm; subst he; exact h.1 ht
    | succ i => exact h2 i m e (by simpa using hm) (by simpa using he) ht

end Styx.Editor.Emacs
