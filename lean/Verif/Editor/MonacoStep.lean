import Verif.Editor.MonacoPaint

/-!
# What one construct paints
-/

namespace Styx.Monaco

open Styx.Spec

theorem text_append (a b : Painted) : text (a ++ b) = text a ++ text b := by simp [text]

theorem text_ink (c : Scope) (s : List Char) : text (ink c s) = s := by simp [text, ink, Function.comp_def]

theorem text_inkLines (c : Scope) (s : List Char) : text (inkLines c s) = s := by
  simp [text, inkLines, Function.comp_def]

theorem text_inkBody (c : Scope) (s : List Char) : text (inkBody c s) = s := by
  fun_induction inkBody c s <;> simp_all [text]

theorem text_brk : text brk = ['\n'] := rfl

theorem ink_append (c : Scope) (a b : List Char) : ink c (a ++ b) = ink c a ++ ink c b := by simp [ink]

theorem inkLines_append (c : Scope) (a b : List Char) : inkLines c (a ++ b) = inkLines c a ++ inkLines c b := by
  simp [inkLines]

theorem inkLines_line (c : Scope) {a : List Char} (h : '\n' ∉ a) : inkLines c a = ink c a := by
  apply List.map_congr_left
  intro x hx
  have : x ≠ '\n' := fun he => h (he ▸ hx)
  simp [this]

theorem line_cons {c : Char} (h : c ≠ '\n') (t : List Char) : line (c :: t) = c :: line t := by simp [line, h]

/-! ## Characters -/

theorem blank_iff (c : Char) : blank c = true ↔ Blank c := by simp [blank, Blank]

theorem space_white {c : Char} (h : space c = true) (hf : c ≠ '\ufeff') : isWhitespace c = true := by
  have hr : ∀ x y : Char, x ≤ y ↔ x.toNat ≤ y.toNat := fun x y => by
    rw [Char.le_def, UInt32.le_iff_toNat_le]; rfl
  simp only [space, Bool.or_eq_true, beq_iff_eq, Bool.and_eq_true, decide_eq_true_eq, hr] at h
  rcases h with (((((((((((((h | h) | h) | h) | h) | h) | h) | h) | h) | h) | h) | h) | h) | h) | h
  all_goals first
    | exact absurd h hf
    | (subst h; decide)
    | (have h1 : 8192 ≤ c.toNat := h.1
       have h2 : c.toNat ≤ 8202 := h.2
       simp only [isWhitespace, Bool.or_eq_true, beq_iff_eq, Bool.and_eq_true, decide_eq_true_eq]
       omega)

theorem tagStart_iff (c : Char) : tagStart c = true ↔ c.isAlpha = true ∨ c = '_' := by
  simp only [tagStart, Char.isAlpha, Char.isUpper, Char.isLower, Bool.or_eq_true, beq_iff_eq, Bool.and_eq_true,
    decide_eq_true_eq, ge_iff_le, UInt32.le_iff_toNat_le, Char.toNat]
  rfl

theorem tagChar_iff (c : Char) : tagChar c = true ↔ c.isAlphanum = true ∨ c = '_' ∨ c = '-' := by
  simp only [tagChar, Bool.or_eq_true, tagStart_iff, Char.isAlphanum, beq_iff_eq, Char.isDigit, Bool.and_eq_true,
    decide_eq_true_eq, ge_iff_le, UInt32.le_iff_toNat_le, Char.toNat]
  constructor
  · rintro (((h | h) | h) | h)
    · exact .inl (.inl h)
    · exact .inr (.inl h)
    · exact .inl (.inr h)
    · exact .inr (.inr h)
  · rintro ((h | h) | h | h)
    · exact .inl (.inl (.inl h))
    · exact .inl (.inr h)
    · exact .inl (.inl (.inr h))
    · exact .inr h

theorem upper_iff (c : Char) : upper c = true ↔ c.isUpper = true := by
  simp only [upper, Char.isUpper, Bool.and_eq_true, decide_eq_true_eq, ge_iff_le, UInt32.le_iff_toNat_le, Char.toNat]
  rfl

theorem lower_iff (c : Char) : lower c = true ↔ c.isLower = true := by
  simp only [lower, Char.isLower, Bool.and_eq_true, decide_eq_true_eq, ge_iff_le, UInt32.le_iff_toNat_le, Char.toNat]
  rfl

theorem digit_iff (c : Char) : ((48 : Nat) ≤ c.toNat && c.toNat ≤ 57) = true ↔ c.isDigit = true := by
  simp only [Char.isDigit, Bool.and_eq_true, decide_eq_true_eq, ge_iff_le, UInt32.le_iff_toNat_le, Char.toNat]
  rfl

theorem delimChar_iff (c : Char) : delimChar c = true ↔ c.isUpper = true ∨ c.isDigit = true ∨ c = '_' := by
  simp only [delimChar, Bool.or_eq_true, upper_iff, digit_iff, beq_iff_eq, or_assoc]

theorem langChar_iff (c : Char) :
    langChar c = true ↔ c.isLower = true ∨ c.isDigit = true ∨ c = '_' ∨ c = '.' ∨ c = '-' := by
  simp only [langChar, Bool.or_eq_true, lower_iff, digit_iff, beq_iff_eq, or_assoc]

theorem takeWhile_all {p : Char → Bool} {w r : List Char} (hw : ∀ c ∈ w, p c = true)
    (hr : ∀ c u, r = c :: u → p c = false) : (w ++ r).takeWhile p = w := by
  rw [List.takeWhile_append_of_pos hw]
  cases r with
  | nil => simp
  | cons c u => simp [hr c u rfl]

theorem dropWhile_all {p : Char → Bool} {w r : List Char} (hw : ∀ c ∈ w, p c = true)
    (hr : ∀ c u, r = c :: u → p c = false) : (w ++ r).dropWhile p = r := by
  rw [List.dropWhile_append_of_pos hw]
  cases r with
  | nil => simp
  | cons c u => simp [hr c u rfl]

/-! ## Blanks, comments and delimiters -/

theorem mid_run {b : List Char} (hb : ∀ c ∈ b, Blank c) (hn : b ≠ []) {u : List Char}
    (hu : ∀ c v, u = c :: v → ¬ Blank c) (st : St) : mid st (b ++ u) = ink .white b ++ mid st u := by
  have hnl : '\n' ∉ b := fun h => by simpa [Blank] using hb _ h
  refine mid_one hnl hn u ?_
  obtain ⟨c, b, rfl⟩ : ∃ c b', b = c :: b' := by cases b with | nil => exact absurd rfl hn | cons c b => exact ⟨_, _, rfl⟩
  have hc := (blank_iff c).2 (hb c (by simp))
  simp only [List.cons_append, step, hc, if_true]
  rw [takeWhile_all (fun x hx => (blank_iff x).2 (hb x (by simp [hx])))]
  · simp [Nat.add_comm]
  · intro x v hx
    cases u with
    | nil => simp [line] at hx
    | cons y u =>
      by_cases hy : y = '\n'
      · subst hy; simp [line] at hx
      · rw [line_cons hy] at hx
        simp only [List.cons.injEq] at hx
        have := hu y u rfl
        rw [hx.1] at this
        simpa [← blank_iff] using this

theorem mid_blank {c : Char} (hc : Blank c) (st : St) (t : List Char) :
    mid st (c :: t) = (c, some .white) :: mid st t := by
  have ht : t = t.takeWhile blank ++ t.dropWhile blank := (List.takeWhile_append_dropWhile ..).symm
  have hb : ∀ x ∈ t.takeWhile blank, Blank x := fun x hx => (blank_iff x).1 (List.all_eq_true.1 List.all_takeWhile x hx)
  have hd : ∀ x v, t.dropWhile blank = x :: v → ¬ Blank x := by
    intro x v hx hbx
    have := List.head_dropWhile_not (p := blank) (l := t) (by simp [hx])
    simp [hx, (blank_iff x).2 hbx] at this
  have h1 := mid_run (b := c :: t.takeWhile blank) (u := t.dropWhile blank)
    (by intro x hx; exact (List.mem_cons.1 hx).elim (fun h => h ▸ hc) (hb x)) (by simp) hd st
  rw [List.cons_append, ← ht] at h1
  by_cases he : t.takeWhile blank = []
  · have : t.dropWhile blank = t := by rw [he, List.nil_append] at ht; exact ht.symm
    rw [h1, he, this]; rfl
  · have h2 := mid_run hb he hd st
    rw [← ht] at h2
    rw [h1, h2]; rfl

theorem mid_blanks {b : List Char} (hb : Blanks b) (st : St) (t : List Char) :
    mid st (b ++ t) = ink .white b ++ mid st t := by
  induction b with
  | nil => rfl
  | cons c b ih =>
    rw [List.cons_append, mid_blank (hb c (by simp)), ih (fun x hx => hb x (by simp [hx]))]
    rfl

theorem plain_dot {s : List Char} (hp : PlainText s) {c : Char} (hc : c ∈ s) (hn : c ≠ '\n') : dot c = true := by
  have := hp c hc
  simp [dot, hn, this]

theorem mid_comment {c : List Char} (hc : CommentText c) (hp : PlainText c) (st : St) {t : List Char} (ht : line t = []) :
    mid st (c ++ t) = ink .comment c ++ mid st t := by
  obtain ⟨r, rfl, hr, hh⟩ := hc
  refine mid_one (by simp; intro h; exact absurd rfl (hr _ h).1) (by simp) t ?_
  rw [ht, List.append_nil]
  have h1 : r.takeWhile dot = r := by
    have := takeWhile_all (w := r) (r := []) (p := dot) (fun x hx => plain_dot hp (by simp [hx]) (hr x hx).1) (by simp)
    simpa using this
  have h2 : ['/', '/', '/'].isPrefixOf ('/' :: '/' :: r) = false := by
    cases r with
    | nil => rfl
    | cons x r => simp at hh; simp [List.isPrefixOf]; exact fun h => hh h.symm
  have h3 : ['/', '/'].isPrefixOf ('/' :: '/' :: r) = true := rfl
  simp only [step, h2, h3, show blank '/' = false from rfl, List.drop_succ_cons, List.drop_zero, h1]
  simp
  omega

theorem mid_doc {r : List Char} (hr : ∀ c ∈ r, c ≠ '\n') (hp : PlainText r) (st : St) {t : List Char} (ht : line t = []) :
    mid st ('/' :: '/' :: '/' :: r ++ t) = ink .commentDoc ('/' :: '/' :: '/' :: r) ++ mid st t := by
  refine mid_one (w := '/' :: '/' :: '/' :: r) (by simp; intro h; exact absurd rfl (hr _ h)) (by simp) t ?_
  rw [ht, List.append_nil]
  have h1 : r.takeWhile dot = r := by
    have := takeWhile_all (w := r) (r := []) (p := dot) (fun x hx => plain_dot hp hx (hr x hx)) (by simp)
    simpa using this
  have h2 : ['/', '/', '/'].isPrefixOf ('/' :: '/' :: '/' :: r) = true := rfl
  simp only [step, h2, show blank '/' = false from rfl, List.drop_succ_cons, List.drop_zero, h1]
  simp
  omega

theorem mid_comma (st : St) (t : List Char) :
    mid st (',' :: t) = (',', some .delimiterComma) :: mid (if inObject st then { st with phase := .key } else st) t :=
  mid_one (w := [',']) (by simp) (by simp) t (by simp [step, blank])

theorem mid_openCurly (st : St) (t : List Char) :
    mid st ('{' :: t) = ('{', some .delimiterCurly) :: mid { st with stack := .object :: st.stack, phase := .key } t :=
  mid_one (w := ['{']) (by simp) (by simp) t (by simp [step, blank])

theorem mid_closeCurly (st : St) (t : List Char) :
    mid st ('}' :: t) = ('}', some .delimiterCurly) :: mid (closed st) t :=
  mid_one (w := ['}']) (by simp) (by simp) t (by simp [step, blank])

theorem mid_openParen (st : St) (t : List Char) :
    mid st ('(' :: t) = ('(', some .delimiterParen) :: mid { st with stack := .sequence :: st.stack } t :=
  mid_one (w := ['(']) (by simp) (by simp) t (by simp [step, blank])

theorem mid_closeParen (st : St) (t : List Char) :
    mid st (')' :: t) = (')', some .delimiterParen) :: mid (closed st) t :=
  mid_one (w := [')']) (by simp) (by simp) t (by simp [step, blank])

/-! ## States -/

theorem atomType_word (st : St) : atomType st false = wordColour (isKey st) := by
  unfold atomType wordColour isKey
  cases inObject st <;> cases h : st.phase <;> simp

theorem atomType_tag (st : St) : atomType st true = tagColour (isKey st) := by
  unfold atomType tagColour isKey
  cases inObject st <;> cases h : st.phase <;> simp

theorem afterAtom_stack (st : St) : (afterAtom st).stack = st.stack := by
  unfold afterAtom; repeat' split
  all_goals rfl

theorem afterAtom_calm {st : St} (h : Calm st) : Calm (afterAtom st) := by
  unfold afterAtom; repeat' split
  all_goals exact ⟨h.1, h.2, h.3⟩

theorem afterAtom_key {st : St} (h : isKey st = true) : (afterAtom st).phase = .value := by
  simp only [isKey, Bool.and_eq_true, beq_iff_eq] at h
  simp [afterAtom, h.1, h.2]

theorem endLine_stack (st : St) : (endLine st).stack = st.stack := by unfold endLine; split <;> rfl

theorem endLine_calm {st : St} (h : Calm st) : Calm (endLine st) := by
  unfold endLine; split
  · exact ⟨h.1, h.2, h.3⟩
  · exact h

theorem inObject_congr {a b : St} (h : a.stack = b.stack) : inObject a = inObject b := by simp [inObject, h]

end Styx.Monaco
