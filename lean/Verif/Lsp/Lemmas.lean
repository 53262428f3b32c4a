import Verif.Lsp.Spec
import Verif.Tokenizer.RunLemmas

/-!
# Lemmas on positions and the formatting edit (C39, C41, C51, C52)
-/

namespace Styx.Lsp

open Styx Styx.Spec

/-- The position after one more character, as the code counts. -/
def step (p : Position) (c : Char) : Position :=
  if c = '\n' then ⟨p.line + 1, 0⟩ else ⟨p.line, p.character + 1⟩

/-- The position after a text, as the code counts. -/
def advance : Position → List Char → Position
  | p, [] => p
  | p, c :: cs => advance (step p c) cs

theorem utf8Size_pos' (c : Char) : 1 ≤ c.utf8Size := c.utf8Size_pos

theorem utf8Len_eq_zero {s : List Char} (h : utf8Len s = 0) : s = [] := by
  cases s with
  | nil => rfl
  | cons c cs => simp only [utf8Len] at h; have := utf8Size_pos' c; omega

theorem offsetLoop_eq (pre post : List Char) : ∀ i p,
    offsetLoop (i + utf8Len pre) (pre ++ post) i p = advance p pre := by
  induction pre with
  | nil => intro i p; cases post <;> simp [offsetLoop, advance, utf8Len]
  | cons c cs ih =>
    intro i p
    have hc := utf8Size_pos' c
    simp only [List.cons_append, offsetLoop, advance, utf8Len]
    rw [if_neg (by omega), ← Nat.add_assoc, ih]
    rfl

theorem offsetToPosition_eq (pre post : List Char) :
    offsetToPosition (pre ++ post) (utf8Len pre) = advance ⟨0, 0⟩ pre := by
  have := offsetLoop_eq pre post 0 ⟨0, 0⟩
  simpa [offsetToPosition] using this

theorem advance_le (s : List Char) : ∀ p, p.line < (advance p s).line ∨
    (p.line = (advance p s).line ∧ p.character ≤ (advance p s).character) := by
  induction s with
  | nil => intro p; exact .inr ⟨rfl, Nat.le_refl _⟩
  | cons c cs ih =>
    intro p
    have := ih (step p c)
    simp only [advance]
    unfold step at *
    split at * <;> simp_all <;> omega

theorem positionLoop_eq (pre post : List Char) : ∀ i q,
    positionLoop (advance q pre) (pre ++ post) i q = i + utf8Len pre := by
  induction pre with
  | nil => intro i q; cases post <;> simp [positionLoop, advance, utf8Len]
  | cons c cs ih =>
    intro i q
    have hle := advance_le cs (step q c)
    simp only [List.cons_append, positionLoop, advance, utf8Len]
    by_cases hc : c = '\n'
    · simp only [step, if_pos hc] at hle ⊢
      rw [if_neg (by omega), if_neg (by omega)]
      have := ih (i + c.utf8Size) (step q c)
      simp only [step, if_pos hc] at this
      rw [this]; omega
    · simp only [step, if_neg hc] at hle ⊢
      rw [if_neg (by omega)]
      have := ih (i + c.utf8Size) (step q c)
      simp only [step, if_neg hc] at this
      rw [this]; omega

theorem advance_append (a b : List Char) : ∀ p, advance p (a ++ b) = advance (advance p a) b := by
  induction a with
  | nil => intro p; rfl
  | cons c cs ih => intro p; simp only [List.cons_append, advance, ih]

theorem advance_noNl (l : List Char) (h : '\n' ∉ l) : ∀ p,
    advance p l = ⟨p.line, p.character + l.length⟩ := by
  induction l with
  | nil => intro p; rfl
  | cons c cs ih =>
    intro p
    simp only [List.mem_cons, not_or] at h
    have hc : c ≠ '\n' := fun e => h.1 e.symm
    simp only [advance, ih h.2, step, if_neg hc, List.length_cons]
    congr 1; omega

theorem advance_line (l : List Char) : ∀ p, (advance p l).line = p.line + l.count '\n' := by
  induction l with
  | nil => intro p; rfl
  | cons c cs ih =>
    intro p
    simp only [advance, ih, step, List.count_cons]
    by_cases hc : c = '\n'
    · simp [hc]; omega
    · simp [hc]

theorem advance_lines {a l : List Char} (ha : a = [] ∨ a.getLast? = some '\n') (hl : '\n' ∉ l) :
    advance ⟨0, 0⟩ (a ++ l) = ⟨a.count '\n', l.length⟩ := by
  rw [advance_append, advance_noNl l hl]
  have h1 := advance_line a ⟨0, 0⟩
  rcases ha with rfl | ha
  · simp [advance]
  · obtain ⟨b, rfl⟩ : ∃ b, a = b ++ ['\n'] := by
      rw [List.getLast?_eq_some_iff] at ha; exact ha
    rw [h1]
    simp [advance_append, advance, step]

/-! ## Agreement with the protocol -/

theorem afterLine_suffix : (s : List Char) → afterLine s <:+ s
  | [] => by simp [afterLine]
  | '\r' :: '\n' :: r => by
    simp only [afterLine]; exact ⟨['\r', '\n'], rfl⟩
  | c :: r => by
    unfold afterLine
    split
    · exact List.nil_suffix
    · rename_i h; cases h; exact ⟨['\r', '\n'], rfl⟩
    · rename_i c' r' _ h
      cases h
      split
      · exact List.suffix_cons _ _
      · exact (afterLine_suffix r).trans (List.suffix_cons _ _)

theorem fromLine_suffix : ∀ n (s : List Char), fromLine n s <:+ s
  | 0, _ => List.suffix_rfl
  | n + 1, s => (fromLine_suffix n _).trans (afterLine_suffix s)

theorem fromColumn_suffix : ∀ n (s : List Char), fromColumn n s <:+ s
  | _, [] => by simp [fromColumn]
  | n, c :: r => by
    unfold fromColumn
    split
    · exact List.suffix_rfl
    · exact (fromColumn_suffix _ r).trans (List.suffix_cons _ _)

theorem fromPosition_suffix (s : List Char) (p : Position) : fromPosition s p <:+ s :=
  (fromColumn_suffix _ _).trans (fromLine_suffix _ _)

theorem fromLine_nil : ∀ n, fromLine n [] = []
  | 0 => rfl
  | n + 1 => by simp [fromLine, afterLine, fromLine_nil n]

theorem afterLine_cons {c : Char} (h1 : c ≠ '\n') (h2 : c ≠ '\r') (r : List Char) :
    afterLine (c :: r) = afterLine r := by
  rw [afterLine.eq_def]
  split
  · rename_i h; cases h
  · rename_i h; cases h; exact absurd rfl h2
  · rename_i h; cases h; simp [h1, h2]

theorem afterLine_nl (r : List Char) : afterLine ('\n' :: r) = r := by
  rw [afterLine.eq_def]; simp

/-- Text in which the code counts like the protocol: no carriage return, and every character is one
UTF-16 unit. -/
def Simple (s : List Char) : Prop := ∀ c ∈ s, c ≠ '\r' ∧ utf16Units c = 1

theorem positionLoop_fromPosition (p : Position) (s : List Char) (hs : Simple s) : ∀ i (q : Position),
    (q.line < p.line →
      positionLoop p s i q + utf8Len (fromPosition s ⟨p.line - q.line, p.character⟩) = i + utf8Len s) ∧
    (q.line = p.line → q.character ≤ p.character →
      positionLoop p s i q + utf8Len (fromPosition s ⟨0, p.character - q.character⟩) = i + utf8Len s) := by
  induction s with
  | nil =>
    intro i q
    simp [positionLoop, fromPosition, fromLine_nil, fromColumn, utf8Len]
  | cons c cs ih =>
    intro i q
    have hc := hs c (by simp)
    have ih := ih (fun d hd => hs d (by simp [hd]))
    constructor
    · intro hlt
      simp only [positionLoop]
      rw [if_neg (by omega)]
      obtain ⟨k, hk⟩ : ∃ k, p.line - q.line = k + 1 := ⟨p.line - q.line - 1, by omega⟩
      by_cases hn : c = '\n'
      · subst hn
        rw [if_pos rfl, if_neg (by omega)]
        have hf : fromPosition ('\n' :: cs) ⟨p.line - q.line, p.character⟩ =
            fromPosition cs ⟨k, p.character⟩ := by
          simp only [fromPosition, hk, fromLine, afterLine_nl]
        rw [hf]
        by_cases hk0 : k = 0
        · have := (ih (i + '\n'.utf8Size) ⟨q.line + 1, 0⟩).2 (by simp; omega) (by simp)
          simp only [Nat.sub_zero] at this
          rw [hk0, this]; simp only [utf8Len]; omega
        · have := (ih (i + '\n'.utf8Size) ⟨q.line + 1, 0⟩).1 (by simp; omega)
          have hk' : p.line - (q.line + 1) = k := by omega
          simp only [hk'] at this
          rw [this]; simp only [utf8Len]; omega
      · rw [if_neg hn]
        have hf : fromPosition (c :: cs) ⟨p.line - q.line, p.character⟩ =
            fromPosition cs ⟨p.line - q.line, p.character⟩ := by
          simp only [fromPosition, hk, fromLine, afterLine_cons hn hc.1]
        have := (ih (i + c.utf8Size) ⟨q.line, q.character + 1⟩).1 hlt
        rw [hf, this]; simp only [utf8Len]; omega
    · intro heq hle
      simp only [positionLoop, heq, true_and, fromPosition, fromLine]
      by_cases hq : q.character = p.character
      · rw [if_pos hq]; simp [hq, fromColumn]
      · rw [if_neg hq]
        by_cases hn : c = '\n'
        · rw [if_pos hn, if_pos trivial]; simp [hn, fromColumn]
        · rw [if_neg hn]
          have := (ih (i + c.utf8Size) ⟨p.line, q.character + 1⟩).2 rfl (by simp; omega)
          have hf : fromColumn (p.character - q.character) (c :: cs) =
              fromColumn (p.character - (q.character + 1)) cs := by
            rw [fromColumn.eq_def]
            simp only [hn, hc.1, or_false, hc.2]
            rw [if_neg (by omega)]
            congr 1
          rw [hf]
          simp only [fromPosition, fromLine] at this
          rw [this]; simp only [utf8Len]; omega

theorem positionToOffset_fromPosition (s : List Char) (hs : Simple s) (p : Position) :
    positionToOffset s p + utf8Len (fromPosition s p) = utf8Len s := by
  have h := positionLoop_fromPosition p s hs 0 ⟨0, 0⟩
  rcases Nat.eq_zero_or_pos p.line with h0 | h0
  · have := h.2 h0.symm (Nat.zero_le _)
    have hp : p = ⟨0, p.character - 0⟩ := by cases p; simp_all
    rw [← hp] at this
    simpa [positionToOffset] using this
  · have := h.1 h0
    simpa [positionToOffset] using this

theorem suffix_of_utf8Len {a b s : List Char} (ha : a <:+ s) (hb : b <:+ s) (h : utf8Len a = utf8Len b) :
    a = b := by
  rcases List.suffix_or_suffix_of_suffix ha hb with ⟨t, rfl⟩ | ⟨t, rfl⟩
  · rw [utf8Len_append] at h
    have : t = [] := utf8Len_eq_zero (by omega)
    simp [this]
  · rw [utf8Len_append] at h
    have : t = [] := utf8Len_eq_zero (by omega)
    simp [this]

/-! ## The formatting edit -/

theorem fromColumn_all (l r : List Char) (hl : '\n' ∉ l ∧ '\r' ∉ l)
    (hr : r = [] ∨ r.head? = some '\n' ∨ r.head? = some '\r') :
    ∀ n, utf8Len l ≤ n → fromColumn n (l ++ r) = r := by
  induction l with
  | nil =>
    intro n _
    cases r with
    | nil => simp [fromColumn]
    | cons c cs =>
      have : n = 0 ∨ c = '\n' ∨ c = '\r' := by simp_all
      simp [fromColumn, this]
  | cons c cs ih =>
    intro n hn
    simp only [List.mem_cons, not_or] at hl
    simp only [utf8Len] at hn
    have h1 : c ≠ '\n' := fun e => hl.1.1 e.symm
    have h2 : c ≠ '\r' := fun e => hl.2.1 e.symm
    have hp := utf8Size_pos' c
    have hu : utf16Units c ≤ c.utf8Size := by
      have hsz : c.utf8Size = if c.val ≤ 0x7f then 1 else if c.val ≤ 0x7ff then 2 else if c.val ≤ 0xffff then 3 else 4 := rfl
      unfold utf16Units
      split
      · exact hp
      · rename_i hge
        have : c.val.toNat = c.toNat := rfl
        simp only [UInt32.le_iff_toNat_le] at hsz
        have e1 : (127 : UInt32).toNat = 127 := rfl
        have e2 : (2047 : UInt32).toNat = 2047 := rfl
        have e3 : (65535 : UInt32).toNat = 65535 := rfl
        rw [e1, e2, e3] at hsz
        rw [this] at hsz
        simp only [show ¬ c.toNat ≤ 127 by omega, show ¬ c.toNat ≤ 2047 by omega,
          show ¬ c.toNat ≤ 65535 by omega, if_false] at hsz
        omega
    simp only [List.cons_append]
    rw [fromColumn.eq_def]
    simp only [h1, h2, or_false]
    rw [if_neg (by omega)]
    exact ih ⟨hl.1.2, hl.2.2⟩ _ (by omega)

theorem linesFrom_noNl (s : List Char) (h : '\n' ∉ s) : ∀ cur,
    linesFrom cur s = if cur ++ s = [] then [] else [cur ++ s] := by
  induction s with
  | nil => intro cur; simp [linesFrom]
  | cons c cs ih =>
    intro cur
    simp only [List.mem_cons, not_or] at h
    have hc : c ≠ '\n' := fun e => h.1 e.symm
    simp only [linesFrom, if_neg hc, ih h.2]
    simp

theorem linesFrom_line (l rest : List Char) (h : '\n' ∉ l) : ∀ cur,
    linesFrom cur (l ++ '\n' :: rest) = dropCr (cur ++ l) :: linesFrom [] rest := by
  induction l with
  | nil => intro cur; simp [linesFrom]
  | cons c cs ih =>
    intro cur
    simp only [List.mem_cons, not_or] at h
    have hc : c ≠ '\n' := fun e => h.1 e.symm
    simp only [List.cons_append, linesFrom, if_neg hc, ih h.2]
    simp

theorem lines_ne_nil {s : List Char} (h : s ≠ []) : lines s ≠ [] := by
  by_cases hn : '\n' ∈ s
  · obtain ⟨l, r, rfl, hl⟩ := List.append_of_mem hn |> fun _ => List.eq_append_cons_of_mem hn
    rw [lines, linesFrom_line _ _ hl]; simp
  · rw [lines, linesFrom_noNl _ hn]; simp [h]

theorem afterLine_line (l : List Char) (h : '\n' ∉ l ∧ '\r' ∉ l) (t r : List Char)
    (ht : t = ['\n'] ∨ t = ['\r', '\n']) : afterLine (l ++ t ++ r) = r := by
  induction l with
  | nil => rcases ht with rfl | rfl <;> simp [afterLine]
  | cons c cs ih =>
    simp only [List.mem_cons, not_or] at h
    have h1 : c ≠ '\n' := fun e => h.1.1 e.symm
    have h2 : c ≠ '\r' := fun e => h.2.1 e.symm
    simp only [List.cons_append, afterLine_cons h1 h2]
    exact ih ⟨h.1.2, h.2.2⟩

/-- The first line of a text without lone carriage returns. -/
theorem line_split {l rest : List Char} (hl : '\n' ∉ l) (h : ¬ LoneCr (l ++ '\n' :: rest)) :
    ∃ l' t, l ++ ['\n'] = l' ++ t ∧ (t = ['\n'] ∨ t = ['\r', '\n']) ∧ '\n' ∉ l' ∧ '\r' ∉ l' ∧
      dropCr l = l' := by
  by_cases hcr : '\r' ∈ l
  · obtain ⟨a, b, rfl, ha⟩ := List.eq_append_cons_of_mem hcr
    have hb : b = [] := by
      cases b with
      | nil => rfl
      | cons d b =>
        exfalso; apply h
        refine ⟨a, d :: b ++ '\n' :: rest, by simp, ?_⟩
        simp only [List.cons_append, List.head?_cons, ne_eq, Option.some.injEq]
        rintro rfl; simp at hl
    subst hb
    refine ⟨a, ['\r', '\n'], by simp, .inr rfl, ?_, ha, ?_⟩
    · intro hm; apply hl; simp [hm]
    · simp [dropCr]
  · refine ⟨l, ['\n'], rfl, .inl rfl, hl, hcr, ?_⟩
    have : l.getLast? ≠ some '\r' := fun e => hcr (List.mem_of_getLast? e)
    simp [dropCr, this]

theorem not_lone_tail {a b : List Char} (h : ¬ LoneCr (a ++ b)) : ¬ LoneCr b := by
  rintro ⟨pre, post, rfl, hp⟩
  exact h ⟨a ++ pre, post, by simp, hp⟩

theorem last2 {l : List Char} {x y : Char} (h : [x, y] <:+ l) : l.getLast? = some y := by
  obtain ⟨t, rfl⟩ := h; simp

theorem finalTerminator_tail (a rest : List Char) (hr : rest ≠ []) :
    finalTerminator (a ++ '\n' :: rest) = finalTerminator rest := by
  have h1 : ['\n'] <:+ a ++ '\n' :: rest ↔ ['\n'] <:+ rest := by
    constructor
    · rintro ⟨t, ht⟩
      have h := congrArg List.getLast? ht
      obtain ⟨r, x, rfl⟩ : ∃ r x, rest = r ++ [x] :=
        ⟨rest.dropLast, rest.getLast hr, (List.dropLast_concat_getLast hr).symm⟩
      have : x = '\n' := by
        rw [show a ++ '\n' :: (r ++ [x]) = (a ++ '\n' :: r) ++ [x] by simp] at h
        rw [List.getLast?_concat, List.getLast?_concat] at h; exact (Option.some.inj h).symm
      subst this
      exact ⟨r, rfl⟩
    · rintro ⟨t, rfl⟩; exact ⟨a ++ '\n' :: t, by simp⟩
  have h2 : ['\r', '\n'] <:+ a ++ '\n' :: rest ↔ ['\r', '\n'] <:+ rest := by
    constructor
    · intro h
      rcases List.suffix_or_suffix_of_suffix h (⟨a ++ ['\n'], by simp⟩ : rest <:+ a ++ '\n' :: rest) with h' | h'
      · exact h'
      · obtain ⟨t, ht⟩ := h'
        match t, ht with
        | [], ht => simp at ht; subst ht; exact List.suffix_rfl
        | [x], ht =>
          simp at ht
          obtain ⟨rfl, rfl⟩ := ht
          obtain ⟨u, hu⟩ := h
          have := congrArg (fun l => l.reverse) hu
          simp at this
        | _ :: _ :: _, ht => simp at ht; exact absurd ht.2.2.2 hr
    · rintro ⟨t, rfl⟩; exact ⟨a ++ '\n' :: t, by simp⟩
  unfold finalTerminator
  simp only [h1, h2]

theorem end_position : (n : Nat) → (s : List Char) → s.length ≤ n → ¬ LoneCr s →
    fromPosition s ⟨(lines s).length - 1, ((lines s).getLast?.map utf8Len).getD 0⟩ = finalTerminator s
  | 0, s, hn, _ => by
    have : s = [] := List.length_eq_zero_iff.mp (by omega)
    subst this
    simp [lines, linesFrom, fromPosition, fromLine, fromColumn, finalTerminator]
  | n + 1, s, hn, h => by
    by_cases hnl : '\n' ∈ s
    · obtain ⟨l, rest, rfl, hl⟩ := List.eq_append_cons_of_mem hnl
      obtain ⟨l', t, hlt, ht, h1, h2, hd⟩ := line_split hl h
      have hs : l ++ '\n' :: rest = l' ++ t ++ rest := by rw [← hlt]; simp
      have hls : lines (l ++ '\n' :: rest) = l' :: lines rest := by
        rw [lines, linesFrom_line _ _ hl]; simp only [List.nil_append, hd]; rfl
      by_cases hr : rest = []
      · subst hr
        rw [hls, hs]
        simp only [lines, linesFrom, List.append_nil]
        simp only [fromPosition, List.length_singleton, Nat.sub_self, fromLine, List.getLast?_singleton,
          Option.map_some, Option.getD_some, if_true]
        rw [fromColumn_all _ _ ⟨h1, h2⟩ (by rcases ht with rfl | rfl <;> simp) _ (Nat.le_refl _)]
        rcases ht with rfl | rfl
        · have : ¬ ['\r', '\n'] <:+ l' ++ ['\n'] := by
            rintro ⟨u, hu⟩
            have hu' : (u ++ ['\r']) ++ ['\n'] = l' ++ ['\n'] := by rw [← hu]; simp
            rw [List.append_cancel_right_eq] at hu'
            exact h2 (by rw [← hu']; simp)
          simp [finalTerminator, this]
        · simp [finalTerminator]
      · have hne := lines_ne_nil hr
        have ih := end_position n rest (by simp at hn; omega) (not_lone_tail (a := l ++ ['\n']) (by simpa using h))
        rw [finalTerminator_tail _ _ hr, ← ih, hls]
        obtain ⟨k, hk⟩ : ∃ k, (lines rest).length = k + 1 :=
          ⟨(lines rest).length - 1, by have := List.length_pos_iff.mpr hne; omega⟩
        have hg : (l' :: lines rest).getLast? = (lines rest).getLast? := by
          rw [List.getLast?_cons]
          cases hgl : (lines rest).getLast? with
          | none => rw [List.getLast?_eq_none_iff] at hgl; exact absurd hgl hne
          | some x => rfl
        simp only [fromPosition, List.length_cons, hk, hg, Nat.add_sub_cancel, fromLine]
        rw [hs, afterLine_line l' ⟨h1, h2⟩ t rest ht]
    · have hcr : '\r' ∉ s := by
        intro hm
        obtain ⟨a, b, rfl, ha⟩ := List.eq_append_cons_of_mem hm
        apply h
        refine ⟨a, b, rfl, ?_⟩
        intro hb
        cases b with
        | nil => cases hb
        | cons d b => simp at hb; subst hb; simp at hnl
      rw [lines, linesFrom_noNl _ hnl]
      have hft : finalTerminator s = [] := by
        have e1 : ¬ ['\r', '\n'] <:+ s := fun ⟨t, ht⟩ => hnl (by rw [← ht]; simp)
        have e2 : ¬ ['\n'] <:+ s := fun ⟨t, ht⟩ => hnl (by rw [← ht]; simp)
        simp [finalTerminator, e1, e2]
      rw [hft]
      by_cases he : s = []
      · subst he; simp [fromPosition, fromLine, fromColumn]
      · simp only [List.nil_append, he, if_false, List.length_singleton, fromPosition, fromLine,
          List.getLast?_singleton, Option.map_some, Option.getD_some, Nat.sub_self]
        have := fromColumn_all s [] ⟨hnl, hcr⟩ (.inl rfl) _ (Nat.le_refl _)
        simpa using this

/-! ## The extension host -/

theorem takeBytes_app (pre post : List Char) :
    Styx.takeBytes (utf8Len pre) (pre ++ post) = some pre := by
  induction pre with
  | nil => simp [utf8Len, Styx.takeBytes]
  | cons c cs ih =>
    have hc := utf8Size_pos' c
    obtain ⟨k, hk⟩ : ∃ k, utf8Len (c :: cs) = k + 1 := ⟨utf8Len (c :: cs) - 1, by simp [utf8Len]; omega⟩
    have hk2 : k + 1 = c.utf8Size + utf8Len cs := by rw [← hk]; rfl
    rw [hk, List.cons_append, Styx.takeBytes, if_pos (by omega)]
    rw [show k + 1 - c.utf8Size = utf8Len cs by omega, ih]
    rfl

theorem lastLine_eq {a l : List Char} (ha : a = [] ∨ a.getLast? = some '\n') (hl : '\n' ∉ l) :
    lastLine (a ++ l) = l := by
  induction a with
  | nil => cases l with
    | nil => rfl
    | cons c cs =>
      simp only [List.mem_cons, not_or] at hl
      have hc : c ≠ '\n' := fun e => hl.1 e.symm
      simp [lastLine, hl.2, hc]
  | cons c cs ih =>
    rcases ha with ha | ha
    · cases ha
    · by_cases hcs : cs = []
      · subst hcs
        simp at ha; subst ha
        simp [lastLine, hl]
      · have hg : cs.getLast? = some '\n' := by
          rw [List.getLast?_cons] at ha
          cases h : cs.getLast? with
          | none => rw [List.getLast?_eq_none_iff] at h; exact absurd h hcs
          | some x => simp [h] at ha; rw [ha]
        have hm : '\n' ∈ cs ++ l := by simp [List.mem_of_getLast? hg]
        simp only [List.cons_append, lastLine, if_pos hm]
        exact ih (.inr hg)

theorem hostColumn_eq (l post : List Char) (hl : '\n' ∉ l) : ∀ k off,
    hostColumn (k + l.length) (l ++ post) k off = off + utf8Len l := by
  induction l with
  | nil => intro k off; cases post <;> simp [hostColumn, utf8Len]
  | cons c cs ih =>
    intro k off
    simp only [List.mem_cons, not_or] at hl
    have hc : c ≠ '\n' := fun e => hl.1 e.symm
    simp only [List.cons_append, hostColumn, List.length_cons, utf8Len, if_neg hc]
    rw [if_neg (by omega), show k + (cs.length + 1) = (k + 1) + cs.length by omega, ih hl.2]
    omega

theorem hostPositionLoop_eq (a s : List Char) (ha : a = [] ∨ a.getLast? = some '\n') (hs : s ≠ [])
    (ch : Nat) : ∀ line off,
    hostPositionLoop ⟨line + a.count '\n', ch⟩ (a ++ s) line off =
      some (hostColumn ch s 0 (off + utf8Len a)) := by
  induction a with
  | nil =>
    intro line off
    cases s with
    | nil => exact absurd rfl hs
    | cons c cs => simp [hostPositionLoop, utf8Len]
  | cons c cs ih =>
    intro line off
    have ha' : (c :: cs).getLast? = some '\n' := by rcases ha with h | h; cases h; exact h
    have hm : '\n' ∈ c :: cs := List.mem_of_getLast? ha'
    have hpos : 0 < (c :: cs).count '\n' := List.count_pos_iff.mpr hm
    simp only [List.cons_append, hostPositionLoop]
    rw [if_neg (by omega)]
    have hcs : cs = [] ∨ cs.getLast? = some '\n' := by
      by_cases h : cs = []
      · exact .inl h
      · right
        rw [List.getLast?_cons] at ha'
        cases hg : cs.getLast? with
        | none => rw [List.getLast?_eq_none_iff] at hg; exact absurd hg h
        | some x => simp [hg] at ha'; rw [ha']
    have hl : line + (c :: cs).count '\n' = (if c = '\n' then line + 1 else line) + cs.count '\n' := by
      by_cases hc : c = '\n'
      · subst hc; simp; omega
      · simp [hc]
    rw [hl, ih hcs]
    simp only [utf8Len]
    congr 2; omega

theorem utf8Len_ascii (l : List Char) (h : ∀ c ∈ l, c.utf8Size = 1) : utf8Len l = l.length := by
  induction l with
  | nil => rfl
  | cons c cs ih =>
    simp only [utf8Len, List.length_cons, h c (by simp), ih (fun d hd => h d (by simp [hd]))]
    omega

end Styx.Lsp
