import Verif.Editor.CodeMirror
import Verif.Editor.HeredocAgree

/-!
# CodeMirror's heredoc token and the tokenizer's heredocs
-/

namespace Styx.CodeMirror

open Styx Styx.Spec Styx.Editor

theorem delimiterStart_eq : delimiterStart = Char.isUpper := by
  funext c
  simp only [delimiterStart, Char.isUpper, UInt32.le_iff_toNat_le]
  rfl

theorem delimiterChar_eq : delimiterChar = isDelimChar := by
  funext c
  simp only [delimiterChar, isDelimChar, Char.isUpper, Char.isDigit, UInt32.le_iff_toNat_le]
  have h : (c == '_') = decide (c.toNat = 95) := by
    rw [Bool.eq_iff_iff]; simp only [beq_iff_eq, decide_eq_true_eq]
    exact ⟨fun h => by rw [h]; rfl, fun h => Char.toNat_inj.1 h⟩
  rw [h]
  simp only [Bool.decide_or, Bool.or_assoc, Bool.decide_and]
  rfl

theorem langStart_eq : langStart = Char.isLower := by
  funext c
  simp only [langStart, Char.isLower, UInt32.le_iff_toNat_le, Bool.decide_and]
  rfl

theorem langHintChar_eq : langHintChar = isLangChar := by
  funext c
  simp only [langHintChar, isLangChar, Char.isLower, Char.isDigit, UInt32.le_iff_toNat_le]
  have h : ∀ d : Char, (c == d) = decide (c.toNat = d.toNat) := by
    intro d
    rw [Bool.eq_iff_iff]; simp only [beq_iff_eq, decide_eq_true_eq]
    exact ⟨fun h => by rw [h], fun h => Char.toNat_inj.1 h⟩
  rw [h, h, h]
  simp only [Bool.decide_or, Bool.or_assoc, Bool.decide_and]
  rfl

theorem isInLine_eq : isInLine = inLine := by
  funext c
  simp [isInLine, inLine, bne]

theorem skipHint_eq (s : List Char) : skipHint s = (scanLang s).2 := by
  unfold skipHint scanLang
  split
  · rename_i s
    rw [langStart_eq, langHintChar_eq]
    cases s with
    | nil => rfl
    | cons c s =>
      by_cases hc : c.isLower = true
      · have : isLangChar c = true := by simp [isLangChar, hc]
        simp [hc, this]
      · simp [hc]
  · rename_i h
    split
    · rename_i s; exact absurd rfl (h s)
    · rfl

theorem skipBreak_eq (s : List Char) : skipBreak s = (scanNewlineOpt s).2 := by
  unfold skipBreak
  cases s with
  | nil => rfl
  | cons c s =>
    by_cases h1 : c = '\r'
    · subst h1
      cases s with
      | nil => rfl
      | cons d s =>
        by_cases h2 : d = '\n'
        · subst h2; rfl
        · have : scanNewlineOpt ('\r' :: d :: s) = (['\r'], d :: s) := by
            unfold scanNewlineOpt
            split <;> simp_all
          rw [this]
          simp [h2]
    by_cases h2 : c = '\n'
    · subst h2; rfl
    · have : scanNewlineOpt (c :: s) = ([], c :: s) := by
        unfold scanNewlineOpt; split <;> simp_all
      rw [this]
      simp [h1, h2]

theorem stepOver_spec (d : List Char) (hd : ∀ c ∈ d, isDelimChar c = true) : ∀ s : List Char,
    match stripPrefix d s with
    | some r => stepOver d s = (true, r)
    | none => ∃ p r, s = p ++ r ∧ (∀ c ∈ p, inLine c = true) ∧ stepOver d s = (false, r) := by
  induction d with
  | nil => intro s; simp [stripPrefix, stepOver]
  | cons c d ih =>
    intro s
    have ih := ih (fun x hx => hd x (List.mem_cons_of_mem _ hx))
    have hl := (delimChar_byte (hd c (List.mem_cons_self ..))).2.2.2
    cases s with
    | nil => exact ⟨[], [], rfl, nofun, rfl⟩
    | cons x s =>
      by_cases hx : c = x
      · subst hx
        have := ih s
        simp only [stripPrefix, if_true, stepOver]
        split
        · rename_i r hr; rw [hr] at this; exact this
        · rename_i hr
          rw [hr] at this
          obtain ⟨p, r, h1, h2, h3⟩ := this
          refine ⟨c :: p, r, by rw [h1]; rfl, ?_, h3⟩
          intro y hy
          rcases List.mem_cons.1 hy with rfl | hy
          · exact hl
          · exact h2 y hy
      · have hx' : ¬ x = c := fun h => hx h.symm
        simp only [stripPrefix, hx, if_false, stepOver, hx']
        exact ⟨[], x :: s, rfl, nofun, rfl⟩

/-- The test of a line is the tokenizer's. -/
theorem line_test {d : List Char} (hd : ∀ c ∈ d, isDelimChar c = true) {s : List Char} (hp : PairedCR s) :
    match findDelim d s with
    | some i => stepOver d (s.dropWhile isBlank) = (true, s.drop (i + d.length)) ∧
        atLineEnd (s.drop (i + d.length)) = true
    | none => ∃ b p r, stepOver d (s.dropWhile isBlank) = (b, r) ∧ (b && atLineEnd r) = false ∧
        s = p ++ r ∧ ∀ c ∈ p, inLine c = true := by
  have hm := stepOver_spec d hd (s.dropWhile isBlank)
  have hsplit : s = s.takeWhile isBlank ++ s.dropWhile isBlank :=
    (List.takeWhile_append_dropWhile ..).symm
  have hbl : ∀ c ∈ s.takeWhile isBlank, inLine c = true := by
    intro c hc
    rcases (isBlank_iff c).1 (mem_takeWhile hc) with rfl | rfl <;> rfl
  unfold findDelim
  simp only
  cases hs : stripPrefix d (s.dropWhile isBlank) with
  | none =>
    rw [hs] at hm
    obtain ⟨p, r, h1, h2, h3⟩ := hm
    refine ⟨false, s.takeWhile isBlank ++ p, r, h3, rfl, ?_, ?_⟩
    · rw [List.append_assoc, ← h1, ← hsplit]
    · intro c hc
      rcases List.mem_append.1 hc with hc | hc
      · exact hbl c hc
      · exact h2 c hc
  | some r =>
    rw [hs] at hm
    have hr := stripPrefix_some.1 hs
    have htest : atLineEnd r = (r.isEmpty || startsWith r ['\n'] || startsWith r ['\r', '\n']) := by
      have hpr : PairedCR r := by
        refine hp.suffix ⟨s.takeWhile isBlank ++ d, ?_⟩
        rw [List.append_assoc, ← hr, ← hsplit]
      unfold atLineEnd
      cases r with
      | nil => rfl
      | cons c cs =>
        by_cases h1 : c = '\n'
        · subst h1; simp [startsWith, stripPrefix]
        by_cases h2 : c = '\r'
        · subst h2
          obtain ⟨r', rfl⟩ := hpr.cr
          simp [startsWith, stripPrefix]
        · have h1' : ¬ '\n' = c := fun h => h1 h.symm
          have h2' : ¬ '\r' = c := fun h => h2 h.symm
          simp [startsWith, stripPrefix, h1, h2, h1', h2']
    simp only
    rw [← htest]
    have hdrop : s.drop ((s.takeWhile isBlank).length + d.length) = r := by
      conv => lhs; arg 2; rw [hsplit, hr]
      rw [← List.append_assoc, ← List.length_append, List.drop_left]
    by_cases ht : atLineEnd r = true
    · rw [if_pos ht]
      simp only [hdrop]
      exact ⟨hm, ht⟩
    · rw [if_neg ht]
      refine ⟨true, s.takeWhile isBlank ++ d, r, hm, by simpa using ht, ?_, ?_⟩
      · rw [List.append_assoc, ← hr, ← hsplit]
      · intro c hc
        rcases List.mem_append.1 hc with hc | hc
        · exact hbl c hc
        · exact (delimChar_byte (hd c hc)).2.2.2

theorem skip_line {u : List Char} (hp : PairedCR u) :
    ('\n' ∉ u ∧ skipBreak (u.dropWhile isInLine) = []) ∨
    ∃ line r, u = line ++ '\n' :: r ∧ '\n' ∉ line ∧ skipBreak (u.dropWhile isInLine) = r := by
  rw [isInLine_eq]
  rcases line_end hp with ⟨h1, h2⟩ | ⟨line, r, h1, h2, h3⟩
  · left; exact ⟨h1, by rw [h2]; rfl⟩
  · right
    refine ⟨line, r, h1, h2, ?_⟩
    rcases h3 with h3 | h3 <;> rw [h3] <;> rfl

/-- Where the lines end. -/
theorem lines_spec {d : List Char} (hd : ∀ c ∈ d, isDelimChar c = true) (hne : d ≠ []) :
    ∀ (f : Nat) (s : List Char), s.length < f → PairedCR s →
      lines d f s = match tokDoc d s with | some (_, _, rest) => rest | none => [] := by
  intro f
  induction f with
  | zero => intro s h; omega
  | succ f ih =>
    intro s hl hp
    unfold lines
    cases s with
    | nil => simp [tokDoc, findDelim_nil hne, scanHeredoc]
    | cons x xs =>
      generalize hs : x :: xs = s at *
      have he : s.isEmpty = false := by rw [← hs]; rfl
      rw [he]
      simp only [Bool.false_eq_true, if_false]
      have ht := line_test hd hp
      unfold tokDoc
      cases hf : findDelim d s with
      | some i =>
        rw [hf] at ht
        simp only [ht.1, ht.2, Bool.and_self, if_true]
      | none =>
        rw [hf] at ht
        obtain ⟨b, p, r, h1, h2, h3, h4⟩ := ht
        simp only [h1, h2, Bool.false_eq_true, if_false]
        have hpr : PairedCR r := hp.suffix ⟨p, h3.symm⟩
        have hpn : '\n' ∉ p := by intro hm; have := h4 _ hm; simp [inLine] at this
        rcases skip_line hpr with ⟨h5, h6⟩ | ⟨line, r', h5, h6, h7⟩
        · have : (scanHeredoc d s).2 = ([], none) := by
            apply scanHeredoc_last d hne
            rw [h3]
            intro hm
            rcases List.mem_append.1 hm with hm | hm
            · exact hpn hm
            · exact h5 hm
          rw [h6, show scanHeredoc d s = ((scanHeredoc d s).1, [], none) by rw [← this]]
          cases f with
          | zero => rfl
          | succ f => rfl
        · rw [h7]
          have hu : s = (p ++ line) ++ '\n' :: r' := by rw [h3, h5]; simp
          have hln : '\n' ∉ p ++ line := by
            intro hm
            rcases List.mem_append.1 hm with hm | hm
            · exact hpn hm
            · exact h6 hm
          have hsc := Styx.Editor.scanHeredoc_line d (p ++ line) r' hln
          rw [← hu] at hsc
          rw [ih r' (by rw [hu] at hl; simp only [List.length_append, List.length_cons] at hl; omega)
            (hp.suffix ⟨p ++ line ++ ['\n'], by rw [hu]; simp⟩), hsc]
          unfold tokDoc
          cases findDelim d r' with
          | some i => rfl
          | none => cases scanHeredoc d r' with | mk a q => obtain ⟨b, i⟩ := q; cases i <;> rfl

/-- The token, in terms of the tokenizer's helpers. -/
theorem heredocToken_eq {e : List Char} (hu : e.head?.any Char.isUpper = true) (hp : PairedCR e) :
    heredocToken ('<' :: '<' :: e) =
      if (scanNewlineOpt (scanLang (e.dropWhile isDelimChar)).2).1 = [] then none
      else some (match tokDoc (e.takeWhile isDelimChar)
          (scanNewlineOpt (scanLang (e.dropWhile isDelimChar)).2).2 with
        | some (_, _, rest) => rest
        | none => []) := by
  have hpw : PairedCR (scanLang (e.dropWhile isDelimChar)).2 :=
    (hp.suffix (List.dropWhile_suffix _)).suffix ⟨_, scanLang_append _⟩
  have hall : ∀ c ∈ e.takeWhile isDelimChar, isDelimChar c = true := fun c hc => mem_takeWhile hc
  have hne : e.takeWhile isDelimChar ≠ [] := by
    cases e with
    | nil => simp at hu
    | cons x xs =>
      simp at hu
      have : isDelimChar x = true := (isDelimChar_iff x).mpr (Or.inl hu)
      simp [this]
  unfold heredocToken
  simp only [delimiterStart_eq, delimiterChar_eq, hu, if_true, skipHint_eq, skipBreak_eq]
  have hz := newlineOpt_nil hpw
  by_cases h : (scanNewlineOpt (scanLang (e.dropWhile isDelimChar)).2).1 = []
  · rw [if_pos h, if_neg (by have := hz.1 h; grind)]
  · rw [if_neg h, if_pos (by
      apply Classical.byContradiction
      intro hh
      exact h (hz.2 (by grind)))]
    rw [lines_spec hall hne _ _ (Nat.lt_succ_self _) (hpw.suffix ⟨_, scanNewlineOpt_append _⟩)]

theorem heredocToken_none {text : List Char}
    (h : ¬ ∃ e, text = '<' :: '<' :: e ∧ e.head?.any Char.isUpper = true) : heredocToken text = none := by
  unfold heredocToken
  split
  · rename_i e
    rw [if_neg]
    intro hh
    rw [delimiterStart_eq] at hh
    exact h ⟨e, rfl, hh⟩
  · rfl

end Styx.CodeMirror
