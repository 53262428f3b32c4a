import Verif.Editor.RawAgree

/-!
# Heredocs in the editor's scanner
-/

namespace Styx.Editor

open Styx.Spec

theorem isDelimiterStart_eq (c : Char) : isDelimiterStart c = c.isUpper := by
  simp [isDelimiterStart, Char.isUpper, Char.le_def, UInt32.le_iff_toNat_le]

theorem isDelimiterChar_eq (c : Char) : isDelimiterChar c = isDelimChar c := by
  simp [isDelimiterChar, isDelimChar, Char.isUpper, Char.isDigit, Char.le_def, UInt32.le_iff_toNat_le]

theorem isLangHintStart_eq (c : Char) : isLangHintStart c = c.isLower := by
  simp [isLangHintStart, Char.isLower, Char.le_def, UInt32.le_iff_toNat_le]

theorem isLangHintChar_eq (c : Char) : isLangHintChar c = isLangChar c := by
  simp [isLangHintChar, isLangChar, Char.isLower, Char.isDigit, Char.le_def, UInt32.le_iff_toNat_le]

theorem _root_.Styx.Spec.PairedCR.suffix {a b : List Char} (h : PairedCR b) (hs : a <:+ b) : PairedCR a := by
  obtain ⟨c, rfl⟩ := hs
  intro x y hxy
  exact h (c ++ x) y (by rw [hxy]; simp)

theorem _root_.Styx.Spec.PairedCR.tail {c : Char} {cs : List Char} (h : PairedCR (c :: cs)) : PairedCR cs :=
  h.suffix (List.suffix_cons ..)

theorem _root_.Styx.Spec.PairedCR.cr {cs : List Char} (h : PairedCR ('\r' :: cs)) : ∃ r, cs = '\n' :: r :=
  h [] cs rfl

/-- Delimiter characters are stored as they are. -/
theorem delimChar_byte {c : Char} (h : isDelimChar c = true) :
    (UInt8.ofNat c.toNat).toNat = c.toNat ∧ c.toNat ≠ 0 ∧ isBlank c = false ∧ inLine c = true := by
  have h1 : c.toNat < 128 ∧ c.toNat ≠ 0 := by
    rcases (isDelimChar_iff c).1 h with h | h | rfl
    · rw [← isDelimiterStart_eq] at h
      simp only [isDelimiterStart, decide_eq_true_eq, Char.le_def, UInt32.le_iff_toNat_le] at h
      have h1 : 65 ≤ c.toNat := h.1
      have h2 : c.toNat ≤ 90 := h.2
      omega
    · simp only [Char.isDigit, Bool.and_eq_true, decide_eq_true_eq, UInt32.le_iff_toNat_le] at h
      have h1 : 48 ≤ c.toNat := h.1
      have h2 : c.toNat ≤ 57 := h.2
      omega
    · decide
  have hne : ∀ d : Char, isDelimChar d = false → c ≠ d := by
    intro d hd he; subst he; rw [h] at hd; cases hd
  refine ⟨?_, h1.2, ?_, ?_⟩
  · rw [UInt8.toNat_ofNat']; exact Nat.mod_eq_of_lt (by omega)
  · simp [isBlank, hne ' ' (by decide), hne '\t' (by decide)]
  · simp [inLine, hne '\n' (by decide), hne '\r' (by decide)]

/-- The bytes of a delimiter. -/
def delimBytes (d : List Char) : List UInt8 := d.map fun c => UInt8.ofNat c.toNat

/-- Stepping over the delimiter. -/
theorem matchDelim_spec (d : List Char) (hd : ∀ c ∈ d, isDelimChar c = true) : ∀ l : Lexer,
    match stripPrefix d l.here with
    | some r => matchDelim (delimBytes d) l = (true, { l with here := r })
    | none => ∃ p r, l.here = p ++ r ∧ (∀ c ∈ p, inLine c = true) ∧
        matchDelim (delimBytes d) l = (false, { l with here := r }) := by
  induction d with
  | nil => intro l; simp [stripPrefix, delimBytes, matchDelim]
  | cons c d ih =>
    intro l
    obtain ⟨hb, h0, _, hl⟩ := delimChar_byte (hd c (List.mem_cons_self ..))
    have ih := ih (fun x hx => hd x (List.mem_cons_of_mem _ hx))
    obtain ⟨start, here, mark⟩ := l
    cases here with
    | nil =>
      simp only [stripPrefix]
      refine ⟨[], [], rfl, nofun, ?_⟩
      simp [delimBytes, matchDelim, hb]
      intro h; exact absurd h.symm h0
    | cons x xs =>
      by_cases hx : c = x
      · subst hx
        have := ih ⟨start, xs, mark⟩
        simp only [stripPrefix, if_true]
        simp only at this
        have hstep : matchDelim (delimBytes (c :: d)) ⟨start, c :: xs, mark⟩ =
            matchDelim (delimBytes d) ⟨start, xs, mark⟩ := by
          simp [delimBytes, matchDelim, hb, Lexer.advance]
        rw [hstep]
        split
        · rename_i r hr; rw [hr] at this; exact this
        · rename_i hr
          rw [hr] at this
          obtain ⟨p, r, h1, h2, h3⟩ := this
          refine ⟨c :: p, r, by rw [h1]; rfl, ?_, h3⟩
          intro y hy
          rcases List.mem_cons.1 hy with rfl | hy
          · exact hl
          · exact h2 y hy
      · simp only [stripPrefix, hx, if_false]
        refine ⟨[], x :: xs, rfl, nofun, ?_⟩
        have : x.toNat ≠ c.toNat := fun h => hx (Char.toNat_inj.1 h.symm)
        simp [delimBytes, matchDelim, hb, this]

/-- A line of a text with paired carriage returns: the text after it. -/
theorem line_end {u : List Char} (hp : PairedCR u) :
    ('\n' ∉ u ∧ u.dropWhile inLine = []) ∨
    ∃ line r, u = line ++ '\n' :: r ∧ '\n' ∉ line ∧
      (u.dropWhile inLine = '\n' :: r ∨ u.dropWhile inLine = '\r' :: '\n' :: r) := by
  induction u with
  | nil => left; simp
  | cons c cs ih =>
    by_cases h1 : c = '\n'
    · right; exact ⟨[], cs, by rw [h1]; rfl, nofun, .inl (by simp [h1, inLine])⟩
    by_cases h2 : c = '\r'
    · subst h2
      obtain ⟨r, rfl⟩ := hp.cr
      right
      exact ⟨['\r'], r, rfl, by decide, .inr (by simp [inLine])⟩
    · have hc : inLine c = true := by simp [inLine, h1, h2]
      rcases ih hp.tail with ⟨h3, h4⟩ | ⟨line, r, h3, h4, h5⟩
      · left
        refine ⟨?_, by simp [hc, h4]⟩
        intro h
        rcases List.mem_cons.1 h with h | h
        · exact h1 h.symm
        · exact h3 h
      · right
        refine ⟨c :: line, r, by rw [h3]; rfl, ?_, by simpa [hc] using h5⟩
        intro h
        rcases List.mem_cons.1 h with h | h
        · exact h1 h.symm
        · exact h4 h

theorem findDelim_nil {d : List Char} (hd : d ≠ []) : findDelim d [] = none := by
  cases d with
  | nil => exact absurd rfl hd
  | cons c d => rfl

theorem scanHeredoc_line (d : List Char) (line r : List Char) (hl : '\n' ∉ line) :
    scanHeredoc d (line ++ '\n' :: r) =
      match findDelim d r with
      | some i => (line ++ ['\n'], r, some i)
      | none => (line ++ '\n' :: (scanHeredoc d r).1, (scanHeredoc d r).2.1, (scanHeredoc d r).2.2) := by
  induction line with
  | nil =>
    simp only [List.nil_append, scanHeredoc, true_or, if_true]
    cases findDelim d r <;> rfl
  | cons c line ih =>
    have h1 : c ≠ '\n' := fun h => hl (h ▸ List.mem_cons_self ..)
    have h2 : '\n' ∉ line := fun h => hl (List.mem_cons_of_mem _ h)
    simp only [List.cons_append, scanHeredoc]
    rw [if_neg (by simp [h1]), ih h2]
    cases findDelim d r <;> rfl

theorem scanHeredoc_last (d : List Char) (hd : d ≠ []) (u : List Char) (hu : '\n' ∉ u) :
    (scanHeredoc d u).2 = ([], none) := by
  induction u with
  | nil => rfl
  | cons c u ih =>
    have h1 : c ≠ '\n' := fun h => hu (h ▸ List.mem_cons_self ..)
    have h2 := ih (fun h => hu (List.mem_cons_of_mem _ h))
    simp only [scanHeredoc]
    split
    · rename_i h
      rcases h with h | h
      · exact absurd h h1
      · subst h
        rw [findDelim_nil hd]
        simp [h2]
    · simp [h2]

/-- The delimiter test of the loop is the tokenizer's. -/
theorem delim_test {d : List Char} (hd : ∀ c ∈ d, isDelimChar c = true) (l : Lexer)
    (hp : PairedCR l.here) :
    match findDelim d l.here with
    | some i => ∃ l1, matchDelim (delimBytes d) (l.advanceWhile isBlank) = (true, l1) ∧
        (l1.here.isEmpty || l1.here.head? == some '\n' || l1.here.head? == some '\r') = true ∧
        l1 = { l with here := l.here.drop (i + d.length) }
    | none => ∃ b p r, matchDelim (delimBytes d) (l.advanceWhile isBlank) = (b, { l with here := r }) ∧
        (b && (r.isEmpty || r.head? == some '\n' || r.head? == some '\r')) = false ∧
        l.here = p ++ r ∧ ∀ c ∈ p, inLine c = true := by
  have hm := matchDelim_spec d hd (l.advanceWhile isBlank)
  have hsplit : l.here = l.here.takeWhile isBlank ++ l.here.dropWhile isBlank :=
    (List.takeWhile_append_dropWhile ..).symm
  have hbl : ∀ c ∈ l.here.takeWhile isBlank, inLine c = true := by
    intro c hc
    rcases (isBlank_iff c).1 (mem_takeWhile hc) with rfl | rfl <;> rfl
  simp only [Lexer.advanceWhile] at hm ⊢
  unfold findDelim
  simp only
  cases hs : stripPrefix d (l.here.dropWhile isBlank) with
  | none =>
    rw [hs] at hm
    obtain ⟨p, r, h1, h2, h3⟩ := hm
    refine ⟨false, l.here.takeWhile isBlank ++ p, r, h3, rfl, ?_, ?_⟩
    · rw [List.append_assoc, ← h1, ← hsplit]
    · intro c hc
      rcases List.mem_append.1 hc with hc | hc
      · exact hbl c hc
      · exact h2 c hc
  | some r =>
    rw [hs] at hm
    have hr := stripPrefix_some.1 hs
    have htest : (r.isEmpty || r.head? == some '\n' || r.head? == some '\r') =
        (r.isEmpty || startsWith r ['\n'] || startsWith r ['\r', '\n']) := by
      have hpr : PairedCR r := by
        refine hp.suffix ⟨l.here.takeWhile isBlank ++ d, ?_⟩
        rw [List.append_assoc, ← hr, ← hsplit]
      cases r with
      | nil => rfl
      | cons c cs =>
        by_cases h1 : c = '\n'
        · subst h1; simp [startsWith, stripPrefix]
        by_cases h2 : c = '\r'
        · subst h2
          obtain ⟨r', rfl⟩ := hpr.cr
          simp [startsWith, stripPrefix]
        · have h1' : ¬ '\n' = c := fun h => h1 h.symm
          have h2' : ¬ '\r' = c := fun h => h2 h.symm
          simp [startsWith, stripPrefix, h1, h2, h1', h2']
    simp only
    rw [← htest]
    by_cases ht : (r.isEmpty || r.head? == some '\n' || r.head? == some '\r') = true
    · rw [if_pos ht]
      refine ⟨_, hm, ht, ?_⟩
      have : l.here.drop ((l.here.takeWhile isBlank).length + d.length) = r := by
        conv => lhs; arg 2; rw [hsplit, hr]
        rw [← List.append_assoc, ← List.length_append, List.drop_left]
      simp [this]
    · rw [if_neg ht]
      refine ⟨true, l.here.takeWhile isBlank ++ d, r, hm, by simpa using ht, ?_, ?_⟩
      · rw [List.append_assoc, ← hr, ← hsplit]
      · intro c hc
        rcases List.mem_append.1 hc with hc | hc
        · exact hbl c hc
        · exact (delimChar_byte (hd c hc)).2.2.2

theorem advance_line (st : List Char) (u : List Char) (m : Option (List Char)) (hp : PairedCR u) :
    ('\n' ∉ u ∧ (((⟨st, u, m⟩ : Lexer).advanceWhile inLine).advanceIf '\r').advanceIf '\n' = ⟨st, [], m⟩) ∨
    ∃ line r, u = line ++ '\n' :: r ∧ '\n' ∉ line ∧
      (((⟨st, u, m⟩ : Lexer).advanceWhile inLine).advanceIf '\r').advanceIf '\n' = ⟨st, r, m⟩ := by
  rcases line_end hp with ⟨h1, h2⟩ | ⟨line, r, h1, h2, h3⟩
  · left
    exact ⟨h1, by simp [Lexer.advanceWhile, h2, Lexer.advanceIf]⟩
  · right
    refine ⟨line, r, h1, h2, ?_⟩
    rcases h3 with h3 | h3 <;> simp [Lexer.advanceWhile, h3, Lexer.advanceIf, Lexer.advance]

theorem dropWhile_all {p : Char → Bool} {a b : List Char} (h : ∀ c ∈ a, p c = true) :
    (a ++ b).dropWhile p = b.dropWhile p := by
  induction a with
  | nil => rfl
  | cons c a ih =>
    simp only [List.cons_append, List.dropWhile_cons, h c (List.mem_cons_self ..), if_true]
    exact ih fun x hx => h x (List.mem_cons_of_mem _ hx)

/-- What the loop inside a heredoc finds. -/
theorem heredocLoop_spec (s : Scanner) {d : List Char} (hd : ∀ c ∈ d, isDelimChar c = true) (hne : d ≠ []) :
    ∀ (f : Nat) (has : Bool) (l : Lexer), l.here.length < f → PairedCR l.here →
    match findDelim d l.here with
    | some i =>
      if has = true then ∃ h, heredocLoop s (delimBytes d) f has l =
        .ok (some .heredocContent, s, ⟨l.start, h, some l.here⟩)
      else ∃ h, heredocLoop s (delimBytes d) f has l =
        .ok (some .heredocEnd, { s with inHeredoc := false },
          ⟨l.start, h, some (l.here.drop (i + d.length))⟩)
    | none => ∃ h, heredocLoop s (delimBytes d) f has l =
        .ok (some .heredocContent, s, ⟨l.start, h, some (scanHeredoc d l.here).2.1⟩) := by
  intro f
  induction f with
  | zero => intro has l h; omega
  | succ f ih =>
    intro has l hl hp
    have ht := delim_test hd l.markEnd hp
    rw [show l.markEnd.here = l.here from rfl] at ht
    simp only [heredocLoop]
    cases hf : findDelim d l.here with
    | some i =>
      rw [hf] at ht
      obtain ⟨l1, h1, h2, h3⟩ := ht
      simp only [h1, h2, Bool.and_self, if_true]
      subst h3
      cases has
      · exact ⟨_, rfl⟩
      · exact ⟨_, rfl⟩
    | none =>
      rw [hf] at ht
      obtain ⟨b, p, r, h1, h2, h3, h4⟩ := ht
      simp only [h1, h2, Bool.false_eq_true, if_false]
      rw [show ({ l.markEnd with here := r } : Lexer) = ⟨l.start, r, some l.here⟩ from rfl]
      have hpr : PairedCR r := hp.suffix ⟨p, h3.symm⟩
      rcases advance_line l.start r (some l.here) hpr with ⟨h5, h6⟩ | ⟨line, r', h5, h6, h7⟩
      · rw [h6]
        simp only [List.isEmpty_nil, if_true]
        have : (scanHeredoc d l.here).2 = ([], none) := by
          apply scanHeredoc_last d hne
          rw [h3]
          intro hm
          rcases List.mem_append.1 hm with hm | hm
          · have := h4 _ hm; simp [inLine] at this
          · exact h5 hm
        rw [this]
        exact ⟨_, rfl⟩
      · rw [h7]
        have hu : l.here = (p ++ line) ++ '\n' :: r' := by rw [h3, h5]; simp
        have hln : '\n' ∉ p ++ line := by
          intro hm
          rcases List.mem_append.1 hm with hm | hm
          · have := h4 _ hm; simp [inLine] at this
          · exact h6 hm
        have hsc := scanHeredoc_line d (p ++ line) r' hln
        rw [← hu] at hsc
        cases r' with
        | nil =>
          rw [findDelim_nil hne] at hsc
          rw [hsc]
          exact ⟨_, rfl⟩
        | cons c cs =>
          simp only [List.isEmpty_cons, Bool.false_eq_true, if_false]
          have := ih true ⟨l.start, c :: cs, some (c :: cs)⟩
            (by simp only; rw [hu] at hl; simp only [List.length_append, List.length_cons] at hl ⊢; omega)
            (hp.suffix ⟨p ++ line ++ ['\n'], by rw [hu]; simp⟩)
          simp only [if_true] at this
          cases hf2 : findDelim d (c :: cs) with
          | some i => rw [hf2] at this hsc; rw [hsc]; exact this
          | none => rw [hf2] at this hsc; rw [hsc]; exact this

end Styx.Editor
