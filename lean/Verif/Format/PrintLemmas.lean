import Verif.Format.PrintSpec
import Verif.Parse.EscapeLemmas
import Verif.Parse.HeredocLemmas

/-! # Lemmas: the formatter writes the texts of the values -/

namespace Styx

open Styx.Spec

/-! ## Scalars -/

theorem bareText_of_canBeBare {s : List Char} (h : canBeBare s = true) (hgt : '>' ∉ s) : BareText s := by
  unfold canBeBare at h
  split at h
  · cases h
  · rename_i hne
    split at h
    · cases h
    · rename_i hp
      simp only [Bool.or_eq_true, not_or] at hp
      have hall : ∀ c ∈ s, bareSpecial c = false ∧ isWhitespace c = false := by
        intro c hc
        have := h
        simp at this
        exact this c hc
      refine ⟨?_, ?_⟩
      · intro c hc
        obtain ⟨h1, h2⟩ := hall c hc
        have h3 : c ≠ '>' := fun e => hgt (e ▸ hc)
        simp only [bareSpecial, Bool.or_eq_false_iff, beq_eq_false_iff_ne] at h1
        refine ⟨?_, h2⟩
        simp [bareForbidden, h3, h1]
      · cases s with
        | nil => simp at hne
        | cons c r =>
          obtain ⟨h1, -⟩ := hall c (by simp)
          simp only [bareSpecial, Bool.or_eq_false_iff, beq_eq_false_iff_ne] at h1
          refine ⟨c, r, rfl, by simp [h1], ?_, ?_, ?_⟩
          · rintro ⟨rfl, hr⟩
            apply hp.1.1
            cases r with
            | nil => simp at hr
            | cons d r =>
              simp only [List.head?_cons, Option.some.injEq] at hr
              simp [startsWith, stripPrefix, hr]
          · rintro ⟨rfl, hr⟩
            apply hp.1.2
            cases r with
            | nil => simp at hr
            | cons d r =>
              simp only [List.head?_cons, Option.some.injEq] at hr
              simp [startsWith, stripPrefix, hr]
          · rintro ⟨rfl, hr⟩
            apply hp.2
            cases r with
            | nil => simp at hr
            | cons d r =>
              simp only [List.head?_cons, Option.some.injEq] at hr
              simp [startsWith, stripPrefix, hr]

theorem quotedText_scalar (s : List Char) : ScalarText s .quoted .closed (quotedText s) :=
  .quoted (escapeQuoted_body s) (escapeQuoted_escaped s)

theorem contains_iff {p s : List Char} : contains p s = true ↔ p <:+: s := by
  induction s with
  | nil => simp [contains]
  | cons c s ih =>
    rw [contains, Bool.or_eq_true, startsWith_iff, ih, List.infix_cons_iff]
    exact or_congr ⟨fun ⟨r, h⟩ => ⟨r, h.symm⟩, fun ⟨r, h⟩ => ⟨r, h.symm⟩⟩ Iff.rfl

theorem rawText_scalar {s : List Char} (h : contains ['"', '#'] s = false) :
    ScalarText s .raw .closed (rawText s) := by
  have key : ∀ n, n ≤ 255 → contains ('"' :: List.replicate n '#') s = false →
      ScalarText s .raw .closed ('r' :: List.replicate n '#' ++ '"' :: s ++ '"' :: List.replicate n '#') := by
    intro n hn hc
    refine .raw hn ?_
    intro a b e
    have : contains ('"' :: List.replicate n '#') s = true := contains_iff.2 ⟨a, b, by rw [e]⟩
    rw [this] at hc; cases hc
  unfold rawText
  by_cases h0 : contains ['"'] s = true
  · have hn : rawHashes s (s.length + 1) 0 = 1 := by
      cases s with
      | nil => simp [contains] at h0
      | cons c s =>
        rw [rawHashes, if_pos (by simpa using h0)]
        rw [List.length_cons, rawHashes, if_neg (by simpa using h)]
    rw [hn]
    exact key 1 (by omega) (by simpa using h)
  · have hn : rawHashes s (s.length + 1) 0 = 0 := by
      rw [rawHashes, if_neg (by simpa using h0)]
    rw [hn]
    exact key 0 (by omega) (by simpa using h0)

/-- A text that ends with a line break consists of complete lines. -/
theorem complete_lines {s : List Char} (h : s.getLast? = some '\n') :
    ∃ ls, s = unlines ls ∧ ∀ l ∈ ls, '\n' ∉ l := by
  obtain ⟨a, rfl⟩ : ∃ a, s = a ++ ['\n'] := by
    have hne : s ≠ [] := by rintro rfl; simp at h
    rw [List.getLast?_eq_some_getLast hne] at h
    refine ⟨s.dropLast, ?_⟩
    have := List.dropLast_concat_getLast hne
    rw [Option.some.inj h] at this
    exact this.symm
  clear h
  suffices H : ∀ l : List Char, '\n' ∉ l → ∃ ls, l ++ a ++ ['\n'] = unlines ls ∧ ∀ l ∈ ls, '\n' ∉ l from by
    simpa using H [] (by simp)
  induction a with
  | nil =>
    intro l hl
    exact ⟨[l], by simp [unlines], by simpa using hl⟩
  | cons c a ih =>
    intro l hl
    by_cases hc : c = '\n'
    · subst hc
      obtain ⟨ls, h1, h2⟩ := ih [] (by simp)
      refine ⟨l :: ls, ?_, ?_⟩
      · rw [unlines_cons, ← h1]; simp
      · intro x hx
        rcases List.mem_cons.1 hx with rfl | hx
        · exact hl
        · exact h2 x hx
    · obtain ⟨ls, h1, h2⟩ := ih (l ++ [c]) (by simp [hl, Ne.symm hc])
      exact ⟨ls, by simpa using h1, h2⟩

theorem heredocDelimiters_ok : ∀ d ∈ heredocDelimiters, Delimiter d := by
  intro d hd
  simp only [heredocDelimiters, List.mem_cons, List.not_mem_nil, or_false] at hd
  rcases hd with rfl | rfl | rfl | rfl | rfl | rfl <;> exact ⟨_, _, rfl, by decide, by decide, by decide⟩

theorem heredocText_scalar {s : List Char} (hs : s.getLast? = some '\n')
    (hd : ∃ d ∈ heredocDelimiters, ¬ d <:+: s) : ScalarText s .heredoc .line (heredocText s) := by
  obtain ⟨ls, rfl, hls⟩ := complete_lines hs
  obtain ⟨d, hd1, hd2⟩ : ∃ d ∈ heredocDelimiters, heredocDelimiter (unlines ls) = d ∧ ¬ d <:+: unlines ls := by
    unfold heredocDelimiter
    cases hf : heredocDelimiters.find? fun d => !contains d (unlines ls) with
    | none =>
      exfalso
      rw [List.find?_eq_none] at hf
      obtain ⟨d, h1, h2⟩ := hd
      apply h2
      have := hf d h1
      exact contains_iff.1 (by simpa using this)
    | some d =>
      refine ⟨d, List.mem_of_find?_eq_some hf, rfl, ?_⟩
      have := List.find?_some hf
      intro hc
      rw [contains_iff.2 hc] at this
      cases this
  have := ScalarText.heredoc (d := d) (lang := []) (nl := ['\n']) (ind := []) (ls := ls)
    (heredocDelimiters_ok d hd1) (.inl rfl) (.inl rfl) (by simp [Blanks]) (by
      intro l hl
      refine ⟨hls l hl, ?_⟩
      rintro ⟨ind, -, h⟩
      apply hd2.2
      have hin : l <:+: unlines ls := by
        obtain ⟨a, b, rfl⟩ := List.append_of_mem hl
        exact ⟨unlines a, '\n' :: unlines b, by simp [unlines]⟩
      have hdl : d <:+: l := by
        rcases h with rfl | rfl
        · exact ⟨ind, [], by simp⟩
        · exact ⟨ind, ['\r'], by simp⟩
      exact hdl.trans hin)
  have hmap : ls.map (dedentLine ([] : List Char).length) = ls := by
    simp only [List.length_nil]
    have : dedentLine 0 = id := funext dedentLine_zero
    rw [this, List.map_id]
  rw [hmap] at this
  unfold heredocText
  rw [hd2.1, if_pos hs]
  simpa using this

/-- The text chosen for a string is one of that string. -/
theorem scalarText_ok {o : FormatOptions} {line : Bool} {s : List Char} (h : PlainString o line s) (fq : Bool) :
    ∃ k e, ScalarText s k e (scalarText o fq s) ∧ (e = .closed ∨ e = .word ∨ (e = .line ∧ line = true)) := by
  unfold scalarText
  split
  · rename_i hb
    simp only [Bool.and_eq_true] at hb
    exact ⟨_, _, .bare (bareText_of_canBeBare hb.2 (h.1 hb.2)), .inr (.inl rfl)⟩
  · split
    · rename_i hn
      rcases h.2 with h2 | ⟨h2, h3, h4⟩
      · omega
      · exact ⟨_, _, heredocText_scalar h3 h4, .inr (.inr ⟨rfl, h2⟩)⟩
    · split
      · rename_i hr
        exact ⟨_, _, rawText_scalar (by simpa using hr.2), .inl rfl⟩
      · exact ⟨_, _, quotedText_scalar s, .inl rfl⟩

/-! ## Keys -/

theorem formatKey_ok {k : Value} (h : PrintableKey k) :
    ∃ kt k' e, formatKey k = some kt ∧ KeyText k' e kt ∧ forget k' = forget k ∧ keyId k' = keyId k ∧
      keyName k' = keyName k ∧
      ((∃ s, k' = scalarValue s .bare ∧ kt = s ∧ canBeBare s = true ∧ '>' ∉ s) ∨ ∀ s, k' ≠ scalarValue s .bare) := by
  match k, h with
  | .mk none none sp, _ => exact ⟨_, _, _, rfl, .unit, rfl, rfl, rfl, .inr (by simp [scalarValue])⟩
  | .mk none (some (.scalar s k sp)) sp', h =>
    by_cases hb : canBeBare s = true
    · refine ⟨s, scalarValue s .bare, .word, by simp [formatKey, keyText, hb],
        .scalar (.bare (bareText_of_canBeBare hb (h hb))) (by simp), rfl, rfl, rfl, .inl ⟨s, rfl, rfl, hb, h hb⟩⟩
    · exact ⟨quotedText s, scalarValue s .quoted, .closed, by simp [formatKey, keyText, hb],
        .scalar (quotedText_scalar s) (by simp), rfl, rfl, rfl, .inr (by simp [scalarValue])⟩
  | .mk (some t) none sp, h =>
    exact ⟨'@' :: t.name, .mk (some ⟨t.name, none⟩) none none, .word, rfl, .tag h, rfl, rfl, rfl,
      .inr (by simp [scalarValue])⟩
  | .mk (some t) (some (.scalar s k sp)) sp', h =>
    obtain ⟨h1, h2, h3, h4⟩ := h
    refine ⟨'@' :: t.name ++ quotedText s, .mk (some ⟨t.name, none⟩) (some (.scalar s .quoted none)) none, .closed,
      by simp [formatKey, keyText, h2], .tagged h1 (quotedText_scalar s) ?_ (fun _ => h4), rfl, rfl, rfl,
      .inr (by simp [scalarValue])⟩
    exact ⟨'"', _, rfl, .inr (.inr (.inl ⟨rfl, h3⟩))⟩

/-! ## Lines of doc comments -/

theorem linesAux_ne {acc s : List Char} (h : acc ≠ [] ∨ s ≠ []) : linesAux acc s ≠ [] := by
  induction s generalizing acc with
  | nil =>
    cases acc with
    | nil => simp at h
    | cons c acc => simp [linesAux]
  | cons c s ih =>
    rw [linesAux.eq_def]
    simp only
    split
    · simp
    · exact ih (.inl (by simp))

theorem linesAux_spec {acc s : List Char} (hacc : '\r' ∉ acc ∧ '\n' ∉ acc) (hs : '\r' ∉ s)
    (hlast : s.getLast? ≠ some '\n') :
    joined (linesAux acc s) = acc.reverse ++ s ∧ ∀ l ∈ linesAux acc s, ∀ c ∈ l, c ≠ '\n' ∧ c ≠ '\r' := by
  induction s generalizing acc with
  | nil =>
    cases acc with
    | nil => simp [linesAux, joined]
    | cons c acc =>
      simp only [linesAux, joined, List.append_nil, true_and]
      intro l hl x hx
      simp only [List.mem_singleton] at hl
      subst hl
      rw [List.mem_reverse] at hx
      exact ⟨fun e => hacc.2 (e ▸ hx), fun e => hacc.1 (e ▸ hx)⟩
  | cons c s ih =>
    have hs' : '\r' ∉ s := fun h => hs (by simp [h])
    have hc : c ≠ '\r' := fun h => hs (by simp [h])
    by_cases hn : c = '\n'
    · subst hn
      have hne : s ≠ [] := by rintro rfl; simp at hlast
      have hl' : s.getLast? ≠ some '\n' := by
        cases s with
        | nil => simp
        | cons x s => simpa [List.getLast?_cons_cons] using hlast
      obtain ⟨h1, h2⟩ := ih (acc := []) (by simp) hs' hl'
      have hx : linesAux acc ('\n' :: s) = acc.reverse :: linesAux [] s := by
        rw [linesAux.eq_def]
        simp only [if_pos]
        congr 1
        split
        · simp at hacc
        · rfl
      rw [hx]
      refine ⟨?_, ?_⟩
      · have hne' := linesAux_ne (acc := []) (.inr hne)
        obtain ⟨y, ys, hy⟩ := List.exists_cons_of_ne_nil hne'
        rw [hy, joined, ← hy, h1]
        · simp
        · simp
      · intro l hl x hx
        rcases List.mem_cons.1 hl with rfl | hl
        · rw [List.mem_reverse] at hx
          exact ⟨fun e => hacc.2 (e ▸ hx), fun e => hacc.1 (e ▸ hx)⟩
        · exact h2 l hl x hx
    · have hl' : s.getLast? ≠ some '\n' := by
        cases s with
        | nil => simp
        | cons x s => simpa [List.getLast?_cons_cons] using hlast
      have hx : linesAux acc (c :: s) = linesAux (c :: acc) s := by
        rw [linesAux.eq_def]; simp only [if_neg hn]
      obtain ⟨h1, h2⟩ := ih (acc := c :: acc) (by
        simp only [List.mem_cons, not_or]
        exact ⟨⟨Ne.symm hc, hacc.1⟩, Ne.symm hn, hacc.2⟩) hs' hl'
      rw [hx, h1]
      exact ⟨by simp, h2⟩

theorem textLines_spec {d : List Char} (h : PlainDoc d) :
    docOf (textLines d) = some d ∧ textLines d ≠ [] ∧ ∀ l ∈ textLines d, ∀ c ∈ l, c ≠ '\n' ∧ c ≠ '\r' := by
  obtain ⟨h1, h2, h3⟩ := h
  obtain ⟨g1, g2⟩ := linesAux_spec (acc := []) (by simp) h2 h3
  have hne := linesAux_ne (acc := []) (.inr h1)
  refine ⟨?_, hne, g2⟩
  unfold textLines
  obtain ⟨y, ys, hy⟩ := List.exists_cons_of_ne_nil hne
  rw [hy, docOf, ← hy, g1]
  · rfl
  · simp

end Styx
