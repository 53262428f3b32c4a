import Verif.Parse.LexLemmas
import Verif.Parse.HeredocSpec

/-! # Lemmas: heredocs -/

namespace Styx

open Spec

theorem takeWhile_append_stop {p : Char → Bool} {a b : List Char} (ha : ∀ c ∈ a, p c = true)
    (hb : ∀ c r, b = c :: r → p c = false) :
    (a ++ b).takeWhile p = a ∧ (a ++ b).dropWhile p = b := by
  induction a with
  | nil =>
    cases b with
    | nil => simp
    | cons c r => simp [hb c r rfl]
  | cons x xs ih =>
    have := ih (fun c hc => ha c (by simp [hc]))
    simp [ha x (by simp), this.1, this.2]

theorem Spec.Delimiter.chars {d : List Char} (h : Delimiter d) :
    ∀ c ∈ d, isDelimChar c = true := by
  obtain ⟨c, r, rfl, h1, h2, _⟩ := h
  intro x hx
  rw [isDelimChar_iff]
  rcases List.mem_cons.mp hx with rfl | hx
  · exact Or.inl h1
  · exact h2 x hx

theorem delim_not_nl {c : Char} (h : isDelimChar c = true) : c ≠ '\n' ∧ c ≠ '\r' ∧ isBlank c = false ∧ c ≠ ',' := by
  refine ⟨?_, ?_, ?_, ?_⟩
  · rintro rfl; revert h; decide
  · rintro rfl; revert h; decide
  · cases hb : isBlank c with
    | false => rfl
    | true =>
      rcases (isBlank_iff c).mp hb with rfl | rfl <;> revert h <;> decide
  · rintro rfl; revert h; decide

theorem blank_iff (c : Char) : Blank c ↔ isBlank c = true := by
  rw [isBlank_iff]; rfl

theorem findDelim_closing {d ind rest : List Char} (hd : Delimiter d) (hi : ∀ c ∈ ind, Blank c)
    (hr : AtLineEnd rest) : findDelim d (ind ++ d ++ rest) = some ind.length := by
  have hs := takeWhile_append_stop (p := isBlank) (a := ind) (b := d ++ rest)
    (fun c hc => (blank_iff c).mp (hi c hc)) (by
      obtain ⟨x, r, rfl, hx, _⟩ := id hd
      intro c r' h
      simp only [List.cons_append, List.cons.injEq] at h
      rw [← h.1]
      exact (delim_not_nl (hd.chars x (by simp))).2.2.1)
  unfold findDelim
  rw [List.append_assoc, hs.1, hs.2, stripPrefix_append]
  have : (rest.isEmpty || startsWith rest ['\n'] || startsWith rest ['\r', '\n']) = true := by
    rcases hr with rfl | ⟨r, rfl⟩ | ⟨r, rfl⟩ <;> simp [startsWith, stripPrefix]
  simp [this]

/-- The first line break of a text decides where its first line ends. -/
theorem line_unique {a b x y : List Char} (ha : '\n' ∉ a) (hb : '\n' ∉ b)
    (h : a ++ '\n' :: x = b ++ '\n' :: y) : a = b := by
  induction a generalizing b with
  | nil =>
    cases b with
    | nil => rfl
    | cons c b =>
      simp only [List.nil_append, List.cons_append, List.cons.injEq] at h
      exact absurd h.1 (fun e => hb (e ▸ List.mem_cons_self))
  | cons c a ih =>
    cases b with
    | nil =>
      simp only [List.nil_append, List.cons_append, List.cons.injEq] at h
      exact absurd h.1 (fun e => ha (by simp [e]))
    | cons e b =>
      simp only [List.cons_append, List.cons.injEq] at h
      rw [h.1, ih (by simp_all) (by simp_all) h.2]

theorem findDelim_line {d l : List Char} (hd : Delimiter d) (hl : '\n' ∉ l) (hc : ¬ ClosingLine d l)
    (rest : List Char) : findDelim d (l ++ '\n' :: rest) = none := by
  have hdn : '\n' ∉ d := fun h => (delim_not_nl (hd.chars _ h)).1 rfl
  unfold findDelim
  simp only
  split
  · rename_i after hs
    rw [stripPrefix_some] at hs
    have hw := List.takeWhile_append_dropWhile (p := isBlank) (l := l ++ '\n' :: rest)
    rw [hs] at hw
    have hblank : ∀ c ∈ (l ++ '\n' :: rest).takeWhile isBlank, Blank c := fun c hc =>
      (blank_iff c).mpr (mem_takeWhile hc)
    have hnl : '\n' ∉ (l ++ '\n' :: rest).takeWhile isBlank := by
      intro h; exact absurd (mem_takeWhile h) (by decide)
    generalize (l ++ '\n' :: rest).takeWhile isBlank = ind at *
    split
    · rename_i hcond
      exfalso
      simp only [Bool.or_eq_true, List.isEmpty_iff, startsWith_iff] at hcond
      rcases hcond with (rfl | ⟨r, rfl⟩) | ⟨r, rfl⟩
      · have : '\n' ∈ ind ++ (d ++ []) := by rw [hw]; simp
        simp [hnl, hdn] at this
      · refine hc ⟨ind, hblank, Or.inl ?_⟩
        exact (line_unique (x := r) (y := rest) (by simp [hnl, hdn]) hl (by simpa using hw)).symm
      · refine hc ⟨ind, hblank, Or.inr ?_⟩
        exact (line_unique (x := r) (y := rest) (by simp [hnl, hdn]) hl (by simpa using hw)).symm
    · rfl
  · rfl

theorem scanHeredoc_line {d l s : List Char} (hl : '\n' ∉ l) :
    scanHeredoc d (l ++ '\n' :: s) =
      match findDelim d s with
      | some i => (l ++ ['\n'], s, some i)
      | none => (l ++ '\n' :: (scanHeredoc d s).1, (scanHeredoc d s).2.1, (scanHeredoc d s).2.2) := by
  induction l with
  | nil =>
    rw [List.nil_append, scanHeredoc, if_pos (Or.inl rfl)]
    cases findDelim d s <;> rfl
  | cons c l ih =>
    have ih := ih (by simp_all)
    rw [List.cons_append, scanHeredoc, if_neg (by simp_all [eq_comm]), ih]
    cases findDelim d s <;> rfl

theorem unlines_cons (l : List Char) (ls : List (List Char)) :
    unlines (l :: ls) = l ++ '\n' :: unlines ls := by simp [unlines]

theorem scanHeredoc_body {d ind rest : List Char} (hd : Delimiter d) (hi : ∀ c ∈ ind, Blank c)
    (hr : AtLineEnd rest) {ls : List (List Char)} (hne : ls ≠ [])
    (hls : ∀ l ∈ ls, '\n' ∉ l ∧ ¬ ClosingLine d l) :
    scanHeredoc d (unlines ls ++ (ind ++ d ++ rest)) =
      (unlines ls, ind ++ d ++ rest, some ind.length) := by
  induction ls with
  | nil => exact absurd rfl hne
  | cons l ls ih =>
    have hl := hls l (by simp)
    rw [unlines_cons, List.append_assoc, List.cons_append, scanHeredoc_line hl.1]
    cases ls with
    | nil =>
      rw [show unlines [] = [] from rfl, List.nil_append, findDelim_closing hd hi hr]
    | cons l' ls =>
      have hl' := hls l' (by simp)
      have : findDelim d (unlines (l' :: ls) ++ (ind ++ d ++ rest)) = none := by
        rw [unlines_cons, List.append_assoc, List.cons_append]
        exact findDelim_line hd hl'.1 hl'.2 _
      rw [this, ih (by simp) (fun x hx => hls x (by simp [hx]))]

/-- The lines the tokenizer takes as the content of a heredoc. -/
theorem scanHeredoc_lines {d : List Char} (hd : Delimiter d) (n : Nat) (s a b : List Char) (i : Nat)
    (hn : s.length < n) (h : scanHeredoc d s = (a, b, some i)) (hf : findDelim d s = none) :
    ∃ ls, a = unlines ls ∧ ∀ l ∈ ls, '\n' ∉ l ∧ ¬ ClosingLine d l := by
  induction n generalizing s a b with
  | zero => omega
  | succ n ih =>
    have hmem : '\n' ∈ s := by
      obtain ⟨⟨r, hr⟩, _⟩ := scanHeredoc_content d s a b i hd.ne_nil h
      have := scanHeredoc_append d s
      rw [h] at this
      rw [← this, hr]
      simp
    obtain ⟨l, r, hs, hl⟩ := List.eq_append_cons_of_mem hmem
    subst hs
    have hc : ¬ ClosingLine d l := by
      rintro ⟨ind, h1, h2 | h2⟩
      · have := findDelim_closing (rest := '\n' :: r) hd h1 (.inr (.inl ⟨r, rfl⟩))
        rw [← h2] at this
        rw [this] at hf
        cases hf
      · have := findDelim_closing (rest := '\r' :: '\n' :: r) hd h1 (.inr (.inr ⟨r, rfl⟩))
        rw [h2, List.append_assoc, List.singleton_append, this] at hf
        cases hf
    rw [scanHeredoc_line hl] at h
    split at h
    · simp only [Prod.mk.injEq] at h
      refine ⟨[l], by rw [← h.1]; simp [unlines], ?_⟩
      intro l' hl'
      rw [List.mem_singleton] at hl'
      subst hl'
      exact ⟨hl, hc⟩
    · rename_i hf'
      simp only [Prod.mk.injEq] at h
      obtain ⟨ls, h1, h2⟩ := ih r (scanHeredoc d r).1 (scanHeredoc d r).2.1
        (by simp only [List.length_append, List.length_cons] at hn; omega) (by rw [← h.2.2]) hf'
      refine ⟨l :: ls, by rw [← h.1, h1, unlines_cons], ?_⟩
      intro l' hl'
      rcases List.mem_cons.mp hl' with rfl | hl'
      · exact ⟨hl, hc⟩
      · exact h2 l' hl'

theorem dedentAux_line {n m : Nat} {l s : List Char} (hl : '\n' ∉ l) :
    dedentAux n m (l ++ '\n' :: s) = dedentLine m l ++ '\n' :: dedentAux n n s := by
  induction l generalizing m with
  | nil => cases m <;> simp [dedentAux, dedentLine]
  | cons c l ih =>
    have hl' : '\n' ∉ l := by simp_all
    have hc : c ≠ '\n' := fun e => hl (by simp [e])
    cases m with
    | zero =>
      rw [List.cons_append, dedentAux, if_neg hc]
      simp only [dedentLine]
      rw [ih hl']
      simp [dedentLine]
    | succ m =>
      rw [List.cons_append, dedentAux, if_neg hc]
      simp only [dedentLine, blank_iff]
      split
      · exact ih hl'
      · rw [ih hl']; simp [dedentLine]

theorem dedentHeredoc_unlines {n : Nat} {ls : List (List Char)} (h : ∀ l ∈ ls, '\n' ∉ l) :
    dedentHeredoc (unlines ls) n = unlines (ls.map (dedentLine n)) := by
  unfold dedentHeredoc
  induction ls with
  | nil => rfl
  | cons l ls ih =>
    rw [unlines_cons, dedentAux_line (h l (by simp)), ih (fun x hx => h x (by simp [hx])),
      List.map_cons, unlines_cons]

theorem dedentLine_zero (l : List Char) : dedentLine 0 l = l := by cases l <;> rfl

theorem next_heredocStart {d lang nl : List Char} (hd : Delimiter d) (hl : LangHint lang)
    (hn : nl = ['\n'] ∨ nl = ['\r', '\n']) (rest : List Char) (p : Nat) :
    Tok.next ⟨'<' :: '<' :: d ++ lang ++ nl ++ rest, p, none⟩ =
      (⟨.heredocStart, p, p + utf8Len ('<' :: '<' :: d ++ lang ++ nl), '<' :: '<' :: d ++ lang ++ nl⟩,
       ⟨rest, p + utf8Len ('<' :: '<' :: d ++ lang ++ nl), some ⟨d, none⟩⟩) := by
  obtain ⟨c, r, rfl, hc, hr, hlen⟩ := id hd
  have hhead : ∀ x y, nl ++ rest = x :: y → x = '\n' ∨ x = '\r' := by
    intro x y h
    rcases hn with rfl | rfl <;> simp at h <;> simp [← h.1]
  have hd1 := takeWhile_append_stop (p := isDelimChar) (a := c :: r) (b := lang ++ nl ++ rest)
    hd.chars (by
      intro x y h
      rcases hl with rfl | ⟨a, b, rfl, _⟩
      · rcases hhead x y (by simpa using h) with rfl | rfl <;> rfl
      · simp only [List.cons_append, List.cons.injEq] at h
        rw [← h.1]; rfl)
  have hlang : scanLang (lang ++ nl ++ rest) = (lang, nl ++ rest) := by
    rcases hl with rfl | ⟨a, b, rfl, ha, hb⟩
    · rcases hn with rfl | rfl <;> rfl
    · have := takeWhile_append_stop (p := isLangChar) (a := b) (b := nl ++ rest)
        (fun x hx => by simpa [isLangChar, or_assoc] using hb x hx)
        (fun x y h => by rcases hhead x y h with rfl | rfl <;> rfl)
      simp only [List.append_assoc, List.cons_append, scanLang, ha, if_true, this.1, this.2]
  have hnl : scanNewlineOpt (nl ++ rest) = (nl, rest) := by
    rcases hn with rfl | rfl
    · rfl
    · rfl
  have h1 : Tok.next ⟨'<' :: '<' :: (c :: r) ++ lang ++ nl ++ rest, p, none⟩ =
      Tok.heredocStart ⟨'<' :: '<' :: (c :: r) ++ lang ++ nl ++ rest, p, none⟩
        (c :: r ++ (lang ++ nl ++ rest)) := by
    unfold Tok.next
    simp [hc]
  rw [h1]
  unfold Tok.heredocStart
  have hu : ¬ 16 < utf8Len (c :: r) := by
    have : ∀ l : List Char, (∀ x ∈ l, isDelimChar x = true) → utf8Len l = l.length := by
      intro l
      induction l with
      | nil => intro _; rfl
      | cons x l ih =>
        intro h
        have hx := h x (by simp)
        rw [utf8Len_cons, ih (fun y hy => h y (by simp [hy])), List.length_cons]
        have : x.utf8Size = 1 := by
          have hx' : x.val.toNat < 128 := by
            simp only [isDelimChar, Char.isUpper, Char.isDigit, Bool.or_eq_true, Bool.and_eq_true,
              decide_eq_true_eq, beq_iff_eq, UInt32.le_iff_toNat_le] at hx
            rcases hx with (h | h) | rfl
            · have := h.2; have e1 : 'Z'.val.toNat = 90 := rfl; have e2 : '9'.val.toNat = 57 := rfl; omega
            · have := h.2; have e1 : 'Z'.val.toNat = 90 := rfl; have e2 : '9'.val.toNat = 57 := rfl; omega
            · decide
          have hx2 : x.val ≤ 127 := by
            rw [UInt32.le_iff_toNat_le]; have e : (127 : UInt32).toNat = 127 := rfl; omega
          simp [Char.utf8Size, hx2]
        omega
    rw [this _ hd.chars]; omega
  simp only [hd1.1, hd1.2, if_neg hu, hlang, hnl]
  simp [Tok.emit]

theorem lexHeredoc_body {d ind rest : List Char} (hd : Delimiter d) (hi : ∀ c ∈ ind, Blank c)
    (hr : AtLineEnd rest) {ls : List (List Char)}
    (hls : ∀ l ∈ ls, '\n' ∉ l ∧ ¬ ClosingLine d l) (start : Span) (p : Nat) :
    lexHeredoc start ⟨unlines ls ++ (ind ++ d ++ rest), p, some ⟨d, none⟩⟩ =
      (.scalar ⟨start.start, p + utf8Len (unlines ls ++ ind ++ d)⟩
          (unlines (ls.map (dedentLine ind.length))) .heredoc,
       ⟨rest, p + utf8Len (unlines ls ++ ind ++ d), none⟩) := by
  have hend : ∀ q ci, Tok.next ⟨ind ++ d ++ rest, q, some ⟨d, ci⟩⟩ =
      (⟨.heredocEnd, q, q + utf8Len (ind ++ d), ind ++ d⟩,
        ⟨rest, q + utf8Len (ind ++ d), none⟩) := by
    intro q ci
    have : Tok.next ⟨ind ++ d ++ rest, q, some ⟨d, ci⟩⟩ =
        Tok.heredocContent ⟨ind ++ d ++ rest, q, some ⟨d, ci⟩⟩ ⟨d, ci⟩ := rfl
    rw [this]
    unfold Tok.heredocContent
    simp only [findDelim_closing hd hi hr]
    have e1 : (ind ++ d ++ rest).take (ind.length + d.length) = ind ++ d := by
      rw [← List.length_append, List.take_left]
    have e2 : (ind ++ d ++ rest).drop (ind.length + d.length) = rest := by
      rw [← List.length_append, List.drop_left]
    rw [e1, e2]; rfl
  unfold lexHeredoc
  cases ls with
  | nil =>
    have hu : unlines [] = [] := rfl
    simp only [hu, List.nil_append, List.map_nil]
    rw [lexHeredocLoop]
    simp only [hend, Token.span, Tok.closingIndent, Option.bind]
    simp
  | cons l ls =>
    have hl := hls l (by simp)
    have hc : Tok.next ⟨unlines (l :: ls) ++ (ind ++ d ++ rest), p, some ⟨d, none⟩⟩ =
        (⟨.heredocContent, p, p + utf8Len (unlines (l :: ls)), unlines (l :: ls)⟩,
          ⟨ind ++ d ++ rest, p + utf8Len (unlines (l :: ls)), some ⟨d, some ind.length⟩⟩) := by
      have : Tok.next ⟨unlines (l :: ls) ++ (ind ++ d ++ rest), p, some ⟨d, none⟩⟩ =
          Tok.heredocContent ⟨unlines (l :: ls) ++ (ind ++ d ++ rest), p, some ⟨d, none⟩⟩
            ⟨d, none⟩ := rfl
      rw [this]
      unfold Tok.heredocContent
      have hf : findDelim d (unlines (l :: ls) ++ (ind ++ d ++ rest)) = none := by
        rw [unlines_cons, List.append_assoc, List.cons_append]
        exact findDelim_line hd hl.1 hl.2 _
      simp only [hf, scanHeredoc_body hd hi hr (by simp) hls]
      rfl
    rw [lexHeredocLoop]
    simp only [hc]
    rw [lexHeredocLoop]
    simp only [hend, Token.span, Tok.closingIndent, Option.bind, Option.getD, List.nil_append]
    have hnl : ∀ x ∈ l :: ls, '\n' ∉ x := fun x hx => (hls x hx).1
    have hv : (if 0 < ind.length then dedentHeredoc (unlines (l :: ls)) ind.length
        else unlines (l :: ls)) = unlines ((l :: ls).map (dedentLine ind.length)) := by
      split
      · exact dedentHeredoc_unlines hnl
      · rename_i h0
        have : ind.length = 0 := by omega
        rw [this]
        congr 1
        have : (fun l => dedentLine 0 l) = id := funext dedentLine_zero
        rw [show dedentLine 0 = id from this, List.map_id]
    rw [hv]
    simp [Nat.add_assoc]

/-- The lexeme of a heredoc. -/
theorem nextLexeme_heredoc {d lang nl ind rest : List Char} (hd : Delimiter d) (hl : LangHint lang)
    (hn : nl = ['\n'] ∨ nl = ['\r', '\n']) (hi : ∀ c ∈ ind, Blank c) (hr : AtLineEnd rest)
    {ls : List (List Char)} (hls : ∀ l ∈ ls, '\n' ∉ l ∧ ¬ ClosingLine d l) (p : Nat) :
    nextLexeme ⟨'<' :: '<' :: d ++ lang ++ nl ++ (unlines ls ++ (ind ++ d ++ rest)), p, none⟩ =
      (.scalar ⟨p, p + utf8Len ('<' :: '<' :: d ++ lang ++ nl) + utf8Len (unlines ls ++ ind ++ d)⟩
          (unlines (ls.map (dedentLine ind.length))) .heredoc,
       ⟨rest, p + utf8Len ('<' :: '<' :: d ++ lang ++ nl) + utf8Len (unlines ls ++ ind ++ d), none⟩) := by
  have hnx := next_heredocStart hd hl hn (unlines ls ++ (ind ++ d ++ rest)) p
  rw [nextLexeme_of_ne (by rw [hnx]; simp), hnx]
  simp only [lexToken, Token.span]
  rw [lexHeredoc_body hd hi hr hls]

end Styx
