import Verif.Editor.MonacoAtom

/-!
# What raw strings and heredocs paint
-/

namespace Styx.Monaco

open Styx.Spec

theorem indexOf_none {pat l : List Char} (hp : pat ≠ []) (h : ∀ a b, l ≠ a ++ pat ++ b) : indexOf pat l = none := by
  induction l with
  | nil =>
    cases pat with
    | nil => exact absurd rfl hp
    | cons c p => simp [indexOf, List.isPrefixOf]
  | cons c l ih =>
    have h1 : pat.isPrefixOf (c :: l) = false := by
      cases hc : pat.isPrefixOf (c :: l) with
      | false => rfl
      | true =>
        obtain ⟨b, hb⟩ := List.isPrefixOf_iff_prefix.1 hc
        exact absurd (by simpa using hb.symm) (h [] b)
    have h2 := ih (fun a b he => h (c :: a) b (by simp [he]))
    simp [indexOf, h1, h2]

theorem indexOf_close {n : Nat} {c : List Char} (h : ∀ a b, c ≠ a ++ closePattern n ++ b) (r : List Char) :
    indexOf (closePattern n) (c ++ (closePattern n ++ r)) = some c.length := by
  induction c with
  | nil =>
    have : (closePattern n).isPrefixOf (closePattern n ++ r) = true :=
      List.isPrefixOf_iff_prefix.2 (List.prefix_append ..)
    cases hl : closePattern n ++ r with
    | nil => simp [closePattern] at hl
    | cons x y => rw [hl] at this; simp [indexOf, this]
  | cons x c ih =>
    have h1 : (closePattern n).isPrefixOf (x :: c ++ (closePattern n ++ r)) = false := by
      cases hc : (closePattern n).isPrefixOf (x :: c ++ (closePattern n ++ r)) with
      | false => rfl
      | true =>
        exfalso
        obtain ⟨k, hk⟩ := List.isPrefixOf_iff_prefix.1 hc
        rcases List.append_eq_append_iff.1 hk with ⟨z, h1, h2⟩ | ⟨z, h1, h2⟩
        · exact h [] z (by simpa using h1)
        · cases z with
          | nil => exact h [] [] (by simpa using h1.symm)
          | cons y z =>
            simp only [closePattern, List.cons_append, List.cons.injEq] at h1 h2
            have hm : y ∈ List.replicate n '#' := by rw [h1.2]; simp
            have := List.eq_of_mem_replicate hm
            rw [← h2.1] at this
            exact absurd this (by decide)
    have h2 := ih (fun a b he => h (x :: a) b (by simp [he]))
    rw [List.cons_append] at h1 ⊢
    simp [indexOf, h1, h2]

theorem close_noLine (n : Nat) : '\n' ∉ closePattern n := by
  simp only [closePattern, List.mem_cons, not_or]
  exact ⟨by decide, fun h => absurd (List.eq_of_mem_replicate h) (by decide)⟩

theorem inkLines_break (s : Scope) {l : List Char} (hl : '\n' ∉ l) (u : List Char) :
    inkLines s (l ++ '\n' :: u) = ink s l ++ ('\n', none) :: inkLines s u := by
  rw [inkLines_append, inkLines_line s hl]; rfl

/-! ## Raw strings -/

/-- The line on which a raw string ends. -/
theorem start_rawClose {st : St} {n : Nat} (hh : st.heredoc = none) (hi : st.inString = false) (hr : st.raw = some n)
    {c : List Char} (hc : '\n' ∉ c) (h : ∀ a b, c ≠ a ++ closePattern n ++ b) (t : List Char) :
    start st (c ++ closePattern n ++ t) =
      ink (stringColour st.stringIsKey) (c ++ closePattern n) ++ mid (afterAtom { st with raw := none }) t := by
  obtain ⟨ls, hl⟩ := linesOf_line t
  have hw : '\n' ∉ c ++ closePattern n := by simp [hc, close_noLine]
  have hlines := linesOf_append hw hl
  have htok : tokenize (c ++ closePattern n ++ line t) st =
      ([(0, stringColour st.stringIsKey)] ++
        shift (c ++ closePattern n).length (loop (afterAtom { st with raw := none }) (line t)).1,
        (loop (afterAtom { st with raw := none }) (line t)).2) := by
    have hi2 := indexOf_close h (line t)
    rw [← List.append_assoc] at hi2
    have hne : c ++ closePattern n ++ line t ≠ [] := by simp [closePattern]
    simp only [tokenize, hh, hi, tokenizeRaw, hr, hi2]
    rw [if_neg hne]
    have hlen : c.length + (n + 1) = (c ++ closePattern n).length := by simp [closePattern]
    rw [hlen, List.drop_left, mainLoop_fuel (by simp only [List.length_append]; omega), mainLoop_shift]
    simp [loop, stringScope, stringColour]
  have hp := paint_append (ts := [(0, stringColour st.stringIsKey)])
    (us := (loop (afterAtom { st with raw := none }) (line t)).1) (w := c ++ closePattern n) (r := line t)
    (fun hne => loop_head hne)
  rw [paint_one] at hp
  simp only [start, hlines, mid, hl]
  cases ls with
  | nil => simp only [colourLines, htok]; exact hp
  | cons a b => simp only [colourLines, htok]; rw [hp, List.append_assoc]

/-- A line within a raw string. -/
theorem tokenize_rawLine {st : St} {n : Nat} (hh : st.heredoc = none) (hi : st.inString = false) (hr : st.raw = some n)
    {l : List Char} (h : ∀ a b, l ≠ a ++ closePattern n ++ b) :
    ∃ st', (tokenize l st).2 = st' ∧ paint (tokenize l st).1 l = ink (stringColour st.stringIsKey) l ∧
      st'.heredoc = none ∧ st'.inString = false ∧ st'.raw = some n ∧ st'.stringIsKey = st.stringIsKey ∧
      st'.stack = st.stack ∧ (isKey st = true → isKey st' = true) := by
  by_cases hl : l = []
  · subst hl
    refine ⟨endLine st, ?_, ?_, ?_⟩
    · simp [tokenize, hh, hi, tokenizeRaw, hr, mainLoop]
    · rfl
    · unfold endLine
      split
      · rename_i ho
        exact ⟨hh, hi, hr, rfl, rfl, fun _ => by
          have : inObject { st with phase := .key } = true := ho
          simp [isKey, this]⟩
      · exact ⟨hh, hi, hr, rfl, rfl, id⟩
  · have hnone := indexOf_none (by simp [closePattern]) h
    have htok : tokenize l st = ([(0, stringColour st.stringIsKey)], st) := by
      simp only [tokenize, hh, hi, tokenizeRaw, hr, hnone]
      rw [if_neg hl]
      rfl
    exact ⟨st, by rw [htok], by rw [htok, paint_one], hh, hi, hr, rfl, rfl, id⟩

/-- The lines of a raw string behind the first. -/
theorem start_raw {n : Nat} (m : Nat) : ∀ (c : List Char) (st : St), c.length ≤ m → st.heredoc = none →
    st.inString = false → st.raw = some n → (∀ a b, c ≠ a ++ closePattern n ++ b) → ∀ t, ∃ st',
      start st (c ++ closePattern n ++ t) = inkLines (stringColour st.stringIsKey) (c ++ closePattern n) ++ mid st' t ∧
      st'.stack = st.stack ∧ Calm st' ∧ (isKey st = true → st'.phase = .value) := by
  induction m with
  | zero =>
    intro c st hc hh hi hr h t
    have : c = [] := List.eq_nil_of_length_eq_zero (by omega)
    subst this
    refine ⟨afterAtom { st with raw := none }, ?_, afterAtom_stack _, afterAtom_calm ⟨hh, rfl, hi⟩, fun hk => afterAtom_key hk⟩
    rw [start_rawClose hh hi hr (by simp) h, inkLines_line _ (by simp [close_noLine])]
  | succ m ih =>
    intro c st hc hh hi hr h t
    by_cases hn : '\n' ∈ c
    · obtain ⟨l, c', rfl, hl⟩ := List.eq_append_cons_of_mem hn
      have hll : ∀ a b, l ≠ a ++ closePattern n ++ b := fun a b he => h a (b ++ '\n' :: c') (by rw [he]; simp)
      have hcc : ∀ a b, c' ≠ a ++ closePattern n ++ b := fun a b he => h (l ++ '\n' :: a) b (by rw [he]; simp)
      obtain ⟨st1, h1, h2, h3, h4, h5, h6, h7, h8⟩ := tokenize_rawLine hh hi hr hll
      obtain ⟨st', h9, h10, h11, h12⟩ := ih c' st1 (by simp at hc; omega) h3 h4 h5 hcc t
      refine ⟨st', ?_, by rw [h10, h7], h11, fun hk => h12 (h8 hk)⟩
      have := start_break st (c' ++ closePattern n ++ t) hl
      rw [show l ++ '\n' :: c' ++ closePattern n ++ t = l ++ '\n' :: (c' ++ closePattern n ++ t) by simp, this, h1, h2, h9, h6]
      rw [show l ++ '\n' :: c' ++ closePattern n = l ++ '\n' :: (c' ++ closePattern n) by simp, inkLines_break _ hl]
      simp
    · refine ⟨afterAtom { st with raw := none }, ?_, afterAtom_stack _, afterAtom_calm ⟨hh, rfl, hi⟩, fun hk => afterAtom_key hk⟩
      rw [start_rawClose hh hi hr hn h, inkLines_line _ (by simp [hn, close_noLine])]

theorem step_raw {n : Nat} (hn : 0 < n) (st : St) (u : List Char) :
    step st ('r' :: List.replicate n '#' ++ '"' :: u) = rawStep st ('r' :: List.replicate n '#' ++ '"' :: u) n := by
  have htw : (List.replicate n '#' ++ '"' :: u).takeWhile (· == '#') = List.replicate n '#' :=
    takeWhile_all (fun x hx => by simp [List.eq_of_mem_replicate hx]) (fun x v hx => by simp at hx; simp [← hx.1])
  have hs : rawStart ('r' :: (List.replicate n '#' ++ '"' :: u)) = some n := by
    simp only [rawStart, htw, List.length_replicate]
    have : (List.replicate n '#' ++ '"' :: u).drop n = '"' :: u := by
      simp
    rw [this]
    simp
    omega
  have hhe : heredocStart ('r' :: (List.replicate n '#' ++ '"' :: u)) = none := by simp [heredocStart]
  rw [List.cons_append]
  simp only [step, hs, hhe]
  simp [blank, List.isPrefixOf]

/-- A raw string. -/
theorem mid_raw {n : Nat} (hn : 0 < n) {c : List Char} (h : ∀ a b, c ≠ a ++ closePattern n ++ b) (t : List Char) (st : St)
    (hst : Calm st) : ∃ st',
      mid st ('r' :: List.replicate n '#' ++ '"' :: c ++ closePattern n ++ t) =
        inkLines (stringColour (isKey st)) ('r' :: List.replicate n '#' ++ '"' :: c ++ closePattern n) ++ mid st' t ∧
      st'.stack = st.stack ∧ Calm st' ∧ (isKey st = true → st'.phase = .value) := by
  have hrep : '\n' ∉ List.replicate n '#' := fun h => absurd (List.eq_of_mem_replicate h) (by decide)
  have hdrop : ∀ u, ('r' :: List.replicate n '#' ++ '"' :: u).drop (n + 2) = u := by
    intro u
    have := List.drop_left (l₁ := 'r' :: List.replicate n '#' ++ ['"']) (l₂ := u)
    simpa using this
  by_cases hc : '\n' ∈ c
  · obtain ⟨l, c', rfl, hl⟩ := List.eq_append_cons_of_mem hc
    have hll : ∀ a b, l ≠ a ++ closePattern n ++ b := fun a b he => h a (b ++ '\n' :: c') (by rw [he]; simp)
    have hcc : ∀ a b, c' ≠ a ++ closePattern n ++ b := fun a b he => h (l ++ '\n' :: a) b (by rw [he]; simp)
    have hstep : step st ('r' :: List.replicate n '#' ++ '"' :: l) =
        ⟨[(0, stringColour (isKey st))], ('r' :: List.replicate n '#' ++ '"' :: l).length,
          { st with raw := some n, stringIsKey := isKey st }, true⟩ := by
      rw [step_raw hn]
      simp only [rawStep]
      rw [hdrop, indexOf_none (by simp [closePattern]) hll]
      rfl
    have hm := mid_stop (st := st) (w := 'r' :: List.replicate n '#' ++ '"' :: l) (by simp [hrep, hl]) (by simp)
      (c' ++ closePattern n ++ t) (by rw [hstep])
    rw [hstep] at hm
    obtain ⟨st', h1, h2, h3, h4⟩ := start_raw (n := n) c'.length c' { st with raw := some n, stringIsKey := isKey st }
      (Nat.le_refl _) hst.heredoc hst.inString rfl hcc t
    refine ⟨st', ?_, h2, h3, h4⟩
    rw [show 'r' :: List.replicate n '#' ++ '"' :: (l ++ '\n' :: c') ++ closePattern n ++ t =
      ('r' :: List.replicate n '#' ++ '"' :: l) ++ '\n' :: (c' ++ closePattern n ++ t) by simp, hm, h1, paint_one]
    rw [show 'r' :: List.replicate n '#' ++ '"' :: (l ++ '\n' :: c') ++ closePattern n =
      ('r' :: List.replicate n '#' ++ '"' :: l) ++ '\n' :: (c' ++ closePattern n) by simp,
      inkLines_break _ (by simp [hrep, hl])]
    simp
  · have hw : '\n' ∉ 'r' :: List.replicate n '#' ++ '"' :: c ++ closePattern n := by
      simp [hrep, hc, close_noLine]
    refine ⟨afterAtom st, ?_, afterAtom_stack _, afterAtom_calm hst, fun hk => afterAtom_key hk⟩
    rw [inkLines_line _ hw]
    refine mid_one hw (by simp) t ?_
    rw [show 'r' :: List.replicate n '#' ++ '"' :: c ++ closePattern n ++ line t =
      'r' :: List.replicate n '#' ++ '"' :: (c ++ (closePattern n ++ line t)) by simp, step_raw hn]
    simp only [rawStep]
    rw [hdrop, indexOf_close h]
    simp only [Step.mk.injEq, and_true]
    refine ⟨rfl, ?_⟩
    simp [closePattern]
    omega

/-! ## Heredocs -/

theorem atLineEnd {t : List Char} (h : AtLineEnd t) (hp : PlainText t) : t = [] ∨ ∃ r, t = '\n' :: r := by
  rcases h with h | h | ⟨r, rfl⟩
  · exact .inl h
  · exact .inr h
  · exact absurd rfl (hp '\r' (by simp)).1

theorem line_atLineEnd {t : List Char} (h : AtLineEnd t) (hp : PlainText t) : line t = [] := by
  rcases atLineEnd h hp with rfl | ⟨r, rfl⟩ <;> simp [line]

theorem delim_noLine {d : List Char} (h : Delimiter d) : '\n' ∉ d := by
  obtain ⟨c, r, rfl, hc, hr, _⟩ := h
  intro hm
  rcases List.mem_cons.1 hm with rfl | hm
  · revert hc; decide
  · rcases hr _ hm with h | h | h <;> revert h <;> decide

theorem closes_loose {d l : List Char} (hp : PlainText l) (h : closes d l = true) : LooseClosing d l := by
  simp only [closes, Bool.and_eq_true, List.all_eq_true] at h
  obtain ⟨b, hb⟩ := List.isPrefixOf_iff_prefix.1 h.1
  have hl : l = l.takeWhile space ++ (d ++ b) := by rw [hb]; exact (List.takeWhile_append_dropWhile ..).symm
  refine ⟨l.takeWhile space, b, by rw [List.append_assoc]; exact hl, ?_⟩
  intro c hc
  have hmem : c ∈ l := by
    rw [hl]
    rcases List.mem_append.1 hc with h | h
    · exact List.mem_append_left _ h
    · simp [h]
  refine space_white ?_ (hp c hmem).2.2.2
  rcases List.mem_append.1 hc with h1 | h1
  · exact List.all_eq_true.1 List.all_takeWhile c h1
  · refine h.2 c ?_
    rw [← hb]; simpa using h1

theorem blank_space {c : Char} (h : Blank c) : space c = true := by
  rcases h with rfl | rfl <;> decide

theorem closes_self {d ind : List Char} (hd : Delimiter d) (hi : Blanks ind) : closes d (ind ++ d) = true := by
  have h : (ind ++ d).dropWhile space = d := by
    refine dropWhile_all (fun c hc => blank_space (hi c hc)) ?_
    intro c u hc
    obtain ⟨x, r, rfl, hx, _⟩ := hd
    simp only [List.cons.injEq] at hc
    obtain ⟨rfl, rfl⟩ := hc
    cases hs : space x with
    | false => rfl
    | true =>
      exfalso
      have hup := (upper_iff x).2 hx
      by_cases hf : x = '\ufeff'
      · subst hf; revert hx; decide
      · have hw := space_white hs hf
        simp only [upper, Bool.and_eq_true, decide_eq_true_eq] at hup
        simp only [isWhitespace, Bool.or_eq_true, beq_iff_eq, Bool.and_eq_true, decide_eq_true_eq] at hw
        omega
  simp [closes, h]

/-- The lines of a heredoc behind the first. -/
theorem start_heredoc {d ind : List Char} (hd : Delimiter d) (hi : Blanks ind) {t : List Char} (ht : AtLineEnd t)
    (hpt : PlainText t) (st : St) (hh : st.heredoc = some d)
    (hend : endLine (afterAtom { st with heredoc := none }) = afterAtom { st with heredoc := none })
    (ls : List (List Char))
    (hls : ∀ l ∈ ls, '\n' ∉ l ∧ ¬ LooseClosing d l) (hp : PlainText (unlines ls)) :
    start st (unlines ls ++ ind ++ d ++ t) =
      inkLines .stringHeredoc (unlines ls ++ ind ++ d) ++ mid (afterAtom { st with heredoc := none }) t := by
  have hid : '\n' ∉ ind ++ d := by
    simp only [List.mem_append, not_or]
    exact ⟨fun h => by simpa [Blank] using hi _ h, delim_noLine hd⟩
  induction ls with
  | nil =>
    simp only [unlines, List.flatMap_nil, List.nil_append]
    have htok : tokenize (ind ++ d) st = ([(0, .stringHeredoc)], afterAtom { st with heredoc := none }) := by
      simp [tokenize, hh, closes_self hd hi]
    rw [inkLines_line _ hid]
    rcases atLineEnd ht hpt with rfl | ⟨r, rfl⟩
    · rw [List.append_nil, mid_nil, List.append_nil]
      have hl := linesOf_append hid (t := []) (l := []) (ls := []) rfl
      rw [List.append_nil] at hl
      simp only [start, hl, colourLines, htok, paint_one]
    · rw [start_break st r hid, htok, mid_break, hend, paint_one]
  | cons l ls ih =>
    have h1 := hls l (by simp)
    have hun : unlines (l :: ls) = l ++ '\n' :: unlines ls := by simp [unlines]
    rw [hun] at hp ⊢
    have hnc : closes d l = false := by
      cases hc : closes d l with
      | false => rfl
      | true => exact absurd (closes_loose (fun c hc => hp c (by simp [hc])) hc) h1.2
    have htok : tokenize l st = ([(0, .stringHeredoc)], st) := by simp [tokenize, hh, hnc]
    have := start_break st (unlines ls ++ ind ++ d ++ t) h1.1
    rw [show l ++ '\n' :: unlines ls ++ ind ++ d ++ t = l ++ '\n' :: (unlines ls ++ ind ++ d ++ t) by simp, this, htok,
      ih (fun x hx => hls x (by simp [hx])) (fun c hc => hp c (by simp [hc])), paint_one]
    rw [show l ++ '\n' :: unlines ls ++ ind ++ d = l ++ '\n' :: (unlines ls ++ ind ++ d) by simp, inkLines_break _ h1.1]
    simp

theorem heredocStart_self {d lang : List Char} (hd : Delimiter d) (hl : LangHint lang) :
    heredocStart ('<' :: '<' :: d ++ lang) = some (d, ('<' :: '<' :: d ++ lang).length) := by
  obtain ⟨c, r, rfl, hc, hr, _⟩ := hd
  have hall : ∀ x ∈ r, delimChar x = true := fun x hx => (delimChar_iff x).2 (hr x hx)
  have hstop : ∀ x u, lang = x :: u → delimChar x = false := by
    intro x u hx
    rcases hl with rfl | ⟨y, v, rfl, _⟩
    · cases hx
    · simp only [List.cons.injEq] at hx
      rw [← hx.1]; decide
  have htk := takeWhile_all hall hstop
  have hdr := dropWhile_all hall hstop
  simp only [List.cons_append, heredocStart, (upper_iff c).2 hc, if_true, htk, hdr]
  rcases hl with rfl | ⟨y, v, rfl, hy, hv⟩
  · simp; omega
  · have : v.takeWhile langChar = v := by
      have := takeWhile_all (w := v) (r := []) (p := langChar) (fun x hx => (langChar_iff x).2 (hv x hx)) (by simp)
      simpa using this
    simp only [(lower_iff y).2 hy, if_true, this]
    simp; omega

theorem lang_noLine {l : List Char} (h : LangHint l) : '\n' ∉ l := by
  rcases h with rfl | ⟨c, r, rfl, hc, hr⟩
  · simp
  · intro hm
    simp only [List.mem_cons] at hm
    rcases hm with h | rfl | hm
    · exact absurd h (by decide)
    · revert hc; decide
    · rcases hr _ hm with h | h | h | h | h <;> revert h <;> decide

/-- A heredoc. -/
theorem mid_heredoc {d lang ind : List Char} (hd : Delimiter d) (hlang : LangHint lang) (hi : Blanks ind)
    {ls : List (List Char)} (hls : ∀ l ∈ ls, '\n' ∉ l ∧ ¬ LooseClosing d l) (hp : PlainText (unlines ls)) {t : List Char}
    (ht : AtLineEnd t) (hpt : PlainText t) (st : St) (hst : Calm st) (hk : isKey st = false) :
    mid st ('<' :: '<' :: d ++ lang ++ ['\n'] ++ unlines ls ++ ind ++ d ++ t) =
      inkLines .stringHeredoc ('<' :: '<' :: d ++ lang ++ ['\n'] ++ unlines ls ++ ind ++ d) ++ mid (afterAtom st) t := by
  have hself : ({ st with heredoc := none } : St) = st := by
    have := hst.heredoc
    cases st; simp_all
  have hstep : step st ('<' :: '<' :: d ++ lang) =
      ⟨[(0, .stringHeredoc)], ('<' :: '<' :: d ++ lang).length, { st with heredoc := some d }, true⟩ := by
    have h := heredocStart_self hd hlang
    rw [List.cons_append, List.cons_append] at h ⊢
    simp only [step, h]
    simp [blank, List.isPrefixOf]
  have hend : endLine (afterAtom st) = afterAtom st := by
    unfold endLine afterAtom
    simp only [isKey] at hk
    cases ho : inObject st with
    | false => simp [ho]
    | true =>
      have : st.phase = .value := by
        cases hph : st.phase with
        | key => simp [ho, hph] at hk
        | value => rfl
      simp [this, inObject_congr (a := { st with phase := .key }) (b := st) rfl, ho]
  have hw : '\n' ∉ '<' :: '<' :: d ++ lang := by simp [delim_noLine hd, lang_noLine hlang]
  have hm := mid_stop (st := st) hw (by simp) (unlines ls ++ ind ++ d ++ t) (by rw [hstep])
  rw [hstep] at hm
  have hs := start_heredoc hd hi ht hpt { st with heredoc := some d } rfl
    (by show endLine (afterAtom ({ st with heredoc := none } : St)) = afterAtom ({ st with heredoc := none } : St)
        rw [hself]; exact hend) ls hls hp
  rw [show '<' :: '<' :: d ++ lang ++ ['\n'] ++ unlines ls ++ ind ++ d ++ t =
    '<' :: '<' :: d ++ lang ++ '\n' :: (unlines ls ++ ind ++ d ++ t) by simp, hm, hs, paint_one]
  rw [show '<' :: '<' :: d ++ lang ++ ['\n'] ++ unlines ls ++ ind ++ d =
    ('<' :: '<' :: d ++ lang) ++ '\n' :: (unlines ls ++ ind ++ d) by simp, inkLines_break _ hw]
  simp only [hself]
  simp

end Styx.Monaco
