import Verif.Lsp.Runner
import Verif.Lsp.RunnerSpec
import Verif.Lsp.HarnessLemmas
import Verif.Lsp.Lemmas

/-!
# Lemmas about the test runner
-/

namespace Styx.Lsp

open Styx Styx.Spec

/-! ## Marks -/

theorem trim_between {a q b : List Char} (ha : ∀ c ∈ a, isWhitespace c = true) (hb : ∀ c ∈ b, isWhitespace c = true)
    (h1 : ∀ c, q.head? = some c → isWhitespace c = false) (h2 : ∀ c, q.getLast? = some c → isWhitespace c = false) :
    trim (a ++ q ++ b) = q := by
  rw [trim, trimStart, List.append_assoc, List.dropWhile_append_of_pos ha]
  cases q with
  | nil =>
    have : List.dropWhile isWhitespace b = [] := by
      have := List.dropWhile_append_of_pos (l₂ := []) hb
      simpa using this
    rw [List.nil_append, this]
    rfl
  | cons c q =>
    have hd : List.dropWhile isWhitespace (c :: q ++ b) = c :: q ++ b := by
      rw [List.cons_append, List.dropWhile_cons_of_neg]
      rw [h1 c rfl]
      simp
    rw [hd, List.reverse_append, List.dropWhile_append_of_pos (by simpa using hb)]
    obtain ⟨q', d, hq⟩ : ∃ q' d, c :: q = q' ++ [d] := ⟨(c :: q).dropLast, (c :: q).getLast (by simp), (List.dropLast_concat_getLast _).symm⟩
    rw [hq] at h2 ⊢
    rw [List.reverse_append, List.reverse_singleton, List.singleton_append, List.dropWhile_cons_of_neg]
    · simp
    · rw [h2 d (by simp)]; simp

theorem trim_parts (r : List Char) : ∃ a b, r = a ++ trim r ++ b ∧ (∀ c ∈ a, isWhitespace c = true) ∧
    (∀ c ∈ b, isWhitespace c = true) := by
  refine ⟨r.takeWhile isWhitespace, ((trimStart r).reverse.takeWhile isWhitespace).reverse, ?_, ?_, ?_⟩
  · rw [trim, List.append_assoc, ← List.reverse_append, List.takeWhile_append_dropWhile, List.reverse_reverse,
      trimStart, List.takeWhile_append_dropWhile]
  · intro c hc
    exact List.all_eq_true.mp (List.all_takeWhile) c hc
  · intro c hc
    exact List.all_eq_true.mp (List.all_takeWhile) c (List.mem_reverse.mp hc)

theorem ws_ne {c : Char} (h : isWhitespace c = true) : c ≠ '^' ∧ c ≠ '"' := by
  constructor <;> rintro rfl <;> revert h <;> decide

/-- What the marker of a mark is. -/
def markerOf (m : CaretMark) : MarkerLine :=
  ⟨utf8Len m.indent, utf8Len m.indent + m.width, m.message.getD []⟩

theorem utf8Len_carets (n : Nat) : utf8Len (List.replicate n '^') = n := by
  induction n with
  | zero => rfl
  | succ n ih => rw [List.replicate_succ, utf8Len, ih]; show 1 + n = n + 1; omega

theorem quoted_ends (m : Option (List Char)) : (∀ c, (quoted m).head? = some c → c = '"') ∧
    (∀ c, (quoted m).getLast? = some c → c = '"') := by
  cases m with
  | none => simp [quoted]
  | some m => simp only [quoted]; exact ⟨fun c h => by simpa using h.symm, fun c h => by
      rw [List.getLast?_append] at h
      simpa using h.symm⟩

theorem tryMarker_text {m : CaretMark} (h : m.Ok) : tryMarker m.text = some (markerOf m) := by
  obtain ⟨h1, h2, h3, h4⟩ := h
  obtain ⟨n, hn⟩ : ∃ n, m.width = n + 1 := ⟨m.width - 1, by omega⟩
  have hpos : ∀ c ∈ m.indent, (c != '^') = true := fun c hc => by simpa using (ws_ne (h1 c hc)).1
  have hrest : m.text = m.indent ++ (List.replicate m.width '^' ++ (m.gap ++ quoted m.message ++ m.trail)) := by
    simp [CaretMark.text]
  have htake : m.text.takeWhile (· != '^') = m.indent := by
    rw [hrest, List.takeWhile_append_of_pos hpos, hn, List.replicate_succ, List.cons_append,
      List.takeWhile_cons_of_neg (by decide), List.append_nil]
  have hdrop : m.text.dropWhile (· != '^') = List.replicate m.width '^' ++ (m.gap ++ quoted m.message ++ m.trail) := by
    rw [hrest, List.dropWhile_append_of_pos hpos, hn, List.replicate_succ, List.cons_append,
      List.dropWhile_cons_of_neg (by decide)]
  have hne : ∀ c, (m.gap ++ quoted m.message ++ m.trail).head? = some c → (c == '^') = false := by
    intro c hc
    cases hg : m.gap with
    | cons x g =>
      rw [hg] at hc
      simp only [List.cons_append, List.head?_cons, Option.some.injEq] at hc
      subst hc
      simpa using (ws_ne (h2 x (by rw [hg]; exact List.mem_cons_self ..))).1
    | nil =>
      rw [hg, List.nil_append] at hc
      cases hm : m.message with
      | some t =>
        rw [hm] at hc
        simp only [quoted, List.cons_append, List.head?_cons, Option.some.injEq] at hc
        subst hc
        decide
      | none =>
        rw [hm, quoted, List.nil_append] at hc
        simpa using (ws_ne (h3 c (List.mem_of_mem_head? hc))).1
  have hcar : ∀ c ∈ List.replicate m.width '^', (c == '^') = true := by
    intro c hc
    rw [(List.mem_replicate.mp hc).2]
    decide
  have htake2 : (m.text.dropWhile (· != '^')).takeWhile (· == '^') = List.replicate m.width '^' := by
    rw [hdrop, List.takeWhile_append_of_pos hcar]
    cases hr : m.gap ++ quoted m.message ++ m.trail with
    | nil => simp
    | cons c cs => rw [List.takeWhile_cons_of_neg (by rw [hne c (by rw [hr]; rfl)]; simp), List.append_nil]
  have hdrop2 : (m.text.dropWhile (· != '^')).dropWhile (· == '^') = m.gap ++ quoted m.message ++ m.trail := by
    rw [hdrop, List.dropWhile_append_of_pos hcar]
    cases hr : m.gap ++ quoted m.message ++ m.trail with
    | nil => simp
    | cons c cs => rw [List.dropWhile_cons_of_neg (by rw [hne c (by rw [hr]; rfl)]; simp)]
  have hq := quoted_ends m.message
  have htrim : trim ((m.text.dropWhile (· != '^')).dropWhile (· == '^')) = quoted m.message := by
    rw [hdrop2]
    refine trim_between h2 h3 (fun c hc => ?_) (fun c hc => ?_)
    · rw [hq.1 c hc]; decide
    · rw [hq.2 c hc]; decide
  have hemp : (m.text.dropWhile (· != '^')).isEmpty = false := by
    rw [hdrop, hn]; rfl
  have hall : m.indent.all isWhitespace = true := List.all_eq_true.mpr h1
  simp only [tryMarker, htake, htake2, htrim, hemp, hall, utf8Len_carets, Bool.false_eq_true, if_false, Bool.true_eq_false]
  cases hm : m.message with
  | none => simp [quoted, markerOf, hm]
  | some t =>
    have hl : 1 < utf8Len (quoted (some t)) := by
      simp only [quoted, List.cons_append, utf8Len, utf8Len_append]
      show 1 < 1 + (utf8Len t + (1 + 0))
      omega
    have hlast : (quoted (some t)).getLast? = some '"' := by rw [quoted, List.getLast?_append]; rfl
    have hmsg : ((quoted (some t)).drop 1).dropLast = t := by simp [quoted]
    rw [if_neg (by simp [quoted]), hlast, hmsg, if_pos (by rw [decide_eq_true hl]; rfl)]
    simp [markerOf, hm]

theorem tryMarker_some {line : List Char} {r : MarkerLine} (h : tryMarker line = some r) :
    ∃ m : CaretMark, m.Ok ∧ line = m.text ∧ r = markerOf m := by
  suffices hs : ∃ m : CaretMark, m.Ok ∧ line = m.text by
    obtain ⟨m, h1, h2⟩ := hs
    refine ⟨m, h1, h2, ?_⟩
    rw [h2, tryMarker_text h1] at h
    exact (Option.some.inj h).symm
  have hsplit := (List.takeWhile_append_dropWhile (p := (· != '^')) (l := line)).symm
  simp only [tryMarker] at h
  split at h
  · cases h
  rename_i hne
  split at h
  · cases h
  rename_i hall
  simp only [Bool.not_eq_false] at hall
  have hsplit2 := (List.takeWhile_append_dropWhile (p := (· == '^')) (l := line.dropWhile (· != '^'))).symm
  have hcar : (line.dropWhile (· != '^')).takeWhile (· == '^') =
      List.replicate ((line.dropWhile (· != '^')).takeWhile (· == '^')).length '^' := by
    refine List.eq_replicate_of_mem fun c hc => ?_
    simpa using List.all_eq_true.mp (List.all_takeWhile) c hc
  have hlen : 1 ≤ ((line.dropWhile (· != '^')).takeWhile (· == '^')).length := by
    cases hd : line.dropWhile (· != '^') with
    | nil => rw [hd] at hne; simp at hne
    | cons c cs =>
      have hc : (c != '^') = false := by
        have := List.head?_dropWhile_not (· != '^') line
        rw [hd] at this
        simpa using this
      have hc' : (c == '^') = true := by simpa using hc
      rw [List.takeWhile_cons_of_pos (p := (· == '^')) hc']
      simp
  obtain ⟨a, b, hab, ha, hb⟩ := trim_parts ((line.dropWhile (· != '^')).dropWhile (· == '^'))
  have key : ∀ msg, trim ((line.dropWhile (· != '^')).dropWhile (· == '^')) = quoted msg →
      ∃ m : CaretMark, m.Ok ∧ line = m.text := by
    intro msg hmsg
    refine ⟨⟨line.takeWhile (· != '^'), ((line.dropWhile (· != '^')).takeWhile (· == '^')).length, a, msg, b⟩,
      ⟨List.all_eq_true.mp hall, ha, hb, hlen⟩, ?_⟩
    simp only [CaretMark.text]
    rw [← hcar, ← hmsg]
    rw [List.append_assoc, List.append_assoc, List.append_assoc, ← List.append_assoc a, ← hab,
      List.takeWhile_append_dropWhile, List.takeWhile_append_dropWhile]
  split at h
  · rename_i he
    exact key none (by simpa [quoted] using he)
  · split at h
    · rename_i he hq
      simp only [Bool.and_eq_true, beq_iff_eq, decide_eq_true_eq] at hq
      obtain ⟨⟨q1, q2⟩, q3⟩ := hq
      generalize trim ((line.dropWhile (· != '^')).dropWhile (· == '^')) = t at *
      cases t with
      | nil => simp at q1
      | cons c cs =>
        simp only [List.head?_cons, Option.some.injEq] at q1
        subst q1
        cases cs with
        | nil => exact absurd q3 (by decide)
        | cons d ds =>
          refine key (some (d :: ds).dropLast) ?_
          rw [List.getLast?_cons_cons] at q2
          obtain ⟨ys, hys⟩ := List.getLast?_eq_some_iff.mp q2
          rw [hys]
          simp [quoted]
    · cases h

/-! ## Reading the input -/

theorem dropCr_of {l : List Char} (h : l.getLast? ≠ some '\r') : dropCr l = l := by rw [dropCr, if_neg h]

theorem lines_cons {l rest : List Char} (h : '\n' ∉ l) (hr : l.getLast? ≠ some '\r') :
    lines (l ++ '\n' :: rest) = l :: lines rest := by
  rw [lines, linesFrom_line l rest h, List.nil_append, dropCr_of hr]
  rfl

/-- The markers of the marks below a line. -/
def markersOf (i : Nat) (ms : List CaretMark) : List SpanMarker :=
  ms.map fun m => ⟨i, utf8Len m.indent, utf8Len m.indent + m.width, m.message.getD []⟩

/-- The markers of a whole input; `i` is the number of the first line. -/
def allMarkers : Nat → List Block → List SpanMarker
  | _, [] => []
  | i, b :: bs => markersOf i b.marks ++ allMarkers (i + 1) bs

theorem markerLoop_marks {rest : List Char} : ∀ (ms : List CaretMark) {cleaned : List (List Char)} {out : List SpanMarker},
    (∀ m ∈ ms, m.Ok ∧ '\n' ∉ m.text ∧ m.text.getLast? ≠ some '\r') → cleaned ≠ [] →
    markerLoop (lines ((ms.map fun m => m.text ++ ['\n']).flatten ++ rest)) cleaned out =
      markerLoop (lines rest) cleaned (out ++ markersOf (cleaned.length - 1) ms)
  | [], cleaned, out, _, _ => by simp [markersOf]
  | m :: ms, cleaned, out, h, hc => by
    obtain ⟨h1, h2, h3⟩ := h m (List.mem_cons_self ..)
    have ih := markerLoop_marks (rest := rest) ms (out := out ++ [⟨cleaned.length - 1, utf8Len m.indent,
      utf8Len m.indent + m.width, m.message.getD []⟩]) (fun m hm => h m (List.mem_cons_of_mem _ hm)) hc
    have he : (((m :: ms).map fun m => m.text ++ ['\n']).flatten ++ rest) =
        m.text ++ '\n' :: ((ms.map fun m => m.text ++ ['\n']).flatten ++ rest) := by simp
    have hce : cleaned.isEmpty = false := by cases cleaned with
      | nil => exact absurd rfl hc
      | cons _ _ => rfl
    rw [he, lines_cons h2 h3, markerLoop, tryMarker_text h1]
    simp only [hce, Bool.false_eq_true, if_false, markerOf]
    rw [ih]
    simp [markersOf]

theorem markerLoop_blocks : ∀ (bs : List Block) {cleaned : List (List Char)} {out : List SpanMarker},
    (∀ b ∈ bs, b.Ok) → markerLoop (lines (inputOf bs)) cleaned out =
      (cleaned ++ bs.map (·.line), out ++ allMarkers cleaned.length bs)
  | [], cleaned, out, _ => by simp [inputOf, lines, linesFrom, markerLoop, allMarkers]
  | b :: bs, cleaned, out, h => by
    obtain ⟨h1, h2, h3, h4⟩ := h b (List.mem_cons_self ..)
    have hm : tryMarker b.line = none := by
      cases ht : tryMarker b.line with
      | none => rfl
      | some r =>
        obtain ⟨m, k1, k2, _⟩ := tryMarker_some ht
        exact absurd k2 (h3 m k1)
    rw [inputOf, lines_cons h1 h2, markerLoop, hm]
    simp only []
    rw [markerLoop_marks b.marks h4 (by simp), markerLoop_blocks bs (fun b hb => h b (List.mem_cons_of_mem _ hb))]
    simp [allMarkers]

theorem intercalate_lines : ∀ bs : List Block, ['\n'].intercalate (bs.map (·.line)) = documentOf bs
  | [] => rfl
  | [b] => by simp [List.intercalate, documentOf]
  | b :: c :: bs => by
    have ih := intercalate_lines (c :: bs)
    rw [documentOf, ← ih]
    · simp [List.intercalate]
    · simp

/-- The input of a test is read as its document and its marks. -/
theorem parseSpanMarkers_input {bs : List Block} (h : ∀ b ∈ bs, b.Ok) :
    parseSpanMarkers (inputOf bs) = (documentOf bs, allMarkers 0 bs) := by
  rw [parseSpanMarkers, markerLoop_blocks bs h]
  simp [intercalate_lines]

/-! ## Positions -/

theorem lastLine_noNl {l : List Char} (h : '\n' ∉ l) : lastLine l = l := by
  have := lastLine_eq (a := []) (Or.inl rfl) h
  simpa using this

theorem documentOf_cons (b c : Block) (bs : List Block) :
    documentOf (b :: c :: bs) = b.line ++ '\n' :: documentOf (c :: bs) := rfl

theorem documentOf_split : ∀ (bs : List Block) (i : Nat) {b : Block} {u r : List Char}, (∀ b ∈ bs, '\n' ∉ b.line) →
    bs[i]? = some b → b.line = u ++ r → ∃ p s, documentOf bs = p ++ u ++ s ∧ utf8Len p = lineStart bs i ∧
      p.count '\n' = i ∧ (p = [] ∨ p.getLast? = some '\n')
  | [], _, _, _, _, _, h, _ => by simp at h
  | [c], 0, b, u, r, hn, h, hu => by
    simp only [List.getElem?_cons_zero, Option.some.injEq] at h
    subst h
    exact ⟨[], r, by simpa [documentOf] using hu, rfl, rfl, Or.inl rfl⟩
  | c :: d :: bs, 0, b, u, r, hn, h, hu => by
    simp only [List.getElem?_cons_zero, Option.some.injEq] at h
    subst h
    exact ⟨[], r ++ '\n' :: documentOf (d :: bs), by rw [documentOf_cons, hu]; simp, rfl, rfl, Or.inl rfl⟩
  | [c], i + 1, b, u, r, hn, h, hu => by simp at h
  | c :: d :: bs, i + 1, b, u, r, hn, h, hu => by
    rw [List.getElem?_cons_succ] at h
    obtain ⟨p, s, h1, h2, h3, h4⟩ := documentOf_split (d :: bs) i (fun b hb => hn b (List.mem_cons_of_mem _ hb)) h hu
    have hc := hn c (List.mem_cons_self ..)
    refine ⟨c.line ++ '\n' :: p, s, ?_, ?_, ?_, Or.inr ?_⟩
    · rw [documentOf_cons, h1]; simp
    · simp only [utf8Len_append, utf8Len, h2, lineStart]
      show _ + (1 + _) = _
      omega
    · rw [List.count_append, List.count_eq_zero.mpr hc, List.count_cons_self, h3]; omega
    · rcases h4 with rfl | h4
      · simp
      · rw [List.getLast?_append, List.getLast?_cons, h4]; rfl

theorem runnerPosition_at {bs : List Block} (hn : ∀ b ∈ bs, '\n' ∉ b.line) {i : Nat} {b : Block} {u r : List Char}
    (h : bs[i]? = some b) (hu : b.line = u ++ r) :
    runnerPosition (documentOf bs) (lineStart bs i + utf8Len u) = some (i, utf8Len u) := by
  obtain ⟨p, s, h1, h2, h3, h4⟩ := documentOf_split bs i hn h hu
  have hb : '\n' ∉ u := fun hc => hn b (List.mem_of_getElem? h) (by rw [hu]; exact List.mem_append_left _ hc)
  rw [← h2, ← utf8Len_append, h1, runnerPosition, if_neg (by rw [utf8Len_append (p ++ u)]; omega), takeBytes_app]
  simp only [Option.map_some, lastLine_eq h4 hb, List.count_append, h3, List.count_eq_zero.mpr hb, Nat.add_zero]

theorem lineStart_lt : ∀ {bs : List Block} {i j : Nat} {b : Block}, bs[i]? = some b → i < j → j < bs.length →
    lineStart bs i + utf8Len b.line + 1 ≤ lineStart bs j
  | [], _, _, _, h, _, _ => by simp at h
  | c :: bs, 0, j + 1, b, h, _, _ => by
    simp only [List.getElem?_cons_zero, Option.some.injEq] at h
    subst h
    simp only [lineStart]
    omega
  | c :: bs, i + 1, j + 1, b, h, hij, hj => by
    rw [List.getElem?_cons_succ] at h
    have := lineStart_lt h (Nat.lt_of_succ_lt_succ hij) (Nat.lt_of_succ_lt_succ hj)
    simp only [lineStart]
    omega
  | _, _, 0, _, _, hij, _ => by omega

theorem blockLine_unique {bs : List Block} {i j x y : Nat} {b c : Block} (hb : bs[i]? = some b) (hc : bs[j]? = some c)
    (hx : x ≤ utf8Len b.line) (hy : y ≤ utf8Len c.line) (h : lineStart bs i + x = lineStart bs j + y) :
    i = j ∧ x = y := by
  have hi := (List.getElem?_eq_some_iff.mp hb).1
  have hj := (List.getElem?_eq_some_iff.mp hc).1
  rcases Nat.lt_trichotomy i j with hlt | rfl | hlt
  · have := lineStart_lt hb hlt hj; omega
  · exact ⟨rfl, by omega⟩
  · have := lineStart_lt hc hlt hi; omega

/-! ## The check -/

theorem hintsContains_iff {p : List Char} : ∀ {s : List Char}, Hints.contains p s = true ↔ p <:+: s
  | [] => by simp [Hints.contains]
  | c :: s => by
    rw [Hints.contains, Bool.or_eq_true, hintsContains_iff, List.isPrefixOf_iff_prefix, List.infix_cons_iff]

theorem wants_iff {e : Option Nat} {a : Nat} : wants e a = true ↔ ∀ n, e = some n → a = n := by
  cases e <;> simp [wants]

theorem matchOne_at {bs : List Block} (hn : ∀ b ∈ bs, '\n' ∉ b.line) {e : DiagExpectation} {d : ExtDiag} {i f t : Nat}
    (h : AtLine bs d.start d.stop i f t) (hl : e.line ≠ some 0) :
    ∃ r, matchOne (documentOf bs) e d = .done r ∧ (r = true ↔ e.message <:+: d.message ∧
      (∀ n, e.line = some n → n = i + 1) ∧ (∀ n, e.startCol = some n → n = f) ∧ ∀ n, e.endCol = some n → n = t) := by
  obtain ⟨b, u, v, w, h1, h2, h3, h4, rfl, rfl⟩ := h
  have p1 := runnerPosition_at hn h1 (u := u) (r := v ++ w) (by rw [h2, List.append_assoc])
  have p2 := runnerPosition_at hn h1 (u := u ++ v) (r := w) h2
  rw [utf8Len_append, ← Nat.add_assoc, ← h4] at p2
  rw [← h3] at p1
  have hm : (!e.message.isEmpty && !Hints.contains e.message d.message) = true ↔ ¬ e.message <:+: d.message := by
    rw [← hintsContains_iff]
    cases he : e.message with
    | nil =>
      have : Hints.contains [] d.message = true := hintsContains_iff.mpr ⟨[], d.message, by simp⟩
      simp [this]
    | cons c cs => simp
  rw [matchOne]
  by_cases hc : e.message <:+: d.message
  · rw [if_neg (fun h => hm.mp h hc), p1, p2]
    simp only [hl, if_false]
    refine ⟨_, rfl, ?_⟩
    simp only [Bool.and_eq_true, wants_iff, Option.map_eq_some_iff]
    constructor
    · rintro ⟨⟨q1, q2⟩, q3⟩
      refine ⟨hc, fun n hn => ?_, fun n hn => (q2 n hn).symm, fun n hn => (q3 n hn).symm⟩
      have := q1 (n - 1) ⟨n, hn, rfl⟩
      have : n ≠ 0 := fun h0 => hl (by rw [hn, h0])
      omega
    · rintro ⟨_, q1, q2, q3⟩
      refine ⟨⟨?_, fun n hn => (q2 n hn).symm⟩, fun n hn => (q3 n hn).symm⟩
      rintro m ⟨n, hn, rfl⟩
      have := q1 n hn
      omega
  · rw [if_pos (hm.mpr hc)]
    exact ⟨false, rfl, by simp [hc]⟩

theorem anyMatch_of {content : List Char} {e : DiagExpectation} {P : ExtDiag → Prop} : ∀ {ds : List ExtDiag},
    (∀ d ∈ ds, ∃ r, matchOne content e d = .done r ∧ (r = true ↔ P d)) →
    ∃ r, anyMatch content e ds = .done r ∧ (r = true ↔ ∃ d ∈ ds, P d)
  | [], _ => ⟨false, rfl, by simp⟩
  | d :: ds, h => by
    obtain ⟨r, h1, h2⟩ := h d (List.mem_cons_self ..)
    obtain ⟨s, h3, h4⟩ := anyMatch_of (fun d hd => h d (List.mem_cons_of_mem _ hd))
    cases r with
    | true => exact ⟨true, by rw [anyMatch, h1], by simp [h2.mp rfl]⟩
    | false =>
      refine ⟨s, by rw [anyMatch, h1]; exact h3, ?_⟩
      have : ¬ P d := fun hp => by simpa using h2.mpr hp
      rw [h4]
      simp [this]

theorem allFound_of {content : List Char} {ds : List ExtDiag} {P : DiagExpectation → ExtDiag → Prop} :
    ∀ {es : List DiagExpectation}, (∀ e ∈ es, ∀ d ∈ ds, ∃ r, matchOne content e d = .done r ∧ (r = true ↔ P e d)) →
    ∃ r, allFound content ds es = .done r ∧ (r = true ↔ ∀ e ∈ es, ∃ d ∈ ds, P e d)
  | [], _ => ⟨true, rfl, by simp⟩
  | e :: es, h => by
    obtain ⟨r, h1, h2⟩ := anyMatch_of (h e (List.mem_cons_self ..))
    obtain ⟨s, h3, h4⟩ := allFound_of (es := es) (fun e he => h e (List.mem_cons_of_mem _ he))
    refine ⟨r && s, by rw [allFound, h1, h3]; rfl, ?_⟩
    rw [Bool.and_eq_true, h2, h4]
    simp

theorem allMarkers_mem : ∀ {bs : List Block} {k : Nat} {x : SpanMarker}, x ∈ allMarkers k bs ↔
    ∃ i b m, bs[i]? = some b ∧ m ∈ b.marks ∧
      x = ⟨k + i, utf8Len m.indent, utf8Len m.indent + m.width, m.message.getD []⟩
  | [], k, x => by simp [allMarkers]
  | c :: bs, k, x => by
    rw [allMarkers, List.mem_append, allMarkers_mem, markersOf, List.mem_map]
    constructor
    · rintro (⟨m, hm, rfl⟩ | ⟨i, b, m, h1, h2, rfl⟩)
      · exact ⟨0, c, m, rfl, hm, rfl⟩
      · exact ⟨i + 1, b, m, h1, h2, by simp; omega⟩
    · rintro ⟨i, b, m, h1, h2, rfl⟩
      cases i with
      | zero =>
        simp only [List.getElem?_cons_zero, Option.some.injEq] at h1
        subst h1
        exact Or.inl ⟨m, h2, rfl⟩
      | succ i => exact Or.inr ⟨i, b, m, h1, h2, by simp; omega⟩

end Styx.Lsp
