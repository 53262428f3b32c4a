import Verif.Editor.Scanner

/-!
# The editor's scanner never faults, and its saved state is all that matters
-/

namespace Styx.Editor

/-- Two scanners that hold the same state: they may differ in the part of the array behind the
delimiter. -/
structure Same (s t : Scanner) : Prop where
  bufS : s.buf.length = 17
  bufT : t.buf.length = 17
  len : s.len = t.len
  short : s.len ≤ 16
  delim : s.buf.take s.len = t.buf.take t.len
  inHeredoc : s.inHeredoc = t.inHeredoc
  needsLang : s.needsLang = t.needsLang
  hashes : s.hashes = t.hashes
  few : s.hashes ≤ 255
  inRaw : s.inRaw = t.inRaw
  hint : s.needsLang = true → s.inHeredoc = true

/-- Two scans with the same outcome. -/
def SameScan (a b : Scan) : Prop :=
  ∃ y s t l, a = .ok (y, s, l) ∧ b = .ok (y, t, l) ∧ Same s t

theorem Same.symm {s t : Scanner} (h : Same s t) : Same t s :=
  ⟨h.bufT, h.bufS, h.len.symm, h.len ▸ h.short, h.delim.symm, h.inHeredoc.symm, h.needsLang.symm,
    h.hashes.symm, h.hashes ▸ h.few, h.inRaw.symm,
    h.needsLang ▸ h.inHeredoc ▸ h.hint⟩

theorem Same.trans {s t u : Scanner} (h : Same s t) (k : Same t u) : Same s u :=
  ⟨h.bufS, k.bufT, h.len.trans k.len, h.short, h.delim.trans k.delim, h.inHeredoc.trans k.inHeredoc,
    h.needsLang.trans k.needsLang, h.hashes.trans k.hashes, h.few, h.inRaw.trans k.inRaw, h.hint⟩

theorem Same.left {s t : Scanner} (h : Same s t) : Same s s := h.trans h.symm

theorem create_same : Same .create .create := by
  constructor <;> first | rfl | decide

theorem take_set_same (l : List UInt8) (n : Nat) (b : UInt8) : (l.take n).set n b = l.take n :=
  List.set_eq_of_length_le (by rw [List.length_take]; exact Nat.min_le_left ..)

/-- How many delimiter characters the loop takes. -/
def delimTake (len : Nat) (cs : List Char) : Nat := min (16 - len) (cs.takeWhile isDelimiterChar).length

theorem readDelim_spec (cs : List Char) : ∀ (buf : List UInt8) (len : Nat), buf.length = 17 → len ≤ 16 →
    ∃ buf', readDelim buf len cs = .ok (buf', len + delimTake len cs, cs.drop (delimTake len cs)) ∧
      buf'.length = 17 ∧
      buf'.take (len + delimTake len cs) =
        buf.take len ++ (cs.take (delimTake len cs)).map fun c => UInt8.ofNat c.toNat := by
  induction cs with
  | nil => intro buf len hb hl; exact ⟨buf, by simp [readDelim, delimTake], hb, by simp [delimTake]⟩
  | cons c cs ih =>
    intro buf len hb hl
    by_cases hc : isDelimiterChar c = true ∧ len < 16
    · have hp : put buf len (UInt8.ofNat c.toNat) = .ok (buf.set len (UInt8.ofNat c.toNat)) := by
        simp [put, hb]; omega
      obtain ⟨buf', h1, h2, h3⟩ := ih (buf.set len (UInt8.ofNat c.toNat)) (len + 1) (by simpa using hb)
        (by omega)
      have hn : delimTake len (c :: cs) = delimTake (len + 1) cs + 1 := by
        simp only [delimTake, List.takeWhile_cons, hc.1, if_true, List.length_cons]; omega
      refine ⟨buf', ?_, h2, ?_⟩
      · simp only [readDelim, hc.1, hc.2, decide_true, Bool.and_self, if_true, hp, hn]
        show readDelim _ (len + 1) cs = _
        rw [h1]
        simp only [List.drop_succ_cons]
        congr 3
        omega
      · rw [hn, show len + (delimTake (len + 1) cs + 1) = len + 1 + delimTake (len + 1) cs by omega, h3]
        have : (buf.set len (UInt8.ofNat c.toNat)).take (len + 1) = buf.take len ++ [UInt8.ofNat c.toNat] := by
          rw [List.take_succ_eq_append_getElem (by simp [hb]; omega)]
          simp [List.take_set, take_set_same]
        rw [this]; simp
    · have hn : delimTake len (c :: cs) = 0 := by
        simp only [delimTake, List.takeWhile_cons]
        split <;> rename_i h
        · have : ¬ len < 16 := fun hh => hc ⟨h, hh⟩
          omega
        · simp
      refine ⟨buf, ?_, hb, by simp [hn]⟩
      have : (isDelimiterChar c && decide (len < 16)) = false := by
        rw [Bool.eq_false_iff]; intro hh; simp at hh; exact hc hh
      simp [readDelim, this, hn]

theorem delimTake_le (cs : List Char) : delimTake 0 cs ≤ 16 := by simp [delimTake]; omega

theorem put_ok {buf : List UInt8} {i : Nat} {b : UInt8} (hb : buf.length = 17) (hi : i ≤ 16) :
    put buf i b = .ok (buf.set i b) := by simp [put, hb]; omega

theorem get_ok {buf : List UInt8} {n : Nat} (hb : buf.length = 17) (hi : n ≤ 16) :
    get buf n = .ok (buf.take n) := by simp [get, hb]; omega

/-- The start of a heredoc, if the text is `<<` and an upper-case letter. -/
theorem scanHeredocStart_spec {s : Scanner} {l : Lexer} {cs : List Char} (hb : s.buf.length = 17)
    (hh : l.here = '<' :: '<' :: cs) (hc : cs.head?.any isDelimiterStart = true) :
    ∃ buf, buf.length = 17 ∧
      buf.take (delimTake 0 cs) = (cs.take (delimTake 0 cs)).map (fun c => UInt8.ofNat c.toNat) ∧
      scanHeredocStart s l =
        (let r := cs.drop (delimTake 0 cs)
         let s' := { s with buf := buf, len := delimTake 0 cs }
         let l' := { l with here := r }
         if r.head? ≠ some ',' ∧ r.head? ≠ some '\n' ∧ r.head? ≠ some '\r' then .ok (none, s', l')
         else .ok (some .heredocStart, { s' with inHeredoc := true, needsLang := true }, l')) := by
  obtain ⟨buf', h1, h2, h3⟩ := readDelim_spec cs s.buf 0 hb (by omega)
  simp only [Nat.zero_add, List.take_zero, List.nil_append] at h1 h3
  refine ⟨buf'.set (delimTake 0 cs) 0, by simpa using h2, ?_, ?_⟩
  · rw [← h3, List.take_set, take_set_same]
  · simp only [scanHeredocStart, hh, Lexer.advance, List.head?_cons, List.tail_cons, looks, hc,
      ne_eq, not_true_eq_false, if_false, Bool.not_true, Bool.false_eq_true]
    rw [h1]
    show (put buf' (delimTake 0 cs) 0 >>= _) = _
    rw [put_ok h2 (delimTake_le cs)]
    show (if _ then _ else _) = _
    split <;> rfl

theorem scanHeredocStart_same {s t : Scanner} (h : Same s t) (l : Lexer) :
    SameScan (scanHeredocStart s l) (scanHeredocStart t l) := by
  by_cases h1 : ∃ cs, l.here = '<' :: '<' :: cs
  · obtain ⟨cs, h1⟩ := h1
    by_cases h2 : cs.head?.any isDelimiterStart = true
    · obtain ⟨b1, hb1, ht1, e1⟩ := scanHeredocStart_spec (s := s) h.bufS h1 h2
      obtain ⟨b2, hb2, ht2, e2⟩ := scanHeredocStart_spec (s := t) h.bufT h1 h2
      rw [e1, e2]
      simp only
      split
      · exact ⟨_, _, _, _, rfl, rfl, ⟨hb1, hb2, rfl, delimTake_le cs, ht1.trans ht2.symm, h.inHeredoc,
          h.needsLang, h.hashes, h.few, h.inRaw, h.hint⟩⟩
      · exact ⟨_, _, _, _, rfl, rfl, ⟨hb1, hb2, rfl, delimTake_le cs, ht1.trans ht2.symm, rfl,
          rfl, h.hashes, h.few, h.inRaw, fun _ => rfl⟩⟩
    · simp only [Bool.not_eq_true] at h2
      refine ⟨none, s, t, l.advance.advance, ?_, ?_, h⟩ <;>
        simp [scanHeredocStart, h1, Lexer.advance, looks, h2]
  · by_cases h2 : l.here.head? = some '<'
    · have h3 : l.advance.here.head? ≠ some '<' := by
        intro h3
        apply h1
        cases hl : l.here with
        | nil => simp [hl] at h2
        | cons a as =>
          simp only [hl, List.head?_cons, Option.some.injEq] at h2
          subst h2
          simp only [Lexer.advance, hl, List.tail_cons] at h3
          cases as with
          | nil => simp at h3
          | cons b bs => simp at h3; subst h3; exact ⟨bs, rfl⟩
      exact ⟨none, s, t, l.advance, by simp [scanHeredocStart, h2, h3], by simp [scanHeredocStart, h2, h3], h⟩
    · exact ⟨none, s, t, l, by simp [scanHeredocStart, h2], by simp [scanHeredocStart, h2], h⟩

theorem scanHeredocLang_same {s t : Scanner} (h : Same s t) (l : Lexer) :
    ∃ y s' t' l', scanHeredocLang s l = (y, s', l') ∧ scanHeredocLang t l = (y, t', l') ∧ Same s' t' := by
  simp only [scanHeredocLang, h.needsLang]
  split
  · exact ⟨_, _, _, _, rfl, rfl, h⟩
  split
  · exact ⟨_, _, _, _, rfl, rfl, h⟩
  split
  · exact ⟨_, _, _, _, rfl, rfl, h⟩
  split
  · exact ⟨_, _, _, _, rfl, rfl, h⟩
  · exact ⟨_, _, _, _, rfl, rfl, ⟨h.bufS, h.bufT, h.len, h.short, h.delim, h.inHeredoc, rfl, h.hashes,
      h.few, h.inRaw, nofun⟩⟩

theorem dropWhile_length (p : Char → Bool) (s : List Char) : (s.dropWhile p).length ≤ s.length :=
  (List.dropWhile_sublist p).length_le

theorem advanceIf_length (l : Lexer) (c : Char) : (l.advanceIf c).here.length ≤ l.here.length := by
  unfold Lexer.advanceIf; split <;> simp [Lexer.advance]

theorem matchDelim_length (d : List UInt8) : ∀ l : Lexer, (matchDelim d l).2.here.length ≤ l.here.length := by
  induction d with
  | nil => intro l; simp [matchDelim]
  | cons b bs ih =>
    intro l
    simp only [matchDelim]
    split
    · simp
    · exact Nat.le_trans (ih _) (by simp [Lexer.advance])

/-- A round of the heredoc loop that goes on takes at least one character. -/
theorem line_shorter (l : Lexer) (h : (((l.advanceWhile inLine).advanceIf '\r').advanceIf '\n').here ≠ []) :
    (((l.advanceWhile inLine).advanceIf '\r').advanceIf '\n').here.length < l.here.length := by
  have hd : (l.advanceWhile inLine).here.length ≤ l.here.length := dropWhile_length _ _
  cases hw : (l.advanceWhile inLine).here with
  | nil =>
    exfalso; apply h
    have h1 := advanceIf_length (l.advanceWhile inLine) '\r'
    have h2 := advanceIf_length ((l.advanceWhile inLine).advanceIf '\r') '\n'
    rw [hw] at h1
    simp only [List.length_nil, Nat.le_zero_eq, List.length_eq_zero_iff] at h1
    rw [h1] at h2
    simpa using h2
  | cons c cs =>
    have hc : inLine c = false := by
      have := List.head?_dropWhile_not inLine l.here
      simp only [Lexer.advanceWhile] at hw
      rw [hw] at this
      simpa using this
    have hc : c = '\n' ∨ c = '\r' := by
      by_cases hn : c = '\n'
      · exact .inl hn
      · exact .inr (by simpa [inLine, hn] using hc)
    have hlt : cs.length < l.here.length := by rw [hw] at hd; simp only [List.length_cons] at hd; omega
    rcases hc with rfl | rfl
    · have : ((l.advanceWhile inLine).advanceIf '\r') = l.advanceWhile inLine := by
        simp [Lexer.advanceIf, hw]
      rw [this]
      simpa [Lexer.advanceIf, hw, Lexer.advance] using hlt
    · have : ((l.advanceWhile inLine).advanceIf '\r').here = cs := by
        simp [Lexer.advanceIf, hw, Lexer.advance]
      exact Nat.lt_of_le_of_lt (advanceIf_length _ _) (by rw [this]; exact hlt)

theorem heredocLoop_same {s t : Scanner} (h : Same s t) (hn : s.needsLang = false) (d : List UInt8) : ∀ (f : Nat) (has : Bool) (l : Lexer),
    l.here.length < f → SameScan (heredocLoop s d f has l) (heredocLoop t d f has l) := by
  intro f
  induction f with
  | zero => intro has l hl; omega
  | succ f ih =>
    intro has l hl
    simp only [heredocLoop]
    have hm := matchDelim_length d (l.markEnd.advanceWhile isBlank)
    have hb : (l.markEnd.advanceWhile isBlank).here.length ≤ l.here.length := dropWhile_length _ _
    generalize matchDelim d (l.markEnd.advanceWhile isBlank) = m at hm
    obtain ⟨at_, l1⟩ := m
    simp only at hm ⊢
    split
    · split
      · exact ⟨_, _, _, _, rfl, rfl, h⟩
      · exact ⟨_, _, _, _, rfl, rfl, ⟨h.bufS, h.bufT, h.len, h.short, h.delim, rfl, h.needsLang,
          h.hashes, h.few, h.inRaw, fun h => by simp [hn] at h⟩⟩
    · split
      · exact ⟨_, _, _, _, rfl, rfl, h⟩
      · rename_i hne
        have := line_shorter l1 (by simpa using hne)
        exact ih true _ (by simp only [Lexer.markEnd]; omega)

theorem scanHeredocContentOrEnd_same {s t : Scanner} (h : Same s t) (l : Lexer) :
    SameScan (scanHeredocContentOrEnd s l) (scanHeredocContentOrEnd t l) := by
  simp only [scanHeredocContentOrEnd, h.inHeredoc]
  split
  · exact ⟨_, _, _, _, rfl, rfl, h⟩
  · rw [get_ok h.bufS h.short, get_ok h.bufT (h.len ▸ h.short)]
    rw [h.needsLang, h.delim]
    exact heredocLoop_same (s := ⟨s.buf, s.len, t.inHeredoc, false, s.hashes, s.inRaw⟩)
      (t := ⟨t.buf, t.len, t.inHeredoc, false, t.hashes, t.inRaw⟩)
      ⟨h.bufS, h.bufT, h.len, h.short, h.delim, rfl, rfl, h.hashes, h.few, h.inRaw, nofun⟩ rfl (t.buf.take t.len)
      ((if t.needsLang = true then (l.advanceIf '\r').advanceIf '\n' else l).here.length + 1) false
      (if t.needsLang = true then (l.advanceIf '\r').advanceIf '\n' else l) (Nat.lt_succ_self _)

theorem stepHashes_le (n : Nat) : ∀ l : Lexer, (stepHashes n l).1 ≤ n ∧
    (stepHashes n l).2.here.length ≤ l.here.length := by
  induction n with
  | zero => intro l; simp [stepHashes]
  | succ n ih =>
    intro l
    simp only [stepHashes]
    split
    · have := ih l.advance
      simp only [Lexer.advance, List.length_tail] at this ⊢
      omega
    · simp

theorem scanRawStart_same {s t : Scanner} (h : Same s t) (l : Lexer) (y : Symbol) :
    ∃ y' s' t' l', scanRawStart s l y = (y', s', l') ∧ scanRawStart t l y = (y', t', l') ∧ Same s' t' := by
  simp only [scanRawStart]
  split
  · exact ⟨_, _, _, _, rfl, rfl, h⟩
  · have := (stepHashes_le 255 l.advance).1
    generalize stepHashes 255 l.advance = k at this
    obtain ⟨k, l1⟩ := k
    simp only at this ⊢
    split
    · exact ⟨_, _, _, _, rfl, rfl, ⟨h.bufS, h.bufT, h.len, h.short, h.delim, h.inHeredoc, h.needsLang,
        rfl, this, h.inRaw, h.hint⟩⟩
    · exact ⟨_, _, _, _, rfl, rfl, ⟨h.bufS, h.bufT, h.len, h.short, h.delim, h.inHeredoc, h.needsLang,
        rfl, this, rfl, h.hint⟩⟩

theorem rawLoop_same {s t : Scanner} (h : Same s t) : ∀ (f : Nat) (has : Bool) (l : Lexer),
    l.here.length < f → SameScan (rawLoop s f has l) (rawLoop t f has l) := by
  intro f
  induction f with
  | zero => intro has l hl; omega
  | succ f ih =>
    intro has l hl
    simp only [rawLoop]
    cases hh : l.here with
    | nil => simp only; split <;> exact ⟨_, _, _, _, rfl, rfl, h⟩
    | cons c cs =>
      simp only
      rw [hh] at hl
      simp only [List.length_cons] at hl
      split
      · rw [← h.hashes]
        have := (stepHashes_le s.hashes l.markEnd.advance).2
        generalize stepHashes s.hashes l.markEnd.advance = k at this
        obtain ⟨k, l1⟩ := k
        simp only [Lexer.markEnd, Lexer.advance, hh, List.tail_cons] at this ⊢
        split
        · split
          · exact ⟨_, _, _, _, rfl, rfl, h⟩
          · exact ⟨_, _, _, _, rfl, rfl, ⟨h.bufS, h.bufT, h.len, h.short, h.delim, h.inHeredoc,
              h.needsLang, rfl, h.few, rfl, h.hint⟩⟩
        · exact ih true _ (by omega)
      · exact ih true _ (by simp only [Lexer.advance, hh, List.tail_cons]; omega)

theorem scanRawContentOrEnd_same {s t : Scanner} (h : Same s t) (l : Lexer) :
    SameScan (scanRawContentOrEnd s l) (scanRawContentOrEnd t l) := by
  simp only [scanRawContentOrEnd, h.inRaw]
  split
  · exact ⟨_, _, _, _, rfl, rfl, h⟩
  · exact rawLoop_same h _ _ _ (by omega)

theorem scanOther_same {s t : Scanner} (h : Same s t) (v : Symbol → Bool) (l : Lexer) :
    SameScan (scanOther v s l) (scanOther v t l) := by
  simp only [scanOther, h.inHeredoc, h.inRaw]
  split
  · split <;> exact ⟨_, _, _, _, rfl, rfl, h⟩
  split
  · obtain ⟨y, s', t', l', h1, h2, h3⟩ := scanRawStart_same h l .immediateRawStart
    exact ⟨y, s', t', l', by rw [h1], by rw [h2], h3⟩
  generalize (if (!t.inHeredoc && !t.inRaw) = true then
    (if l.here.dropWhile isBlank = l.here then l
      else ({ l with start := l.here.dropWhile isBlank, here := l.here.dropWhile isBlank } : Lexer)) else l) = l1
  split
  · exact ⟨_, _, _, _, rfl, rfl, h⟩
  split
  · exact scanHeredocStart_same h l1
  split
  · obtain ⟨y, s', t', l', h1, h2, h3⟩ := scanRawStart_same h l1 .rawStart
    exact ⟨y, s', t', l', by rw [h1], by rw [h2], h3⟩
  · exact ⟨_, _, _, _, rfl, rfl, h⟩

theorem scanInside_same {s t : Scanner} (h : Same s t) (v : Symbol → Bool) (l : Lexer) :
    SameScan (scanInside v s l) (scanInside v t l) := by
  simp only [scanInside, h.inHeredoc, h.inRaw]
  split
  · exact scanHeredocContentOrEnd_same h l
  split
  · exact scanRawContentOrEnd_same h l
  · exact scanOther_same h v l

/-- Scanning depends on the held state only, does not fault and leaves the same state. -/
theorem scan_same {s t : Scanner} (h : Same s t) (v : Symbol → Bool) (l : Lexer) :
    SameScan (scan v s l) (scan v t l) := by
  simp only [scan, h.needsLang]
  split
  · obtain ⟨y, s', t', l', h1, h2, h3⟩ := scanHeredocLang_same h l
    rw [h1, h2]
    cases y with
    | none => exact scanInside_same h3 v l'
    | some y => exact ⟨_, _, _, _, rfl, rfl, h3⟩
  · exact scanInside_same h v l

theorem serialize_ok {s : Scanner} (h : Same s s) :
    s.serialize = .ok (flag s.inHeredoc :: flag s.needsLang :: UInt8.ofNat s.len ::
      (s.buf.take s.len ++ [flag s.inRaw, UInt8.ofNat s.hashes])) := by
  simp only [Scanner.serialize, get_ok h.bufS h.short]; rfl

theorem copyDelim_spec (d : List UInt8) : ∀ (buf : List UInt8) (j : Nat) (rest : List UInt8),
    buf.length = 17 → j + d.length ≤ 16 →
    ∃ buf', copyDelim buf j d.length (d ++ rest) = .ok (buf', rest) ∧ buf'.length = 17 ∧
      buf'.take (j + d.length) = buf.take j ++ d := by
  induction d with
  | nil => intro buf j rest hb _; exact ⟨buf, by simp [copyDelim], hb, by simp⟩
  | cons b bs ih =>
    intro buf j rest hb hj
    simp only [List.length_cons] at hj
    obtain ⟨buf', h1, h2, h3⟩ := ih (buf.set j b) (j + 1) rest (by simpa using hb) (by omega)
    refine ⟨buf', ?_, h2, ?_⟩
    · simp only [List.length_cons, List.cons_append, copyDelim, put_ok hb (show j ≤ 16 by omega)]
      exact h1
    · rw [List.length_cons, show j + (bs.length + 1) = j + 1 + bs.length by omega, h3]
      rw [List.take_succ_eq_append_getElem (by simp [hb]; omega)]
      simp [List.take_set, take_set_same]

theorem flag_ne (b : Bool) : (flag b != 0) = b := by cases b <;> rfl

/-- Restoring what was saved gives the same state, whatever the scanner held before. -/
theorem deserialize_serialize {s old : Scanner} {bytes : List UInt8} (h : Same s s)
    (ho : old.buf.length = 17) (hs : s.serialize = .ok bytes) :
    ∃ t, old.deserialize bytes = .ok t ∧ Same s t := by
  rw [serialize_ok h] at hs
  injection hs with hs
  subst hs
  have hl : (UInt8.ofNat s.len).toNat = s.len := by
    rw [UInt8.toNat_ofNat']; exact Nat.mod_eq_of_lt (by have := h.short; omega)
  have hh : (UInt8.ofNat s.hashes).toNat = s.hashes := by
    rw [UInt8.toNat_ofNat']; exact Nat.mod_eq_of_lt (by have := h.few; omega)
  have hlen : (s.buf.take s.len).length = s.len := by
    rw [List.length_take, h.bufS]; have := h.short; omega
  obtain ⟨buf', h1, h2, h3⟩ := copyDelim_spec (s.buf.take s.len) (old.buf.set 0 0) 0
    [flag s.inRaw, UInt8.ofNat s.hashes] (by simpa using ho) (by rw [hlen]; have := h.short; omega)
  rw [hlen] at h1 h3
  simp only [Nat.zero_add, List.take_zero, List.nil_append] at h3
  refine ⟨⟨buf'.set s.len 0, s.len, s.inHeredoc, s.needsLang, s.hashes, s.inRaw⟩, ?_,
    ⟨h.bufS, by simpa using h2, rfl, h.short, ?_, rfl, rfl, rfl, h.few, rfl, h.hint⟩⟩
  · simp only [Scanner.deserialize, put_ok ho (Nat.zero_le 16), hl]
    show (copyDelim _ 0 s.len _ >>= _) = _
    rw [h1]
    show (put buf' s.len 0 >>= _) = _
    rw [put_ok h2 h.short]
    simp only [flag_ne]
    show Except.ok (restoreRaw _ _) = _
    simp [restoreRaw, flag_ne, hh]
  · simp only
    rw [List.take_set, take_set_same, h3]

/-- The empty state restores to a fresh scanner. -/
theorem deserialize_nil {old : Scanner} (ho : old.buf.length = 17) :
    ∃ t, old.deserialize [] = .ok t ∧ Same .create t := by
  refine ⟨⟨old.buf.set 0 0, 0, false, false, 0, false⟩, ?_,
    ⟨rfl, by simpa using ho, rfl, by decide, rfl, rfl, rfl, rfl, by decide, rfl, nofun⟩⟩
  simp only [Scanner.deserialize, put_ok ho (Nat.zero_le 16)]; rfl

end Styx.Editor
