import Verif.Editor.Heredoc
import Verif.Parse.HeredocLemmas
import Verif.Tokenizer.Kinds

/-!
# Heredocs along the grammar rule, and in the tokenizer
-/

namespace Styx.Editor

open Styx.Spec

theorem between_drop (u : List Char) (k : Nat) : between u (u.drop k) = u.take k := by
  unfold between
  rw [List.length_drop]
  by_cases h : k ≤ u.length
  · rw [show u.length - (u.length - k) = k by omega]
  · rw [List.take_of_length_le (by omega), List.take_of_length_le (by omega)]

/-- The scanner is inside a heredoc with delimiter `d`. -/
structure InDoc (s : Scanner) (d : List Char) : Prop where
  buf : s.buf.length = 17
  len : s.len = d.length
  short : d.length ≤ 16
  bytes : s.buf.take s.len = delimBytes d
  inHeredoc : s.inHeredoc = true

theorem contentOrEnd_loop {s : Scanner} {d : List Char} (h : InDoc s d) (l : Lexer) :
    scanHeredocContentOrEnd s l =
      heredocLoop { s with needsLang := false } (delimBytes d)
        ((if s.needsLang then (l.advanceIf '\r').advanceIf '\n' else l).here.length + 1) false
        (if s.needsLang then (l.advanceIf '\r').advanceIf '\n' else l) := by
  simp only [scanHeredocContentOrEnd, h.inHeredoc, Bool.not_true, Bool.false_eq_true, if_false,
    get_ok h.buf (h.len ▸ h.short), h.bytes]
  rfl

theorem scan_inDoc {s : Scanner} {d : List Char} (h : InDoc s d) (hn : s.needsLang = false) {row : Nat}
    (hr : row = 7 ∨ row = 9) (l : Lexer) :
    scan (validSymbols row) s l = heredocLoop s (delimBytes d) (l.here.length + 1) false l := by
  have h1 : scan (validSymbols row) s l = scanHeredocContentOrEnd s l := by
    rcases hr with rfl | rfl <;>
      simp [scan, hn, scanInside, h.inHeredoc, validSymbols, validIn]
  rw [h1, contentOrEnd_loop h, hn]
  have : ({ s with needsLang := false } : Scanner) = s := by cases s; simp_all
  rw [this]; rfl

/-- The closing line. -/
theorem follow_end {s : Scanner} {d : List Char} (h : InDoc s d) (hn : s.needsLang = false)
    (hd : ∀ c ∈ d, isDelimChar c = true) (hne : d ≠ []) (n : Nat) {row : Nat} (hr : row = 7 ∨ row = 9)
    {u : List Char} (hp : PairedCR u) {i : Nat} (hf : findDelim d u = some i) :
    followRule (n + 1) row s u =
      some ([⟨.heredocEnd, [], u.take (i + d.length)⟩], u.drop (i + d.length)) := by
  have hs := heredocLoop_spec s hd hne (u.length + 1) false (.at u) (Nat.lt_succ_self _) hp
  rw [show (Lexer.at u).here = u from rfl, hf] at hs
  simp only [Bool.false_eq_true, if_false] at hs
  obtain ⟨h', hs⟩ := hs
  rw [followRule_step ((scan_inDoc h hn hr (.at u)).trans hs)]
  have hv : validSymbols row .heredocEnd = true := by rcases hr with rfl | rfl <;> rfl
  simp only [hv, Bool.not_true, Bool.false_eq_true, if_false, rowAfter, Option.getD_some, Lexer.at]
  rw [between_self, between_drop]

/-- What follows the opening, for the tokenizer: content, closing and rest. -/
def tokDoc (d u : List Char) : Option (List Char × List Char × List Char) :=
  match findDelim d u with
  | some i => some ([], u.take (i + d.length), u.drop (i + d.length))
  | none =>
    match scanHeredoc d u with
    | (a, b, some i) => some (a, b.take (i + d.length), b.drop (i + d.length))
    | (_, _, none) => none

/-- Following the rule once the scan is in the loop. -/
theorem follow_doc {s s' : Scanner} {d : List Char} (h : InDoc s' d) (hn : s'.needsLang = false)
    (hd : ∀ c ∈ d, isDelimChar c = true) (hne : d ≠ []) (n : Nat) {row : Nat} (hr : row = 5 ∨ row = 7)
    {text sk lead u : List Char} {m : Option (List Char)} (hp : PairedCR u) (ht : text = sk ++ (lead ++ u))
    (hs : scan (validSymbols row) s (.at text) =
      heredocLoop s' (delimBytes d) (u.length + 1) false ⟨lead ++ u, u, m⟩) :
    followRule (n + 2) row s text =
      match tokDoc d u with
      | some (content, close, rest) =>
        some (if content = [] then [⟨.heredocEnd, sk, lead ++ close⟩]
          else [⟨.heredocContent, sk, lead ++ content⟩, ⟨.heredocEnd, [], close⟩], rest)
      | none => none := by
  have hl := heredocLoop_spec s' hd hne (u.length + 1) false ⟨lead ++ u, u, m⟩ (Nat.lt_succ_self _) hp
  simp only [Bool.false_eq_true, if_false] at hl
  have hv1 : validSymbols row .heredocEnd = true := by rcases hr with rfl | rfl <;> rfl
  have hv2 : validSymbols row .heredocContent = true := by rcases hr with rfl | rfl <;> rfl
  unfold tokDoc
  cases hf : findDelim d u with
  | some i =>
    rw [hf] at hl
    obtain ⟨h', hl⟩ := hl
    rw [followRule_step (hs.trans hl)]
    simp only [hv1, Bool.not_true, Bool.false_eq_true, if_false, rowAfter, Option.getD_some, if_true]
    have : lead ++ u = (lead ++ u.take (i + d.length)) ++ u.drop (i + d.length) := by
      rw [List.append_assoc, List.take_append_drop]
    rw [ht, between_append]
    conv => lhs; arg 1; arg 1; arg 1; arg 3; arg 1; rw [this]
    rw [between_append]
  | none =>
    rw [hf] at hl
    obtain ⟨h', hl⟩ := hl
    rw [followRule_step (hs.trans hl)]
    simp only [hv2, Bool.not_true, Bool.false_eq_true, if_false, rowAfter, Option.getD_some]
    have happ := scanHeredoc_append d u
    cases hsc : scanHeredoc d u with
    | mk a q =>
      obtain ⟨b, r⟩ := q
      rw [hsc] at happ
      simp only at happ ⊢
      cases r with
      | none =>
        obtain ⟨-, rfl⟩ := scanHeredoc_none_rest d u a b hsc
        have h2 := heredocLoop_spec s' hd hne 1 false (.at []) (by decide) (by
          intro a b h; cases a <;> cases h)
        rw [show (Lexer.at []).here = [] from rfl, findDelim_nil hne] at h2
        obtain ⟨h'', h2⟩ := h2
        rw [followRule_step ((scan_inDoc h hn (.inr rfl) (.at [])).trans h2)]
        rfl
      | some i =>
        obtain ⟨⟨r', hr'⟩, hf2⟩ := scanHeredoc_content d u a b i hne hsc
        have hpb : PairedCR b := hp.suffix ⟨a, happ⟩
        rw [follow_end h hn hd hne n (.inr rfl) hpb hf2]
        have ha : a ≠ [] := by rw [hr']; simp
        simp only [ha, if_false]
        rw [ht, between_append, ← happ, ← List.append_assoc, between_append]

theorem lang_class : (fun c => isLangHintChar c) = isLangChar := funext isLangHintChar_eq

theorem newlineOpt_eq (l : Lexer) (hp : PairedCR l.here) :
    (l.advanceIf '\r').advanceIf '\n' = { l with here := (scanNewlineOpt l.here).2 } := by
  obtain ⟨start, here, mark⟩ := l
  cases here with
  | nil => simp [Lexer.advanceIf, scanNewlineOpt]
  | cons c cs =>
    by_cases h1 : c = '\r'
    · subst h1
      obtain ⟨r, rfl⟩ := PairedCR.cr hp
      simp [Lexer.advanceIf, Lexer.advance, scanNewlineOpt]
    by_cases h2 : c = '\n'
    · subst h2; simp [Lexer.advanceIf, Lexer.advance, scanNewlineOpt]
    · have : scanNewlineOpt (c :: cs) = ([], c :: cs) := by
        unfold scanNewlineOpt; split <;> simp_all
      simp [Lexer.advanceIf, h1, h2, this]

theorem newlineOpt_nil {s : List Char} (hp : PairedCR s) :
    (scanNewlineOpt s).1 = [] ↔ s.head? ≠ some '\n' ∧ s.head? ≠ some '\r' := by
  unfold scanNewlineOpt
  split
  · simp
  · simp
  · simp
  · rename_i h1 h2 h3
    simp only [true_iff]
    cases s with
    | nil => simp
    | cons c cs =>
      constructor
      · intro h; simp at h; exact h3 cs (by rw [h])
      · intro h; simp at h; exact h2 cs (by rw [h])

/-- Inside a heredoc, after the opening and its delimiter. -/
theorem follow_opening {s : Scanner} {d : List Char} (h : InDoc s d) (hn : s.needsLang = true)
    (hd : ∀ c ∈ d, isDelimChar c = true) (hne : d ≠ []) {r1 : List Char} (hp : PairedCR r1) :
    followRule 3 5 s r1 =
      match tokDoc d (scanNewlineOpt (scanLang r1).2).2 with
      | some (content, close, rest) =>
        some ((heredocPieces [] d (scanLang r1).1 (scanNewlineOpt (scanLang r1).2).1 content close).tail, rest)
      | none => none := by
  have hin : ∀ l, scanInside (validSymbols 5) s l = scanHeredocContentOrEnd s l := by
    intro l
    have e1 : validSymbols 5 .heredocContent = true := rfl
    simp [scanInside, h.inHeredoc, e1]
  have e2 : validSymbols 5 .heredocLang = true := rfl
  have hin' : InDoc { s with needsLang := false } d := ⟨h.buf, h.len, h.short, h.bytes, h.inHeredoc⟩
  have hcontent : ∀ l : Lexer, PairedCR l.here → scanHeredocContentOrEnd s l =
      heredocLoop { s with needsLang := false } (delimBytes d) ((scanNewlineOpt l.here).2.length + 1) false
        { l with here := (scanNewlineOpt l.here).2 } := by
    intro l hpl
    rw [contentOrEnd_loop h, hn]
    simp only [if_true]
    rw [newlineOpt_eq l hpl]
  by_cases hc : ∃ v, r1 = ',' :: v
  · obtain ⟨v, rfl⟩ := hc
    have hpv := hp.tail
    by_cases hlow : ∃ x xs, v = x :: xs ∧ x.isLower = true
    · obtain ⟨x, xs, rfl, hx⟩ := hlow
      have hsl : scanLang (',' :: x :: xs) = (',' :: x :: xs.takeWhile isLangChar, xs.dropWhile isLangChar) := by
        simp [scanLang, hx]
      have hxl : isLangChar x = true := by simp [isLangChar, hx]
      rw [hsl]
      simp only
      have hpw : PairedCR (xs.dropWhile isLangChar) := hpv.tail.suffix (List.dropWhile_suffix _)
      have hlook : looks isLangHintStart ⟨x :: xs, x :: xs, none⟩ = true := by
        simp [looks, isLangHintStart_eq, hx]
      have hadv : ((⟨x :: xs, x :: xs, none⟩ : Lexer).advanceWhile isLangHintChar).markEnd =
          ⟨x :: xs, xs.dropWhile isLangChar, some (xs.dropWhile isLangChar)⟩ := by
        have : isLangHintChar = isLangChar := funext isLangHintChar_eq
        simp [Lexer.advanceWhile, Lexer.markEnd, this, hxl]
      by_cases hnl : (scanNewlineOpt (xs.dropWhile isLangChar)).1 = []
      · -- no line break after the hint
        have hhd := (newlineOpt_nil hpw).1 hnl
        have hsc : scan (validSymbols 5) s (.at (',' :: x :: xs)) =
            scanHeredocContentOrEnd s ⟨x :: xs, xs.dropWhile isLangChar, some (xs.dropWhile isLangChar)⟩ := by
          simp only [scan, hn, e2, Bool.and_self, if_true, scanHeredocLang, Lexer.at, Lexer.skip,
            List.head?_cons, ne_eq, not_true_eq_false, if_false, List.tail_cons, hlook, hadv, hhd,
            Bool.not_true, Bool.false_eq_true, not_false_eq_true, and_self, hin]
        rw [hcontent _ hpw] at hsc
        have happ := scanNewlineOpt_append (xs.dropWhile isLangChar)
        rw [hnl, List.nil_append] at happ
        simp only [happ] at hsc
        rw [happ]
        have := follow_doc hin' rfl hd hne 1 (.inl rfl) (text := ',' :: x :: xs) (sk := [','])
          (lead := x :: xs.takeWhile isLangChar) (u := xs.dropWhile isLangChar)
          (m := some (xs.dropWhile isLangChar)) hpw
          (by simp [List.takeWhile_append_dropWhile])
          (by rw [hsc]; simp [List.takeWhile_append_dropWhile])
        rw [this]
        cases tokDoc d (xs.dropWhile isLangChar) with
        | none => rfl
        | some q =>
          obtain ⟨content, close, rest⟩ := q
          simp only [heredocPieces, hnl, ne_eq, not_true_eq_false, and_false, if_false, List.tail_cons,
            List.take_succ_cons, List.take_zero, List.drop_succ_cons, List.drop_zero, List.append_nil]
      · -- a line break after the hint
        have hhd : ¬ ((xs.dropWhile isLangChar).head? ≠ some '\n' ∧ (xs.dropWhile isLangChar).head? ≠ some '\r') :=
          fun hh => hnl ((newlineOpt_nil hpw).2 hh)
        have hsc : scan (validSymbols 5) s (.at (',' :: x :: xs)) =
            .ok (some .heredocLang, { s with needsLang := false },
              ⟨x :: xs, (scanNewlineOpt (xs.dropWhile isLangChar)).2, some (xs.dropWhile isLangChar)⟩) := by
          have := newlineOpt_eq ⟨x :: xs, xs.dropWhile isLangChar, some (xs.dropWhile isLangChar)⟩ hpw
          simp only [scan, hn, e2, Bool.and_self, if_true, scanHeredocLang, Lexer.at, Lexer.skip,
            List.head?_cons, ne_eq, not_true_eq_false, if_false, List.tail_cons, hlook, hadv,
            Bool.not_true, Bool.false_eq_true]
          rw [if_neg hhd]
          simp only [this]
        rw [followRule_step hsc]
        simp only [e2, Bool.not_true, Bool.false_eq_true, if_false, rowAfter, Option.getD_some]
        have hbet : between (x :: xs) (xs.dropWhile isLangChar) = x :: xs.takeWhile isLangChar := by
          conv => lhs; arg 1; rw [← List.takeWhile_append_dropWhile (p := isLangChar) (l := xs)]
          rw [← List.cons_append, between_append]
        have hbet2 : between (',' :: x :: xs) (x :: xs) = [','] := between_append [','] (x :: xs)
        have happ := scanNewlineOpt_append (xs.dropWhile isLangChar)
        have hshape : ∃ line, (scanNewlineOpt (xs.dropWhile isLangChar)).1 = line ++ ['\n'] ∧ '\n' ∉ line ∧
            (line = [] ∨ line = ['\r']) := by
          cases hw : xs.dropWhile isLangChar with
          | nil => rw [hw] at hnl; exact absurd rfl hnl
          | cons c cs =>
            by_cases h1 : c = '\r'
            · subst h1
              rw [hw] at hpw
              obtain ⟨r, rfl⟩ := hpw.cr
              exact ⟨['\r'], rfl, by decide, .inr rfl⟩
            by_cases h2 : c = '\n'
            · subst h2; exact ⟨[], rfl, by decide, .inl rfl⟩
            · rw [hw] at hhd; simp [h1, h2] at hhd
        obtain ⟨line, hline, hlm, hlc⟩ := hshape
        have hwhole : xs.dropWhile isLangChar = line ++ '\n' :: (scanNewlineOpt (xs.dropWhile isLangChar)).2 := by
          conv => lhs; rw [← happ, hline]
          simp
        generalize hu : (scanNewlineOpt (xs.dropWhile isLangChar)).2 = u at hwhole
        generalize hw : xs.dropWhile isLangChar = w at *
        have hnone : findDelim d w = none := by
          cases hfd : findDelim d w with
          | none => rfl
          | some i =>
            exfalso
            obtain ⟨ind, r, h1, _, h3, _⟩ := findDelim_some hfd
            obtain ⟨y, ys, hy⟩ := List.exists_cons_of_ne_nil hne
            rw [hwhole, hy] at h1
            have hyd := delimChar_byte (hd y (by rw [hy]; exact List.mem_cons_self ..))
            cases ind with
            | nil =>
              rcases hlc with rfl | rfl
              · simp at h1; have := hyd.2.2.2; rw [← h1.1] at this; simp [inLine] at this
              · simp at h1; have := hyd.2.2.2; rw [← h1.1] at this; simp [inLine] at this
            | cons z zs =>
              have hz := h3 z (List.mem_cons_self ..)
              rcases hlc with rfl | rfl
              · simp at h1; rw [← h1.1] at hz; simp [isBlank] at hz
              · simp at h1; rw [← h1.1] at hz; simp [isBlank] at hz
        have hfol := follow_doc (s := { s with needsLang := false }) hin' rfl hd hne 0 (.inr rfl)
          (text := w) (sk := []) (lead := []) (u := w) (m := none) hpw (by simp)
          (scan_inDoc hin' rfl (.inl rfl) (.at w))
        rw [hfol]
        have htok : tokDoc d w = match tokDoc d u with
            | some (content, close, rest) => some (line ++ '\n' :: content, close, rest)
            | none => none := by
          have := scanHeredoc_line d line u hlm
          rw [← hwhole] at this
          conv => lhs; unfold tokDoc
          rw [hnone]
          simp only [this]
          unfold tokDoc
          cases findDelim d u with
          | some i => rfl
          | none =>
            simp only
            cases scanHeredoc d u with
            | mk a q => obtain ⟨b, r⟩ := q; cases r <;> rfl
        rw [htok]
        cases tokDoc d u with
        | none => rfl
        | some q =>
          obtain ⟨content, close, rest⟩ := q
          simp only [List.append_eq_nil_iff, reduceCtorEq, and_false, if_false, List.nil_append]
          simp only [heredocPieces, hline, hbet, hbet2]
          simp
    · have hsl : scanLang (',' :: v) = ([','], v) := by
        cases v with
        | nil => rfl
        | cons x xs =>
          have : x.isLower = false := by
            rw [Bool.eq_false_iff]; intro hx; exact hlow ⟨x, xs, rfl, hx⟩
          simp [scanLang, this]
      have hlook : looks isLangHintStart ⟨v, v, none⟩ = false := by
        cases v with
        | nil => rfl
        | cons x xs =>
          have : x.isLower = false := by
            rw [Bool.eq_false_iff]; intro hx; exact hlow ⟨x, xs, rfl, hx⟩
          simp [looks, isLangHintStart_eq, this]
      have hsc : scan (validSymbols 5) s (.at (',' :: v)) = scanHeredocContentOrEnd s ⟨v, v, none⟩ := by
        simp only [scan, hn, e2, Bool.and_self, if_true, scanHeredocLang, Lexer.at, Lexer.skip,
          List.head?_cons, ne_eq, not_true_eq_false, if_false, List.tail_cons, hlook,
          Bool.not_true, Bool.false_eq_true, Bool.not_false, hin]
      rw [hcontent _ hpv] at hsc
      rw [hsl]
      simp only at hsc ⊢
      have happ := scanNewlineOpt_append v
      have hpu : PairedCR (scanNewlineOpt v).2 := hpv.suffix ⟨(scanNewlineOpt v).1, happ⟩
      have := follow_doc hin' rfl hd hne 1 (.inl rfl) (text := ',' :: v) (sk := [','])
        (lead := (scanNewlineOpt v).1) (u := (scanNewlineOpt v).2) (m := none) hpu
        (by rw [happ]; rfl) (by rw [hsc, happ])
      rw [this]
      cases tokDoc d (scanNewlineOpt v).2 with
      | none => rfl
      | some q =>
        obtain ⟨content, close, rest⟩ := q
        simp [heredocPieces]
  · have hsl : scanLang r1 = ([], r1) := by
      unfold scanLang
      split
      · rename_i v; exact absurd ⟨v, rfl⟩ hc
      · rfl
    have hhd : r1.head? ≠ some ',' := by
      intro hh
      cases r1 with
      | nil => simp at hh
      | cons x xs => simp at hh; exact hc ⟨xs, by rw [hh]⟩
    have hsc : scan (validSymbols 5) s (.at r1) = scanHeredocContentOrEnd s (.at r1) := by
      simp only [scan, hn, e2, Bool.and_self, if_true, scanHeredocLang, Lexer.at, hhd, ne_eq,
        not_false_eq_true, Bool.not_true, Bool.false_eq_true, if_false, hin]
    rw [hcontent _ hp] at hsc
    rw [hsl]
    simp only [Lexer.at] at hsc ⊢
    have happ := scanNewlineOpt_append r1
    have hpu : PairedCR (scanNewlineOpt r1).2 := hp.suffix ⟨(scanNewlineOpt r1).1, happ⟩
    have := follow_doc hin' rfl hd hne 1 (.inl rfl) (text := r1) (sk := [])
      (lead := (scanNewlineOpt r1).1) (u := (scanNewlineOpt r1).2) (m := none) hpu
      (by rw [happ]; rfl) (by rw [happ]; exact hsc)
    rw [this]
    cases tokDoc d (scanNewlineOpt r1).2 with
    | none => rfl
    | some q =>
      obtain ⟨content, close, rest⟩ := q
      simp [heredocPieces]

theorem isDelimChar_size {x : Char} (hx : isDelimChar x = true) : x.utf8Size = 1 := by
  have hx' : x.val.toNat < 128 := by
    simp only [isDelimChar, Char.isUpper, Char.isDigit, Bool.or_eq_true, Bool.and_eq_true,
      decide_eq_true_eq, beq_iff_eq, UInt32.le_iff_toNat_le] at hx
    rcases hx with (h | h) | rfl
    · have := h.2; have e1 : 'Z'.val.toNat = 90 := rfl; have e2 : '9'.val.toNat = 57 := rfl; omega
    · have := h.2; have e1 : 'Z'.val.toNat = 90 := rfl; have e2 : '9'.val.toNat = 57 := rfl; omega
    · decide
  have hx2 : x.val ≤ 127 := by
    rw [UInt32.le_iff_toNat_le]; have e : (127 : UInt32).toNat = 127 := rfl; omega
  simp [Char.utf8Size, hx2]

theorem utf8Len_delim {d : List Char} (h : ∀ c ∈ d, isDelimChar c = true) : utf8Len d = d.length := by
  induction d with
  | nil => rfl
  | cons x l ih =>
    rw [utf8Len_cons, ih (fun y hy => h y (by simp [hy])), List.length_cons,
      isDelimChar_size (h x (by simp))]
    omega

/-- The whole heredoc, from the opening on. -/
theorem editor_heredoc {bl : List Char} (hb : SpacesTabs bl) (e : List Char) (hu : e.head?.any Char.isUpper = true)
    (hp : PairedCR e) :
    followRule 4 2 .create (bl ++ '<' :: '<' :: e) =
      (let d := e.takeWhile isDelimChar
       let lang := (scanLang (e.dropWhile isDelimChar)).1
       let nl := (scanNewlineOpt (scanLang (e.dropWhile isDelimChar)).2).1
       if d.length ≤ 16 ∧ lang ++ nl ≠ [] then
        match tokDoc d (scanNewlineOpt (scanLang (e.dropWhile isDelimChar)).2).2 with
        | some (content, close, rest) => some (heredocPieces bl d lang nl content close, rest)
        | none => none
       else none) := by
  obtain ⟨l, h1, h2, h3, hs⟩ := scan_start hb '<' ('<' :: e) (by decide)
  simp only [show ('<' = '@') = False from by decide, if_false, if_true] at hs
  obtain ⟨start, here, mark⟩ := l
  simp only at h1 h2 h3
  subst h1 h2 h3
  have hdel : isDelimiterChar = isDelimChar := funext isDelimiterChar_eq
  have hst : isDelimiterStart = Char.isUpper := funext isDelimiterStart_eq
  obtain ⟨buf, hbl, hbt, hstart⟩ := scanHeredocStart_spec (s := .create)
    (l := ⟨'<' :: '<' :: e, '<' :: '<' :: e, none⟩) (cs := e) rfl rfl (by rw [hst]; exact hu)
  rw [hstart] at hs
  have hall : ∀ c ∈ e.takeWhile isDelimChar, isDelimChar c = true := fun c hc => mem_takeWhile hc
  have happ := List.takeWhile_append_dropWhile (p := isDelimChar) (l := e)
  have hpr : PairedCR (e.dropWhile isDelimChar) := hp.suffix (List.dropWhile_suffix _)
  simp only
  by_cases hlen : (e.takeWhile isDelimChar).length ≤ 16
  · have htk : delimTake 0 e = (e.takeWhile isDelimChar).length := by
      unfold delimTake; rw [hdel]; omega
    have hdrop : e.drop (delimTake 0 e) = e.dropWhile isDelimChar := by
      rw [htk]; exact drop_takeWhile ..
    have htake : e.take (delimTake 0 e) = e.takeWhile isDelimChar := by
      rw [htk]
      have := List.take_left (l₁ := e.takeWhile isDelimChar) (l₂ := e.dropWhile isDelimChar)
      rwa [happ] at this
    rw [hdrop] at hs
    have hhead : ((e.dropWhile isDelimChar).head? ≠ some ',' ∧ (e.dropWhile isDelimChar).head? ≠ some '\n' ∧
        (e.dropWhile isDelimChar).head? ≠ some '\r') ↔ (scanLang (e.dropWhile isDelimChar)).1 ++
          (scanNewlineOpt (scanLang (e.dropWhile isDelimChar)).2).1 = [] := by
      generalize e.dropWhile isDelimChar = r at hpr ⊢
      by_cases hc : ∃ v, r = ',' :: v
      · obtain ⟨v, rfl⟩ := hc
        have : (scanLang (',' :: v)).1 ≠ [] := by
          unfold scanLang; cases v with
          | nil => simp
          | cons x xs => simp only; split <;> simp
        simp [this]
      · have hsl : scanLang r = ([], r) := by
          unfold scanLang
          split
          · rename_i v; exact absurd ⟨v, rfl⟩ hc
          · rfl
        have hhd : r.head? ≠ some ',' := by
          intro hh
          cases r with
          | nil => simp at hh
          | cons x xs => simp at hh; exact hc ⟨xs, by rw [hh]⟩
        rw [hsl]
        simp only [List.nil_append, newlineOpt_nil hpr, hhd, ne_eq, not_false_eq_true, true_and]
    by_cases hz : (scanLang (e.dropWhile isDelimChar)).1 ++
          (scanNewlineOpt (scanLang (e.dropWhile isDelimChar)).2).1 = []
    · simp only at hs
      rw [if_pos (hhead.2 hz)] at hs
      rw [followRule_none hs, if_neg (by simp [hz])]
    · simp only at hs
      rw [if_neg (fun hh => hz (hhead.1 hh))] at hs
      rw [if_pos ⟨hlen, hz⟩, followRule_step hs]
      simp only [show validSymbols 2 .heredocStart = true from rfl, Bool.not_true, Bool.false_eq_true,
        if_false, rowAfter, Option.getD_none]
      have hne : e.takeWhile isDelimChar ≠ [] := by
        cases e with
        | nil => simp at hu
        | cons x xs =>
          simp at hu
          have : isDelimChar x = true := (isDelimChar_iff x).mpr (Or.inl hu)
          simp [this]
      have hin : InDoc { Scanner.create with buf := buf, len := delimTake 0 e, inHeredoc := true, needsLang := true }
          (e.takeWhile isDelimChar) :=
        ⟨hbl, htk, hlen, by rw [← htake]; exact hbt, rfl⟩
      have := follow_opening hin rfl hall hne hpr
      rw [this]
      have hbt1 : between (bl ++ '<' :: '<' :: e) ('<' :: '<' :: e) = bl := between_append _ _
      have hbt2 : between ('<' :: '<' :: e) (e.dropWhile isDelimChar) = '<' :: '<' :: e.takeWhile isDelimChar := by
        conv => lhs; arg 1; rw [← happ]
        exact between_append ('<' :: '<' :: e.takeWhile isDelimChar) _
      rw [hbt1, hbt2]
      cases tokDoc (e.takeWhile isDelimChar) (scanNewlineOpt (scanLang (e.dropWhile isDelimChar)).2).2 with
      | none => rfl
      | some q => obtain ⟨content, close, rest⟩ := q; rfl
  · rw [if_neg (fun h => hlen h.1)]
    have htk : delimTake 0 e = 16 := by unfold delimTake; rw [hdel]; omega
    have hhd : (e.drop 16).head?.any isDelimChar = true := by
      have h16 : 16 < (e.takeWhile isDelimChar).length := by omega
      have hx := List.getElem_mem h16
      have : (e.drop 16).head? = some (e.takeWhile isDelimChar)[16] := by
        conv => lhs; arg 1; rw [← happ]
        rw [List.head?_drop, List.getElem?_append_left h16, List.getElem?_eq_getElem h16]
      rw [this]; simp only [Option.any_some]
      exact hall _ hx
    rw [htk] at hs
    simp only at hs
    have hno : ∀ c, isDelimChar c = false → (e.drop 16).head? ≠ some c := by
      intro c hc hh; rw [hh] at hhd; simp [hc] at hhd
    rw [if_pos ⟨hno _ rfl, hno _ rfl, hno _ rfl⟩] at hs
    exact followRule_none hs

/-- Without `<<` and an upper-case letter there is no heredoc for the editor. -/
theorem editor_no_heredoc {bl : List Char} (hb : SpacesTabs bl) (cs : List Char)
    (hno : ¬ ∃ e, cs = '<' :: e ∧ e.head?.any Char.isUpper = true) :
    followRule 4 2 .create (bl ++ '<' :: cs) = none := by
  obtain ⟨l, h1, h2, h3, hs⟩ := scan_start hb '<' cs (by decide)
  simp only [show ('<' = '@') = False from by decide, if_false, if_true] at hs
  obtain ⟨start, here, mark⟩ := l
  simp only at h1 h2 h3
  subst h1 h2 h3
  have hst : isDelimiterStart = Char.isUpper := funext isDelimiterStart_eq
  have : ∃ l', scanHeredocStart .create ⟨'<' :: cs, '<' :: cs, none⟩ = .ok (none, .create, l') := by
    simp only [scanHeredocStart, Lexer.advance, List.head?_cons, List.tail_cons, ne_eq, not_true_eq_false,
      if_false]
    by_cases h : cs.head? = some '<'
    · have hl : looks isDelimiterStart ⟨'<' :: cs, cs.tail, none⟩ = false := by
        simp only [looks, hst]
        rw [Bool.eq_false_iff]
        intro hh
        cases cs with
        | nil => simp at h
        | cons x xs => simp at h; exact hno ⟨xs, by rw [h], hh⟩
      exact ⟨_, (if_neg (by simp [h])).trans (if_pos (by rw [hl]; rfl))⟩
    · exact ⟨_, if_pos h⟩
  obtain ⟨l', hl'⟩ := this
  exact followRule_none (hs.trans hl')

/-- What the tokenizer makes of the text after `<<`. -/
theorem tokenizer_heredoc (e opening content close rest : List Char) (hu : e.head?.any Char.isUpper = true) :
    TokenizerHeredoc ('<' :: '<' :: e) opening content close rest ↔
      (e.takeWhile isDelimChar).length ≤ 16 ∧
      opening = '<' :: '<' :: e.takeWhile isDelimChar ++ (scanLang (e.dropWhile isDelimChar)).1 ++
        (scanNewlineOpt (scanLang (e.dropWhile isDelimChar)).2).1 ∧
      tokDoc (e.takeWhile isDelimChar) (scanNewlineOpt (scanLang (e.dropWhile isDelimChar)).2).2 =
        some (content, close, rest) := by
  have hall : ∀ c ∈ e.takeWhile isDelimChar, isDelimChar c = true := fun c hc => mem_takeWhile hc
  have hne : e.takeWhile isDelimChar ≠ [] := by
    cases e with
    | nil => simp at hu
    | cons x xs =>
      simp at hu
      have : isDelimChar x = true := (isDelimChar_iff x).mpr (Or.inl hu)
      simp [this]
  have hn : (Tok.new ('<' :: '<' :: e)).next = (Tok.new ('<' :: '<' :: e)).heredocStart e := by
    cases e with
    | nil => simp at hu
    | cons x xs => simp at hu; unfold Tok.next; simp [Tok.new, hu]
  simp only [TokenizerHeredoc, hn]
  unfold Tok.heredocStart
  simp only [utf8Len_delim hall]
  by_cases hlen : (e.takeWhile isDelimChar).length ≤ 16
  · rw [if_neg (by omega)]
    simp only [Tok.emit, hlen, true_and]
    generalize hop : ('<' :: '<' :: e.takeWhile isDelimChar ++ (scanLang (e.dropWhile isDelimChar)).1 ++
        (scanNewlineOpt (scanLang (e.dropWhile isDelimChar)).2).1) = op
    generalize (scanNewlineOpt (scanLang (e.dropWhile isDelimChar)).2).2 = u
    generalize e.takeWhile isDelimChar = d at hne
    simp only [Tok.next, Tok.heredocContent]
    rw [eq_comm (a := op)]
    refine and_congr Iff.rfl ?_
    unfold tokDoc
    cases hf : findDelim d u with
    | some i =>
      simp only [Tok.emit, true_and, Option.some.injEq, Prod.mk.injEq, reduceCtorEq, false_and, and_false,
        or_false]
      constructor
      · rintro ⟨rfl, rfl, rfl⟩; exact ⟨rfl, rfl, rfl⟩
      · rintro ⟨rfl, rfl, rfl⟩; exact ⟨rfl, rfl, rfl⟩
    | none =>
      cases hsc : scanHeredoc d u with
      | mk a q =>
        obtain ⟨b, r⟩ := q
        cases r with
        | none => simp [Tok.emit]
        | some i =>
          obtain ⟨⟨r', hr'⟩, hf2⟩ := scanHeredoc_content d u a b i hne hsc
          have ha : a ≠ [] := by rw [hr']; simp
          simp only [Tok.emit, hf2, true_and, Option.some.injEq, Prod.mk.injEq, reduceCtorEq, false_and, and_false,
            false_or]
          constructor
          · rintro ⟨h0, rfl, rfl, rfl⟩; exact ⟨rfl, rfl, rfl⟩
          · rintro ⟨rfl, rfl, rfl⟩; exact ⟨ha, rfl, rfl, rfl⟩
  · rw [if_pos (by omega)]
    simp [Tok.emit, hlen]

theorem tokenizer_no_heredoc {cs opening content close rest : List Char}
    (hno : ¬ ∃ e, cs = '<' :: e ∧ e.head?.any Char.isUpper = true) :
    ¬ TokenizerHeredoc ('<' :: cs) opening content close rest := by
  rintro ⟨h, -⟩
  unfold Tok.next at h
  simp only [Tok.new] at h
  simp only [show ('<' = '{') = False from by decide, show ('<' = '}') = False from by decide,
    show ('<' = '(') = False from by decide, show ('<' = ')') = False from by decide,
    show ('<' = ',') = False from by decide, show ('<' = '>') = False from by decide,
    show ('<' = '@') = False from by decide, show ('<' = '"') = False from by decide,
    show ('<' = '/') = False from by decide, show ('<' = 'r') = False from by decide,
    show ('<' = '\n') = False from by decide, show ('<' = '\r') = False from by decide,
    show isBlank '<' = false from by decide, if_false, false_and, true_and, Bool.false_eq_true] at h
  by_cases hc : cs.head? = some '<'
  · rw [if_pos hc] at h
    cases cs with
    | nil => simp at hc
    | cons x xs =>
      simp at hc
      subst hc
      cases xs with
      | nil => simp [Tok.emit] at h
      | cons y ys =>
        have hy : y.isUpper = false := by
          rw [Bool.eq_false_iff]; intro hy; exact hno ⟨y :: ys, rfl, by simpa using hy⟩
        simp [hy, Tok.emit] at h
  · rw [if_neg hc] at h
    split at h <;> simp [Tok.emit, Tok.bareScalar] at h

/-- An opening has its parts. -/
theorem openingParts_of {e : List Char} (hu : e.head?.any Char.isUpper = true) (hp : PairedCR e)
    (hlen : (e.takeWhile isDelimChar).length ≤ 16) :
    OpeningParts ('<' :: '<' :: e.takeWhile isDelimChar ++ (scanLang (e.dropWhile isDelimChar)).1 ++
        (scanNewlineOpt (scanLang (e.dropWhile isDelimChar)).2).1) (e.takeWhile isDelimChar)
      (scanLang (e.dropWhile isDelimChar)).1 (scanNewlineOpt (scanLang (e.dropWhile isDelimChar)).2).1 := by
  have hall : ∀ c ∈ e.takeWhile isDelimChar, isDelimChar c = true := fun c hc => mem_takeWhile hc
  refine ⟨rfl, ?_, scanLang_shape _, ?_⟩
  · cases e with
    | nil => simp at hu
    | cons x xs =>
      exact delim_of_takeWhile x xs (by simpa using hu) (by rw [utf8Len_delim hall]; omega)
  · have hp2 : PairedCR (scanLang (e.dropWhile isDelimChar)).2 :=
      (hp.suffix (List.dropWhile_suffix _)).suffix ⟨_, scanLang_append _⟩
    generalize (scanLang (e.dropWhile isDelimChar)).2 = w at hp2
    cases w with
    | nil => exact .inl rfl
    | cons c cs =>
      by_cases h1 : c = '\r'
      · subst h1
        obtain ⟨r, rfl⟩ := hp2.cr
        exact .inr (.inr rfl)
      by_cases h2 : c = '\n'
      · subst h2; exact .inr (.inl rfl)
      · left; unfold scanNewlineOpt; split <;> simp_all

/-- The parts are determined by the text. -/
theorem openingParts_scan {op d lang nl : List Char} (h : OpeningParts op d lang nl) :
    (op.drop 2).takeWhile isDelimChar = d ∧ scanLang ((op.drop 2).dropWhile isDelimChar) = (lang, nl) := by
  obtain ⟨rfl, hd, hl, hn⟩ := h
  have hst : ∀ c r, nl = c :: r → c = '\n' ∨ c = '\r' := by
    intro c r h; rcases hn with rfl | rfl | rfl <;> simp at h <;> simp [← h.1]
  have hchars : ∀ c ∈ d, isDelimChar c = true := by
    obtain ⟨c, r, rfl, hc, hr, -⟩ := hd
    intro x hx
    rcases List.mem_cons.1 hx with rfl | hx
    · exact (isDelimChar_iff _).2 (.inl hc)
    · exact (isDelimChar_iff _).2 (hr x hx)
  have h1 := takeWhile_append_stop (p := isDelimChar) (a := d) (b := lang ++ nl) hchars (by
    intro c r h
    rcases hl with rfl | ⟨l, rfl, -⟩
    · rcases hst c r (by simpa using h) with rfl | rfl <;> rfl
    · simp at h; rw [← h.1]; rfl)
  have e0 : ('<' :: '<' :: d ++ lang ++ nl).drop 2 = d ++ (lang ++ nl) := by simp
  rw [e0, h1.1, h1.2]
  refine ⟨rfl, ?_⟩
  rcases hl with rfl | ⟨l, rfl, rfl | ⟨c, r, rfl, hc, hr⟩⟩
  · rcases hn with rfl | rfl | rfl <;> rfl
  · rcases hn with rfl | rfl | rfl <;> rfl
  · have := takeWhile_append_stop (p := isLangChar) (a := r) (b := nl)
      (fun x hx => by simpa [isLangChar, or_assoc] using hr x hx)
      (fun x y h => by rcases hst x y h with rfl | rfl <;> rfl)
    simp [scanLang, hc, this.1, this.2]

/-- The editor finds a heredoc exactly if the tokenizer does and the delimiter is followed by a comma or
a line break. -/
theorem editor_heredoc_iff {bl : List Char} (hb : SpacesTabs bl) (cs : List Char) (hp : PairedCR cs)
    (ps : List Piece) (rest : List Char) :
    readExternal (bl ++ '<' :: cs) = .ok (some (ps, rest)) ↔
      ∃ opening d lang nl content close, OpeningParts opening d lang nl ∧ lang ++ nl ≠ [] ∧
        TokenizerHeredoc ('<' :: cs) opening content close rest ∧
        ps = heredocPieces bl d lang nl content close := by
  rw [readExternal_follow]
  simp only [Except.ok.injEq]
  by_cases hno : ∃ e, cs = '<' :: e ∧ e.head?.any Char.isUpper = true
  · obtain ⟨e, rfl, hu⟩ := hno
    have hpe := hp.tail
    rw [editor_heredoc hb e hu hpe]
    simp only
    constructor
    · intro h
      split at h
      · rename_i hc
        split at h
        · rename_i content close rest' htok
          simp only [Option.some.injEq, Prod.mk.injEq] at h
          obtain ⟨rfl, rfl⟩ := h
          exact ⟨_, _, _, _, content, close, openingParts_of hu hpe hc.1, hc.2,
            (tokenizer_heredoc e _ _ _ _ hu).2 ⟨hc.1, rfl, htok⟩, rfl⟩
        · cases h
      · cases h
    · rintro ⟨op, d, lang, nl, content, close, hop, hne, htok, rfl⟩
      obtain ⟨hlen, rfl, htd⟩ := (tokenizer_heredoc e _ _ _ _ hu).1 htok
      obtain ⟨a1, a2⟩ := openingParts_scan hop
      obtain ⟨b1, b2⟩ := openingParts_scan (openingParts_of hu hpe hlen)
      obtain rfl : e.takeWhile isDelimChar = d := b1.symm.trans a1
      have hl := b2.symm.trans a2
      simp only [Prod.mk.injEq] at hl
      obtain ⟨rfl, rfl⟩ := hl
      rw [if_pos ⟨hlen, hne⟩, htd]
  · rw [editor_no_heredoc hb cs hno]
    constructor
    · intro h; cases h
    · rintro ⟨op, d, lang, nl, content, close, -, -, htok, -⟩
      exact absurd htok (tokenizer_no_heredoc hno)

end Styx.Editor
