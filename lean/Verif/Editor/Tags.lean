import Verif.Editor.HeredocAgree

/-!
# Tags and units in the editor's scanner and in the tokenizer
-/

namespace Styx.Editor

open Styx.Spec

theorem isTagNameStart_eq (c : Char) : isTagNameStart c = isTagStart c := by
  simp [isTagNameStart, isTagStart, Char.isAlpha, Char.isUpper, Char.isLower, Char.le_def, UInt32.le_iff_toNat_le]

theorem isTagNameChar_eq (c : Char) : isTagNameChar c = (isTagChar c || c == '.') := by
  simp [isTagNameChar, isTagChar, Char.isAlphanum, Char.isAlpha, Char.isUpper, Char.isLower, Char.isDigit,
    Char.le_def, UInt32.le_iff_toNat_le]
  grind

theorem tagStart_char {c : Char} (h : isTagStart c = true) : isTagChar c = true := by
  simp only [isTagStart, isTagChar, Char.isAlphanum, Bool.or_eq_true, beq_iff_eq] at h ⊢
  rcases h with h | h
  · exact .inl (.inl (.inl h))
  · exact .inl (.inr h)

/-- What the scanner makes of a text that starts with `@`. -/
theorem editor_at {bl : List Char} (hb : SpacesTabs bl) (cs : List Char) :
    followRule 4 2 .create (bl ++ '@' :: cs) =
      if cs.head?.any isTagStart then
        some ([⟨.tagStart, bl, '@' :: cs.takeWhile isTagNameChar⟩], cs.dropWhile isTagNameChar)
      else some ([⟨.unitAt, bl, ['@']⟩], cs) := by
  obtain ⟨l, h1, h2, h3, hs⟩ := scan_start hb '@' cs (by decide)
  simp only [if_true] at hs
  obtain ⟨start, here, mark⟩ := l
  simp only at h1 h2 h3
  subst h1 h2 h3
  have hts : isTagNameStart = isTagStart := funext isTagNameStart_eq
  have hbl : between (bl ++ '@' :: cs) ('@' :: cs) = bl := between_append _ _
  have v1 : validSymbols 2 .tagStart = true := rfl
  have v2 : validSymbols 2 .unitAt = true := rfl
  simp only [scanAtToken, List.head?_cons, ne_eq, not_true_eq_false, if_false, Lexer.advance, List.tail_cons,
    looks, hts, v1, v2, Bool.not_true, Bool.false_eq_true] at hs
  by_cases h : cs.head?.any isTagStart = true
  · rw [if_pos h] at hs ⊢
    rw [followRule_step hs]
    simp only [v1, Bool.not_true, Bool.false_eq_true, if_false, rowAfter, Lexer.advanceWhile, Option.getD_none, hbl]
    have : between ('@' :: cs) (cs.dropWhile isTagNameChar) = '@' :: cs.takeWhile isTagNameChar := by
      conv => lhs; arg 1; rw [← List.takeWhile_append_dropWhile (p := isTagNameChar) (l := cs)]
      exact between_append ('@' :: cs.takeWhile isTagNameChar) _
    rw [this]
  · rw [if_neg h] at hs ⊢
    rw [followRule_step hs]
    simp only [v2, Bool.not_true, Bool.false_eq_true, if_false, rowAfter, Option.getD_none, hbl]
    have : between ('@' :: cs) cs = ['@'] := between_append ['@'] cs
    rw [this]

theorem scanTagTail_stop (s : List Char) : ∀ c r, (scanTagTail s).2 = c :: r → c = 'r' ∨ isTagChar c = false := by
  induction s with
  | nil => intro c r h; simp [scanTagTail] at h
  | cons x xs ih =>
    intro c r h
    unfold scanTagTail at h
    split at h
    · rename_i hx
      simp only [List.cons.injEq] at h
      exact .inl (h.1 ▸ hx.1)
    · split at h
      · exact ih c r h
      · rename_i hx
        simp only [List.cons.injEq] at h
        right; rw [← h.1]; simpa using hx

theorem scanTagChain_slash (n : Nat) (s : List Char) : (scanTagChain n s).1 = [] ∧ (scanTagChain n s).2 = s ∨
    '/' ∈ (scanTagChain n s).1 := by
  cases n with
  | zero => exact .inl ⟨rfl, rfl⟩
  | succ n =>
    unfold scanTagChain
    split
    · exact .inl ⟨rfl, rfl⟩
    · split
      · right; simp
      · exact .inl ⟨rfl, rfl⟩
    · exact .inl ⟨rfl, rfl⟩

theorem next_atSign (cs : List Char) : (Tok.new ('@' :: cs)).next = (Tok.new ('@' :: cs)).atOrTag cs := by
  unfold Tok.next; simp [Tok.new]

/-- When the editor's token for a tag is the tokenizer's. -/
theorem editor_tag_iff {bl : List Char} (hb : SpacesTabs bl) {cs w rest : List Char}
    (h : TokenizerReads ('@' :: cs) .tag w rest) :
    followRule 4 2 .create (bl ++ '@' :: cs) = some ([⟨.tagStart, bl, w⟩], rest) ↔
      '/' ∉ w ∧ rest.head? ≠ some '.' ∧ rest.head? ≠ some 'r' := by
  rw [editor_at hb]
  have htc : isTagNameChar = fun c => isTagChar c || c == '.' := funext isTagNameChar_eq
  obtain ⟨h1, h2, h3⟩ := h
  rw [next_atSign] at h1 h2 h3
  cases cs with
  | nil => simp [Tok.atOrTag, Tok.emit] at h1
  | cons c ds =>
    by_cases hc : isTagStart c = true
    · simp only [Tok.atOrTag, hc, if_true, Tok.emit, scanTagSegment] at h2 h3
      have happ := scanTagTail_append ds
      have hst := scanTagTail_stop ds
      have hmem := scanTagTail_mem ds
      have hch := scanTagChain_slash (scanTagTail ds).2.length (scanTagTail ds).2
      generalize scanTagTail ds = q at *
      obtain ⟨a, b⟩ := q
      simp only at *
      have hany : (c :: ds).head?.any isTagStart = true := by simpa using hc
      rw [if_pos hany]
      simp only [Option.some.injEq, Prod.mk.injEq, List.cons.injEq, Piece.mk.injEq, and_true, true_and]
      constructor
      · rintro ⟨rfl, rfl⟩
        refine ⟨?_, ?_, ?_⟩
        · intro hm
          rcases List.mem_cons.1 hm with hm | hm
          · exact absurd hm (by decide)
          · exact absurd (mem_takeWhile hm) (by decide)
        · intro hh
          obtain ⟨x, xs, hx⟩ := List.exists_cons_of_ne_nil (l := (c :: ds).dropWhile isTagNameChar) (by intro h; rw [h] at hh; simp at hh)
          rw [hx] at hh
          have := dropWhile_head hx
          simp at hh; rw [hh] at this; exact absurd this (by decide)
        · intro hh
          obtain ⟨x, xs, hx⟩ := List.exists_cons_of_ne_nil (l := (c :: ds).dropWhile isTagNameChar) (by intro h; rw [h] at hh; simp at hh)
          rw [hx] at hh
          have := dropWhile_head hx
          simp at hh; rw [hh] at this; exact absurd this (by decide)
      · rintro ⟨k1, k2, k3⟩
        rcases hch with ⟨e1, e2⟩ | hs
        · rw [e1] at h2
          rw [e2] at h3
          subst h3
          simp only [List.append_nil] at h2
          have := takeWhile_append_stop (p := isTagNameChar) (a := c :: a) (b := b)
            (by
              intro x hx
              rw [isTagNameChar_eq]
              rcases List.mem_cons.1 hx with rfl | hx
              · simp [tagStart_char hc]
              · simp [hmem x hx])
            (by
              intro x xs hx
              rw [isTagNameChar_eq]
              rcases hst x xs hx with rfl | ht
              · rw [hx] at k3; simp at k3
              · have : x ≠ '.' := by intro hh; rw [hx, hh] at k2; simp at k2
                simp [ht, this])
          rw [← happ]
          exact ⟨by rw [← h2]; simpa using this.1, this.2⟩
        · exfalso; apply k1; rw [← h2]; simp [hs]
    · simp [Tok.atOrTag, hc, Tok.emit] at h1

/-- Units. -/
theorem editor_unit_iff {bl : List Char} (hb : SpacesTabs bl) (cs rest : List Char) :
    followRule 4 2 .create (bl ++ '@' :: cs) = some ([⟨.unitAt, bl, ['@']⟩], rest) ↔
      TokenizerReads ('@' :: cs) .at ['@'] rest := by
  rw [editor_at hb]
  simp only [TokenizerReads, next_atSign]
  cases cs with
  | nil => simp [Tok.atOrTag, Tok.emit]
  | cons c ds =>
    by_cases hc : isTagStart c = true
    · simp [Tok.atOrTag, hc, Tok.emit]
    · simp [Tok.atOrTag, hc, Tok.emit]

theorem scanHeredocStart_symbol {s s' : Scanner} {l l' : Lexer} {y : Symbol}
    (h : scanHeredocStart s l = .ok (some y, s', l')) : y = .heredocStart := by
  unfold scanHeredocStart at h
  simp only at h
  split at h
  · cases h
  · split at h
    · cases h
    · split at h
      · cases h
      · cases h1 : readDelim s.buf 0 l.advance.advance.here with
        | error e => rw [h1] at h; cases h
        | ok q =>
          obtain ⟨buf, len, r⟩ := q
          rw [h1] at h
          simp only [Except.bind, bind] at h
          cases h2 : put buf len 0 with
          | error e => rw [h2] at h; cases h
          | ok buf' =>
            rw [h2] at h
            simp only at h
            split at h
            · cases h
            · simp [pure, Except.pure] at h; exact h.1.symm

theorem scanRawStart_symbol {s s' : Scanner} {l l' : Lexer} {x y : Symbol}
    (h : scanRawStart s l x = (some y, s', l')) : y = x := by
  unfold scanRawStart at h
  simp only at h
  split at h
  · cases h
  · split at h
    · cases h
    · simp at h; exact h.1.symm

/-- On a text that does not start with `r` no immediate raw string opens. -/
theorem no_immediateRaw {row : Nat} (hr : row = 3 ∨ row = 4) {text : List Char} (h : text.head? ≠ some 'r')
    (s s' : Scanner) (l : Lexer) :
    scan (validSymbols row) s (.at text) ≠ .ok (some .immediateRawStart, s', l) := by
  intro hs
  have h0 : scan (validSymbols row) s (.at text) = scanOther (validSymbols row) s (.at text) := by
    have e1 : validSymbols row .heredocLang = false := by rcases hr with rfl | rfl <;> rfl
    have e2 : validSymbols row .heredocContent = false := by rcases hr with rfl | rfl <;> rfl
    have e3 : validSymbols row .heredocEnd = false := by rcases hr with rfl | rfl <;> rfl
    have e4 : validSymbols row .rawContent = false := by rcases hr with rfl | rfl <;> rfl
    have e5 : validSymbols row .rawEnd = false := by rcases hr with rfl | rfl <;> rfl
    simp [scan, scanInside, e1, e2, e3, e4, e5]
  rw [h0] at hs
  unfold scanOther at hs
  split at hs
  · simp only at hs
    split at hs
    · simp at hs
    · simp at hs
  · split at hs
    · rename_i h1
      simp [Lexer.at, h] at h1
    · simp only at hs
      generalize (if (!s.inHeredoc && !s.inRaw) = true then _ else _ : Lexer) = l0 at hs
      split at hs
      · unfold scanAtToken at hs
        simp only at hs
        split at hs
        · simp at hs
        · split at hs
          · split at hs <;> simp at hs
          · split at hs <;> simp at hs
      · split at hs
        · exact absurd (scanHeredocStart_symbol hs) (by decide)
        · split at hs
          · simp only [Except.ok.injEq] at hs
            exact absurd (scanRawStart_symbol hs) (by decide)
          · simp at hs

end Styx.Editor
