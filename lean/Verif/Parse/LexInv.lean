import Verif.Parse.HeredocLemmas

/-!
# Invariants of the lexer

`lex_chain`: the lexemes of a source have spans on character boundaries, in order, and the texts they
claim; a raw-string panic needs 256 hashes in a row.
-/

namespace Styx

open Spec

/-- `n` is a character boundary of `s`. -/
def Boundary (s : List Char) (n : Nat) : Prop := ∃ a b, s = a ++ b ∧ utf8Len a = n

/-- A span with ordered ends that are character boundaries of `s`. -/
def SpanOK (s : List Char) (sp : Span) : Prop :=
  sp.start ≤ sp.stop ∧ Boundary s sp.start ∧ Boundary s sp.stop

/-- The span `sp` of `s` covers exactly the text `t`. -/
def HasText (s : List Char) (sp : Span) (t : List Char) : Prop :=
  ∃ a b, s = a ++ t ++ b ∧ sp.start = utf8Len a ∧ sp.stop = utf8Len a + utf8Len t

theorem HasText.spanOK {s : List Char} {sp : Span} {t : List Char} (h : HasText s sp t) :
    SpanOK s sp := by
  obtain ⟨a, b, rfl, h1, h2⟩ := h
  exact ⟨by omega, ⟨a, t ++ b, by simp, h1.symm⟩, ⟨a ++ t, b, rfl, by simp [h2]⟩⟩

theorem Boundary.le {s : List Char} {n : Nat} (h : Boundary s n) : n ≤ utf8Len s := by
  obtain ⟨a, b, rfl, rfl⟩ := h; simp

theorem boundary_zero (s : List Char) : Boundary s 0 := ⟨[], s, rfl, rfl⟩

theorem boundary_end (s : List Char) : Boundary s (utf8Len s) := ⟨s, [], by simp, rfl⟩

/-- The source has 256 hashes in a row. -/
def ManyHashes (s : List Char) : Prop := List.replicate 256 '#' <:+: s

/-- What a lexeme says about the source. -/
def LexOK (s : List Char) : Lexeme → Prop
  | .scalar sp v k => SpanOK s sp ∧ (k = .bare → HasText s sp v) ∧
      (k = .quoted → ∃ raw, HasText s sp ('"' :: raw ++ ['"']) ∧ Escaped raw v) ∧
      (k = .raw → (∃ text, HasText s sp text ∧ RawFor text v) ∨ ManyHashes s) ∧
      (k = .heredoc → ∃ text, HasText s sp text ∧ HeredocFor text v)
  | .tag sp name _ => HasText s sp ('@' :: name)
  | .attrKey sp ks key => SpanOK s sp ∧ HasText s ks key ∧ ks.start = sp.start ∧ ks.stop ≤ sp.stop ∧
      key ≠ [] ∧ '{' ∉ key
  | .error sp m => SpanOK s sp ∧
      (m.containsEscape = true → ∃ raw, HasText s sp ('"' :: raw ++ ['"']) ∧ ¬ ∃ v, Escaped raw v)
  | .panic sp => SpanOK s sp ∧ ∃ a b, s = a ++ List.replicate 256 '#' ++ b
  | .eof => True
  | .unit sp => HasText s sp ['@']
  | .objectStart sp => HasText s sp ['{']
  | .objectEnd sp => HasText s sp ['}']
  | .seqStart sp => HasText s sp ['(']
  | .seqEnd sp => HasText s sp [')']
  | .comma sp => HasText s sp [',']
  | .newline sp | .comment sp _ | .docComment sp _ => SpanOK s sp

theorem LexOK.spanOK {s : List Char} {l : Lexeme} (h : LexOK s l) (he : l ≠ .eof) :
    SpanOK s l.span := by
  cases l <;> simp only [LexOK, Lexeme.span] at h ⊢ <;>
    first | exact h | exact h.1 | exact h.spanOK | exact absurd rfl he

/-- Facts about one call of the tokenizer outside a heredoc. -/
theorem next_state (t : Tok) (hn : t.heredoc = none) :
    (t.next.1.kind ≠ .heredocStart → t.next.2.heredoc = none) ∧
    (t.next.1.kind = .heredocStart → ∃ d, t.next.2.heredoc = some ⟨d, none⟩ ∧ Delimiter d) ∧
    (t.next.1.kind = .whitespace → ∀ c r, t.next.2.remaining = c :: r → isBlank c = false) ∧
    t.next.1.kind ≠ .heredocContent ∧ t.next.1.kind ≠ .heredocEnd := by
  refine next_ind t (fun x => (x.1.kind ≠ .heredocStart → x.2.heredoc = none) ∧
    (x.1.kind = .heredocStart → ∃ d, x.2.heredoc = some ⟨d, none⟩ ∧ Delimiter d) ∧
    (x.1.kind = .whitespace → ∀ c r, x.2.remaining = c :: r → isBlank c = false) ∧
    x.1.kind ≠ .heredocContent ∧ x.1.kind ≠ .heredocEnd) ?_ ?_ ?_ ?_ ?_ ?_ ?_ ?_ ?_ ?_ ?_ ?_ ?_ ?_ ?_
  · intro h hh; rw [hn] at hh; cases hh
  · simp [Tok.emit]
  · intro k c cs h1 h2 hm
    simp only [List.mem_cons, Prod.mk.injEq, List.not_mem_nil, or_false] at hm
    rcases hm with ⟨rfl, rfl⟩ | ⟨rfl, rfl⟩ | ⟨rfl, rfl⟩ | ⟨rfl, rfl⟩ | ⟨rfl, rfl⟩ | ⟨rfl, rfl⟩ |
      ⟨rfl, rfl⟩ <;> simp [Tok.emit]
  · intro cs h1 h2
    unfold Tok.atOrTag
    split
    · split <;> simp [Tok.emit]
    · simp [Tok.emit]
  · simp [Tok.emit]
  · simp [Tok.emit]
  · simp [Tok.emit]
  · simp [Tok.emit]
  · intro d ds h1 h2 hu
    unfold Tok.heredocStart
    simp only
    split
    · simp [Tok.emit]
    · rename_i hl
      simp [Tok.emit, delim_of_takeWhile d ds hu hl]
  · simp [Tok.emit]
  · intro cs h1 h2 _
    unfold Tok.rawString
    simp only
    split
    · split <;> simp [Tok.emit]
    · simp [Tok.emit]
  · intro c cs h1 h2 h3
    simp only [Tok.emit]
    refine ⟨by simp, by simp, fun _ c r h => dropWhile_head h, by simp, by simp⟩
  · simp [Tok.emit]
  · intro c cs h1 h2 h3
    simp [Tok.bareScalar, Tok.emit]
  · simp [Tok.emit]

/-- Whitespace tokens are maximal: after skipping one, the next token is not whitespace. -/
theorem skipWs_done (t : Tok) (hn : t.heredoc = none) : t.skipWs.next.1.kind ≠ .whitespace := by
  unfold Tok.skipWs
  split
  · rename_i hk
    obtain ⟨h1, _, h3, _⟩ := next_state t hn
    have h1 := h1 (by simp [hk])
    have h3 := h3 hk
    intro hk2
    have hkt := (next_kind t.next.2 (tokInv_none h1)).2
    rw [hk2] at hkt
    obtain ⟨hne, hb⟩ := hkt
    have hst := (next_step t.next.2).text
    cases htx : t.next.2.next.1.text with
    | nil => exact hne htx
    | cons c r =>
      rw [htx] at hst hb
      have := h3 c _ hst.symm
      rcases hb c (by simp) with rfl | rfl <;> revert this <;> decide
  · assumption

/-- The tokenizer state `t` is at its position in `s`. -/
def At (s : List Char) (t : Tok) : Prop := ∃ pre, s = pre ++ t.remaining ∧ t.pos = utf8Len pre

theorem At.next {s : List Char} {t : Tok} (h : At s t) :
    At s t.next.2 ∧ HasText s t.next.1.span t.next.1.text ∧ t.next.1.start = t.pos ∧
      t.next.1.stop = t.next.2.pos ∧ t.pos ≤ t.next.2.pos := by
  obtain ⟨pre, h1, h2⟩ := h
  have hs := next_step t
  have hst := hs.text
  refine ⟨⟨pre ++ t.next.1.text, ?_, ?_⟩, ⟨pre, t.next.2.remaining, ?_, ?_, ?_⟩, hs.start, hs.stop, ?_⟩
  · rw [List.append_assoc, hst, h1]
  · rw [hs.len, h2]; simp
  · rw [List.append_assoc, hst, h1]
  · simp [Token.span, hs.start, h2]
  · simp [Token.span, hs.stop, hs.len, h2]
  · have := hs.len; omega

theorem At.boundary {s : List Char} {t : Tok} (h : At s t) : Boundary s t.pos := by
  obtain ⟨pre, h1, h2⟩ := h
  exact ⟨pre, _, h1, h2.symm⟩

/-- What one call of the lexer establishes. -/
structure LexStep (s : List Char) (t : Tok) (l : Lexeme) (t' : Tok) : Prop where
  at' : At s t'
  none : t'.heredoc = none
  ok : LexOK s l
  start : l ≠ .eof → t.pos ≤ l.span.start
  stop : l ≠ .eof → l.span.stop ≤ t'.pos
  measure : l ≠ .eof → t'.measure < t.measure

theorem replicate_split {m n : Nat} (h : m ≤ n) (c : Char) :
    List.replicate n c = List.replicate m c ++ List.replicate (n - m) c := by
  rw [List.replicate_append_replicate, Nat.add_sub_cancel' h]

theorem rawContent_none {text : List Char} (hk : KindText .rawScalar text) (h : rawContent text = none) :
    ∃ a b, text = a ++ List.replicate 256 '#' ++ b := by
  obtain ⟨n, body, rfl, hb⟩ := hk
  by_cases hn : n ≤ 255
  · rw [Nat.min_eq_left hn, rawContent_eq] at h; cases h
  · generalize hm : 256 = m
    have hmn : m ≤ n := by omega
    refine ⟨['r'], List.replicate (n - m) '#' ++ '"' :: body ++ '"' :: List.replicate (min n 255) '#', ?_⟩
    rw [replicate_split hmn]
    simp only [List.append_assoc, List.cons_append, List.nil_append]

theorem rawContent_some {text v : List Char} (hk : KindText .rawScalar text) (h : rawContent text = some v) :
    RawFor text v ∨ ∃ a b, text = a ++ List.replicate 256 '#' ++ b := by
  obtain ⟨n, body, rfl, hb⟩ := hk
  by_cases hn : n ≤ 255
  · rw [Nat.min_eq_left hn] at h hb
    rw [rawContent_eq] at h
    cases h
    rw [Nat.min_eq_left hn]
    exact .inl ⟨n, rfl, hb⟩
  · generalize hm : 256 = m
    have hmn : m ≤ n := by omega
    refine .inr ⟨['r'], List.replicate (n - m) '#' ++ '"' :: body ++ '"' :: List.replicate (min n 255) '#', ?_⟩
    rw [replicate_split hmn]
    simp only [List.append_assoc, List.cons_append, List.nil_append]

theorem next_some {t : Tok} {h : HeredocState} (hh : t.heredoc = some h) :
    t.next = t.heredocContent h := by
  unfold Tok.next; rw [hh]

theorem next_heredoc_state (t : Tok) (h : HeredocState) (hh : t.heredoc = some h) (hd : Delimiter h.delimiter) :
    (t.next.1.kind = .heredocContent ∧ ∃ i, t.next.2.heredoc = some ⟨h.delimiter, some i⟩ ∧
        findDelim h.delimiter t.next.2.remaining = some i) ∨
    (t.next.1.kind = .heredocEnd ∧ t.next.2.heredoc = none) ∨
    (t.next.1.kind = .error ∧ t.next.2.heredoc = none ∧ findDelim h.delimiter t.remaining = none) := by
  rw [next_some hh]
  unfold Tok.heredocContent
  split
  · exact Or.inr (Or.inl ⟨rfl, rfl⟩)
  · rename_i hf
    split
    · rename_i a b i heq
      exact Or.inl ⟨rfl, i, rfl, (scanHeredoc_content _ _ _ _ _ hd.ne_nil heq).2⟩
    · exact Or.inr (Or.inr ⟨rfl, rfl, hf⟩)

theorem HasText.join {s : List Char} {sp sp' : Span} {t u : List Char} (h : HasText s sp t)
    (hadj : sp.stop = sp'.start) (h' : HasText s sp' u) : HasText s ⟨sp.start, sp'.stop⟩ (t ++ u) := by
  have : ∀ (a c b d : List Char), a ++ b = c ++ d → utf8Len a = utf8Len c → a = c ∧ b = d := by
    intro a
    induction a with
    | nil =>
      intro c b d he hl
      cases c with
      | nil => exact ⟨rfl, he⟩
      | cons y c => simp at hl; have := y.utf8Size_pos; omega
    | cons x a ih =>
      intro c b d he hl
      cases c with
      | nil => simp at hl; have := x.utf8Size_pos; omega
      | cons y c =>
        simp only [List.cons_append, List.cons.injEq] at he
        obtain ⟨rfl, he⟩ := he
        obtain ⟨rfl, rfl⟩ := ih c b d he (by simp at hl; omega)
        exact ⟨rfl, rfl⟩
  obtain ⟨a, b, h1, h2, h3⟩ := h
  obtain ⟨c, d, g1, g2, g3⟩ := h'
  obtain ⟨rfl, rfl⟩ := this (a ++ t) c b (u ++ d) (by rw [← h1, g1]; simp) (by simp; omega)
  exact ⟨a, d, by simp [h1], h2, by simp only [utf8Len_append] at *; omega⟩

/-- The text of the end of a heredoc. -/
theorem next_heredocEnd {t : Tok} {h : HeredocState} (hh : t.heredoc = some h)
    (hk : t.next.1.kind = .heredocEnd) :
    ∃ ind, t.next.1.text = ind ++ h.delimiter ∧ (∀ c ∈ ind, Blank c) ∧
      findDelim h.delimiter t.remaining = some ind.length := by
  rw [next_some hh] at hk ⊢
  unfold Tok.heredocContent at hk ⊢
  split
  · rename_i i hf
    obtain ⟨ind, r, h1, h2, h3, _⟩ := findDelim_some hf
    refine ⟨ind, ?_, fun c hc => (blank_iff c).mpr (h3 c hc), by rw [h2]; exact hf⟩
    simp only [Tok.emit]
    rw [h1]
    have : i + h.delimiter.length = (ind ++ h.delimiter).length := by simp [h2]
    rw [this, List.take_left']
    rfl
  · rename_i hf
    rw [hf] at hk
    simp only at hk
    split at hk <;> simp [Tok.emit] at hk

/-- The text of the content of a heredoc. -/
theorem next_heredocContent {t : Tok} {h : HeredocState} (hh : t.heredoc = some h) (hd : Delimiter h.delimiter)
    (hk : t.next.1.kind = .heredocContent) :
    ∃ ls, t.next.1.text = unlines ls ∧ ∀ l ∈ ls, '\n' ∉ l ∧ ¬ ClosingLine h.delimiter l := by
  rw [next_some hh] at hk ⊢
  unfold Tok.heredocContent at hk ⊢
  split
  · rename_i i hf
    rw [hf] at hk
    simp [Tok.emit] at hk
  · rename_i hf
    rw [hf] at hk
    split
    · rename_i a b i heq
      exact scanHeredoc_lines hd _ _ _ _ _ (Nat.lt_succ_self _) heq hf
    · rename_i a b heq
      rw [heq] at hk
      simp [Tok.emit] at hk

/-- The text of the start of a heredoc. -/
theorem next_heredocOpen {t : Tok} (hn : t.heredoc = none) (hk : t.next.1.kind = .heredocStart) :
    ∃ d lang nl, t.next.2.heredoc = some ⟨d, none⟩ ∧ Delimiter d ∧
      t.next.1.text = '<' :: '<' :: d ++ lang ++ nl ∧
      (lang = [] ∨ ∃ l, lang = ',' :: l ∧
        (l = [] ∨ ∃ c r, l = c :: r ∧ c.isLower = true ∧
          ∀ x ∈ r, x.isLower = true ∨ x.isDigit = true ∨ x = '_' ∨ x = '.' ∨ x = '-')) ∧
      (nl = [] ∨ nl = ['\n'] ∨ nl = ['\r', '\n'] ∨ nl = ['\r']) := by
  revert hk
  refine next_ind t (fun x => x.1.kind = .heredocStart → ∃ d lang nl, x.2.heredoc = some ⟨d, none⟩ ∧
      Delimiter d ∧ x.1.text = '<' :: '<' :: d ++ lang ++ nl ∧
      (lang = [] ∨ ∃ l, lang = ',' :: l ∧
        (l = [] ∨ ∃ c r, l = c :: r ∧ c.isLower = true ∧
          ∀ x ∈ r, x.isLower = true ∨ x.isDigit = true ∨ x = '_' ∨ x = '.' ∨ x = '-')) ∧
      (nl = [] ∨ nl = ['\n'] ∨ nl = ['\r', '\n'] ∨ nl = ['\r'])) ?_ ?_ ?_ ?_ ?_ ?_ ?_ ?_ ?_ ?_ ?_ ?_ ?_ ?_ ?_
  · intro h hh; rw [hn] at hh; cases hh
  · simp [Tok.emit]
  · intro k c cs h1 h2 hm
    simp only [List.mem_cons, Prod.mk.injEq, List.not_mem_nil, or_false] at hm
    rcases hm with ⟨rfl, rfl⟩ | ⟨rfl, rfl⟩ | ⟨rfl, rfl⟩ | ⟨rfl, rfl⟩ | ⟨rfl, rfl⟩ | ⟨rfl, rfl⟩ |
      ⟨rfl, rfl⟩ <;> simp [Tok.emit]
  · intro cs h1 h2
    unfold Tok.atOrTag
    split
    · split <;> simp [Tok.emit]
    · simp [Tok.emit]
  · simp [Tok.emit]
  · simp [Tok.emit]
  · simp [Tok.emit]
  · simp [Tok.emit]
  · intro d ds h1 h2 hu
    unfold Tok.heredocStart
    simp only
    split
    · simp [Tok.emit]
    · rename_i hl
      intro _
      exact ⟨_, _, _, rfl, delim_of_takeWhile d ds hu hl, rfl, scanLang_shape _, scanNewlineOpt_shape _⟩
  · simp [Tok.emit]
  · intro cs h1 h2 _
    unfold Tok.rawString
    simp only
    split
    · split <;> simp [Tok.emit]
    · simp [Tok.emit]
  · simp [Tok.emit]
  · simp [Tok.emit]
  · intro c cs h1 h2 h3
    simp [Tok.bareScalar, Tok.emit]
  · simp [Tok.emit]

theorem lexHeredoc_step {s : List Char} {t0 : Tok} {sp : Span} {t : Tok} {d lang nl : List Char}
    (hat : At s t) (hh : t.heredoc = some ⟨d, none⟩) (hd : Delimiter d) (hsp : SpanOK s sp)
    (h0 : t0.pos ≤ sp.start) (h1 : sp.stop = t.pos) (hm : t.measure < t0.measure)
    (htx : HasText s sp ('<' :: '<' :: d ++ lang ++ nl))
    (hlang : lang = [] ∨ ∃ l, lang = ',' :: l ∧
        (l = [] ∨ ∃ c r, l = c :: r ∧ c.isLower = true ∧
          ∀ x ∈ r, x.isLower = true ∨ x.isDigit = true ∨ x = '_' ∨ x = '.' ∨ x = '-'))
    (hnl : nl = [] ∨ nl = ['\n'] ∨ nl = ['\r', '\n'] ∨ nl = ['\r']) :
    LexStep s t0 (lexHeredoc sp t).1 (lexHeredoc sp t).2 := by
  have hn1 := hat.next
  have hm1 : t.next.2.measure < t.measure := next_measure t (by
    rw [ne_eq, next_eof_iff, hh]; simp)
  unfold lexHeredoc
  rcases next_heredoc_state t _ hh hd with ⟨hk, i, hh2, hf⟩ | ⟨hk, hh2⟩ | ⟨hk, hh2, _⟩
  · -- content, then the end
    have hn2 := hn1.1.next
    have hm2 : t.next.2.next.2.measure < t.next.2.measure := next_measure _ (by
      rw [ne_eq, next_eof_iff, hh2]; simp)
    rcases next_heredoc_state t.next.2 _ hh2 hd with ⟨hk2, j, _, hf2⟩ | ⟨hk2, hh3⟩ | ⟨hk2, _, hf2⟩
    · exfalso
      rw [next_some hh2] at hk2
      unfold Tok.heredocContent at hk2
      simp only at hf
      rw [hf] at hk2
      simp [Tok.emit] at hk2
    · have hl : lexHeredocLoop 2 sp t [] 0 = (.ok (t.next.1.text, i, t.next.2.next.1.span), t.next.2.next.2) := by
        rw [lexHeredocLoop]
        simp only [hk]
        rw [lexHeredocLoop]
        simp only [hk2, Tok.closingIndent, hh2]
        simp
      rw [hl]
      have e1 := hn2.2.1.spanOK
      obtain ⟨ls, f1, f2⟩ := next_heredocContent hh hd hk
      obtain ⟨ind, f3, f4, f5⟩ := next_heredocEnd hh2 hk2
      simp only at hf f5
      rw [hf] at f5
      cases f5
      have g1 := (htx.join (by rw [h1]; simp [Token.span, hn1.2.2.1]) hn1.2.1).join
        (by simp [Token.span, hn2.2.2.1, hn1.2.2.2.1]) hn2.2.1
      rw [f1, f3] at g1
      refine ⟨hn2.1, hh3, ⟨⟨?_, hsp.2.1, e1.2.2⟩, by simp, by simp, (nofun), fun _ => ⟨_, g1, d, lang, nl,
        ls, ind, by simp, hd, hlang, hnl, f2, f4, ?_⟩⟩, fun _ => h0, fun _ => ?_, fun _ => by simp only; omega⟩
      · have := hsp.1; have := hn2.2.1.spanOK.1; have a := hn2.2.2.2.1; have b := hn2.2.2.1
        have c := hn1.2.2.2.2
        simp only [Token.span] at *
        omega
      · rw [f1]
        split
        · exact dedentHeredoc_unlines fun l hl => (f2 l hl).1
        · rename_i h0
          have : ind.length = 0 := by omega
          rw [this, show dedentLine 0 = id from funext dedentLine_zero, List.map_id]
      · have a := hn2.2.2.2.1
        simp only [Lexeme.span, Token.span] at *
        omega
    · simp only at hf hf2
      rw [hf] at hf2; cases hf2
  · have hl : lexHeredocLoop 2 sp t [] 0 = (.ok ([], 0, t.next.1.span), t.next.2) := by
      rw [lexHeredocLoop]
      simp only [hk, Tok.closingIndent, hh]
      simp
    rw [hl]
    have e1 := hn1.2.1.spanOK
    obtain ⟨ind, f3, f4, f5⟩ := next_heredocEnd hh hk
    have g1 := htx.join (by rw [h1]; simp [Token.span, hn1.2.2.1]) hn1.2.1
    rw [f3] at g1
    refine ⟨hn1.1, hh2, ⟨⟨?_, hsp.2.1, e1.2.2⟩, by simp, by simp, (nofun), fun _ => ⟨_, g1, d, lang, nl,
      [], ind, by simp [unlines], hd, hlang, hnl, by simp, f4, by simp [unlines]⟩⟩, fun _ => h0, fun _ => ?_,
      fun _ => by simp only; omega⟩
    · have := hsp.1; have a := hn1.2.2.2.1; have b := hn1.2.2.2.2
      simp only [Token.span] at *
      omega
    · have a := hn1.2.2.2.1
      simp only [Lexeme.span, Token.span] at *
      omega
  · have hl : lexHeredocLoop 2 sp t [] 0 = (.error (.error t.next.1.span .tokenInHeredoc), t.next.2) := by
      rw [lexHeredocLoop]
      simp only [hk]
    rw [hl]
    refine ⟨hn1.1, hh2, ⟨hn1.2.1.spanOK, by simp [Msg.containsEscape]⟩, fun _ => ?_, fun _ => ?_, fun _ => by simp only; omega⟩
    · have a := hn1.2.2.1; have := hsp.1
      simp only [Lexeme.span, Token.span] at *
      omega
    · have a := hn1.2.2.2.1
      simp only [Lexeme.span, Token.span] at *
      omega

theorem at_after_ne {t : Tok} (hn : t.heredoc = none) {k : TokenKind} (hk : t.next.1.kind = k)
    (h : k ≠ .heredocStart) : t.next.2.heredoc = none :=
  (next_state t hn).1 (by rw [hk]; exact h)

theorem lexToken_step {s : List Char} {t : Tok} (hat : At s t) (hn : t.heredoc = none)
    (hws : t.next.1.kind ≠ .whitespace) :
    LexStep s t (lexToken t.next.1 t.next.2).1 (lexToken t.next.1 t.next.2).2 := by
  obtain ⟨a1, a2, a3, a4, a5⟩ := hat.next
  have hok := a2.spanOK
  have hkt := (next_kind t (tokInv_none hn)).2
  have hst := next_state t hn
  have hmeas := next_measure t
  have b1 := a1.next
  have bkt := fun h => (next_kind t.next.2 (tokInv_none h)).2
  have bm := next_measure t.next.2
  -- a lexeme with exactly the token's span
  have simple : ∀ l, t.next.1.kind ≠ .eof → t.next.1.kind ≠ .heredocStart → LexOK s l →
      l.span = t.next.1.span → LexStep s t l t.next.2 := by
    intro l hk1 hk2 hl hsp
    refine ⟨a1, hst.1 hk2, hl, fun _ => ?_, fun _ => ?_, fun _ => hmeas hk1⟩
    · rw [hsp]; simp [Token.span, a3]
    · rw [hsp]; simp [Token.span, a4]
  -- an error lexeme also covering the next token
  have wide : ∀ m, m ≠ .invalidUnicodeEscape → m ≠ .invalidEscape → t.next.1.kind ≠ .eof →
      t.next.1.kind ≠ .heredocStart → t.next.2.next.1.kind = .bareScalar →
      LexStep s t (.error ⟨t.next.1.start, t.next.2.next.1.stop⟩ m) t.next.2.next.2 := by
    intro m hm1 hm2 hk1 hk2 hk3
    have hh := hst.1 hk2
    refine ⟨b1.1, at_after_ne hh hk3 (by simp), ⟨⟨?_, hok.2.1, b1.2.1.spanOK.2.2⟩, ?_⟩, fun _ => ?_, fun _ => ?_, fun _ => ?_⟩
    · have := b1.2.2.2.1; have := b1.2.2.2.2; simp only; omega
    · cases m <;> simp_all [Msg.containsEscape]
    · simp [Lexeme.span, a3]
    · simp [Lexeme.span, b1.2.2.2.1]
    · have := hmeas hk1; have := bm (by simp [hk3]); omega
  unfold lexToken
  cases hk : t.next.1.kind with
  | eof =>
    exact ⟨a1, hst.1 (by simp [hk]), trivial, fun h => absurd rfl h, fun h => absurd rfl h, fun h => absurd rfl h⟩
  | lbrace =>
    rw [hk] at hkt
    have hkt : t.next.1.text = ['{'] := hkt
    rw [hkt] at a2
    exact simple _ (by simp [hk]) (by simp [hk]) a2 rfl
  | rbrace =>
    rw [hk] at hkt
    have hkt : t.next.1.text = ['}'] := hkt
    rw [hkt] at a2
    exact simple _ (by simp [hk]) (by simp [hk]) a2 rfl
  | lparen =>
    rw [hk] at hkt
    have hkt : t.next.1.text = ['('] := hkt
    rw [hkt] at a2
    exact simple _ (by simp [hk]) (by simp [hk]) a2 rfl
  | rparen =>
    rw [hk] at hkt
    have hkt : t.next.1.text = [')'] := hkt
    rw [hkt] at a2
    exact simple _ (by simp [hk]) (by simp [hk]) a2 rfl
  | comma =>
    rw [hk] at hkt
    have hkt : t.next.1.text = [','] := hkt
    rw [hkt] at a2
    exact simple _ (by simp [hk]) (by simp [hk]) a2 rfl
  | gt => exact simple _ (by simp [hk]) (by simp [hk]) ⟨hok, by simp [Msg.containsEscape]⟩ rfl
  | newline => exact simple _ (by simp [hk]) (by simp [hk]) hok rfl
  | lineComment => exact simple _ (by simp [hk]) (by simp [hk]) hok rfl
  | docComment => exact simple _ (by simp [hk]) (by simp [hk]) hok rfl
  | «at» =>
    simp only
    split
    · rename_i h
      exact wide _ (by simp) (by simp) (by simp [hk]) (by simp [hk]) h.2
    · rw [hk] at hkt
      have hkt : t.next.1.text = ['@'] := hkt
      rw [hkt] at a2
      exact simple _ (by simp [hk]) (by simp [hk]) a2 rfl
  | tag =>
    simp only
    split
    · rename_i h
      exact wide _ (by simp) (by simp) (by simp [hk]) (by simp [hk]) h.2.2
    · refine simple _ (by simp [hk]) (by simp [hk]) ?_ rfl
      rw [hk] at hkt
      obtain ⟨n, ns, htx, _⟩ := hkt
      rw [htx] at a2
      simpa [LexOK, htx] using a2
  | bareScalar =>
    simp only
    split
    · rename_i h
      have hh : t.next.2.heredoc = none := hst.1 (by simp [hk])
      have hbare : t.next.1.text ≠ [] ∧ '{' ∉ t.next.1.text := by
        rw [hk] at hkt
        exact ⟨hkt.1, fun hm => (hkt.2 _ hm).1 (by simp [bareForbidden])⟩
      have hh2 := at_after_ne hh h.1 (by simp)
      have hgt := bkt hh
      rw [h.1] at hgt
      have hg : t.next.2.next.1.text = ['>'] := hgt
      have hm2 : t.next.2.next.2.measure < t.measure := by
        have := hmeas (by simp [hk]); have := bm (by simp [h.1]); omega
      obtain ⟨pa, pb, p1, p2, p3⟩ := b1.2.1
      rw [hg] at p1 p3
      have e : '>'.utf8Size = 1 := rfl
      simp only [Token.span, utf8Len_cons, utf8Len_nil, e] at p2 p3
      have hsp : HasText s ⟨t.next.2.next.1.stop - 1, t.next.2.next.1.stop⟩ ['>'] :=
        ⟨pa, pb, p1, by simp only; omega, by simp [e]; omega⟩
      have errcase : ∀ m, m.containsEscape = false →
          LexStep s t (.error ⟨t.next.2.next.1.stop - 1, t.next.2.next.1.stop⟩ m) t.next.2.next.2 := by
        intro m hm
        refine ⟨b1.1, hh2, ⟨hsp.spanOK, by simp [hm]⟩, fun _ => ?_, fun _ => ?_, fun _ => hm2⟩
        · have := b1.2.2.1; simp only [Lexeme.span]; omega
        · have := b1.2.2.2.1; simp only [Lexeme.span]; omega
      split
      · exact errcase _ rfl
      · split
        · exact errcase _ rfl
        · refine ⟨b1.1, hh2, ⟨⟨?_, hok.2.1, b1.2.1.spanOK.2.2⟩, a2, rfl, ?_, hbare⟩, fun _ => ?_, fun _ => ?_, fun _ => hm2⟩
          · have := b1.2.2.2.1; have := b1.2.2.2.2; simp only; omega
          · have := b1.2.2.2.1; have := b1.2.2.2.2; simp only [Token.span]; omega
          · simp [Lexeme.span, a3]
          · simp [Lexeme.span, b1.2.2.2.1]
    · exact simple _ (by simp [hk]) (by simp [hk]) ⟨hok, fun _ => a2, by simp, (nofun), (nofun)⟩ rfl
  | quotedScalar =>
    rw [hk] at hkt
    obtain ⟨body, hb, _⟩ := hkt
    simp only
    rw [hb, quotedInner_body]
    rw [hb] at a2
    split
    · rename_i v hv
      exact simple _ (by simp [hk]) (by simp [hk])
        ⟨hok, by simp, fun _ => ⟨body, a2, processEscapes_sound hv⟩, (nofun), (nofun)⟩ rfl
    · rename_i m hm
      refine simple _ (by simp [hk]) (by simp [hk]) ⟨hok, fun _ => ⟨body, a2, ?_⟩⟩ rfl
      rintro ⟨v, hv⟩
      rw [processEscapes_complete hv] at hm
      cases hm
  | rawScalar =>
    simp only
    split
    · rename_i v hv
      refine simple _ (by simp [hk]) (by simp [hk]) ⟨hok, by simp, by simp, fun _ => ?_, by simp⟩ rfl
      rw [hk] at hkt
      rcases rawContent_some hkt hv with h | ⟨x, y, hxy⟩
      · exact .inl ⟨_, a2, h⟩
      · obtain ⟨p, q, hpq, _⟩ := a2
        refine .inr ⟨p ++ x, y ++ q, ?_⟩
        rw [hpq, hxy]; simp only [List.append_assoc]
    · rename_i hr
      rw [hk] at hkt
      obtain ⟨x, y, hxy⟩ := rawContent_none hkt hr
      obtain ⟨p, q, hpq, _⟩ := a2
      refine simple _ (by simp [hk]) (by simp [hk]) ⟨hok, p ++ x, y ++ q, ?_⟩ rfl
      rw [hpq, hxy]; simp only [List.append_assoc]
  | heredocStart =>
    obtain ⟨d, lang, nl, hd1, hd2, htx, hlang, hnl⟩ := next_heredocOpen hn hk
    rw [htx] at a2
    exact lexHeredoc_step a1 hd1 hd2 hok (by simp [Token.span, a3]) (by simp [Token.span, a4])
      (hmeas (by simp [hk])) a2 hlang hnl
  | heredocContent => exact absurd hk hst.2.2.2.1
  | heredocEnd => exact absurd hk hst.2.2.2.2
  | whitespace => exact absurd hk hws
  | error => exact simple _ (by simp [hk]) (by simp [hk]) ⟨hok, by simp [Msg.containsEscape]⟩ rfl

theorem nextLexeme_step {s : List Char} {t : Tok} (hat : At s t) (hn : t.heredoc = none) :
    LexStep s t (nextLexeme t).1 (nextLexeme t).2 := by
  unfold nextLexeme
  have hws := skipWs_done t hn
  have hsk : At s t.skipWs ∧ t.skipWs.heredoc = none ∧ t.pos ≤ t.skipWs.pos ∧
      t.skipWs.measure ≤ t.measure := by
    unfold Tok.skipWs
    split
    · rename_i hk
      exact ⟨hat.next.1, at_after_ne hn hk (by simp), hat.next.2.2.2.2,
        Nat.le_of_lt (next_measure t (by simp [hk]))⟩
    · exact ⟨hat, hn, Nat.le_refl _, Nat.le_refl _⟩
  have h := lexToken_step hsk.1 hsk.2.1 hws
  exact ⟨h.at', h.none, h.ok, fun he => Nat.le_trans hsk.2.2.1 (h.start he), h.stop,
    fun he => Nat.lt_of_lt_of_le (h.measure he) hsk.2.2.2⟩

/-- The lexemes `ls` of `s` lie in order after byte `p`; a tag with a payload is directly followed by
it. -/
def Chain (s : List Char) : Nat → List Lexeme → Prop
  | p, [] => p ≤ utf8Len s
  | p, l :: ls => l ≠ .eof ∧ LexOK s l ∧ p ≤ l.span.start ∧ Chain s l.span.stop ls ∧
      ∀ sp name, l = .tag sp name true → containsSlashAt name = false →
        ∃ l' ls', ls = l' :: ls' ∧ l'.span.start = sp.stop

/-- A token that can be an immediate payload becomes a lexeme that starts where the token does. -/
theorem payload_start {s : List Char} {t : Tok} (hat : At s t) (hp : t.next.1.kind.isPayload = true) :
    (nextLexeme t).1 ≠ .eof ∧ (nextLexeme t).1.span.start = t.pos := by
  have hk : t.next.1.kind ≠ .whitespace := by intro h; rw [h] at hp; cases hp
  rw [nextLexeme_of_ne hk]
  have hs := hat.next.2.2.1
  unfold lexToken
  cases h : t.next.1.kind <;> rw [h] at hp <;> simp only [TokenKind.isPayload, Bool.false_eq_true] at hp <;>
    simp only <;> (try split) <;> exact ⟨by simp, by simp [Lexeme.span, Token.span, hs]⟩

theorem nextLexeme_tag {s : List Char} {t : Tok} (hat : At s t) {sp : Span}
    {name : List Char} (h : (nextLexeme t).1 = .tag sp name true) (hc : containsSlashAt name = false) :
    (nextLexeme t).2.next.1.kind.isPayload = true ∧ (nextLexeme t).2.pos = sp.stop := by
  have hsk : At s t.skipWs := by
    unfold Tok.skipWs; split
    · exact hat.next.1
    · exact hat
  unfold nextLexeme at h ⊢
  simp only at h ⊢
  generalize t.skipWs = t at *
  have hst := hat.next
  have e4 := hsk.next.2.2.2.1
  unfold lexToken at h ⊢
  cases hk : t.next.1.kind <;> rw [hk] at h <;> simp only [reduceCtorEq] at h ⊢
  case «at» => split at h <;> cases h
  case tag =>
    split at h
    · cases h
    · rename_i hcond
      rw [if_neg hcond]
      simp only [Lexeme.tag.injEq] at h
      obtain ⟨rfl, rfl, h3⟩ := h
      rw [hc] at h3
      simp only [Bool.false_or, Bool.and_eq_true, decide_eq_true_eq] at h3
      exact ⟨h3.2, e4.symm⟩
  case bareScalar =>
    split at h
    · split at h
      · cases h
      · split at h <;> cases h
    · cases h
  case quotedScalar => split at h <;> cases h
  case rawScalar => split at h <;> cases h
  case heredocStart =>
    exfalso
    unfold lexHeredoc at h
    split at h
    · rename_i l _ heq
      simp only at h
      subst h
      have : ∀ n sp0 sp t c i, (lexHeredocLoop n sp t c i).1 ≠ .error (.tag sp0 name true) := by
        intro n sp0
        induction n with
        | zero => intro sp t c i; simp [lexHeredocLoop]
        | succ n ih =>
          intro sp t c i
          rw [lexHeredocLoop]
          simp only
          split <;> first | exact ih _ _ _ _ | simp
      have h2 := this 2 sp t.next.1.span t.next.2 [] 0
      rw [heq] at h2
      exact h2 rfl
    · cases h

theorem lexRun_chain {s : List Char} (n : Nat) (t : Tok) (hat : At s t) (hn : t.heredoc = none)
    (hm : t.measure < n) : Chain s t.pos (lexRun n t) := by
  induction n generalizing t with
  | zero => omega
  | succ n ih =>
    rw [lexRun]
    simp only
    have hst := nextLexeme_step hat hn
    split
    · exact hat.boundary.le
    · rename_i hne
      have hm' := hst.measure hne
      have hrec := ih _ hst.at' hst.none (by omega)
      refine ⟨hne, hst.ok, hst.start hne, ?_, ?_⟩
      · -- weaken the start of the rest
        have hstop := hst.stop hne
        revert hrec hstop
        generalize lexRun n (nextLexeme t).2 = ls
        intro hrec hstop
        cases ls with
        | nil => exact Nat.le_trans hstop hrec
        | cons l ls => exact ⟨hrec.1, hrec.2.1, Nat.le_trans hstop hrec.2.2.1, hrec.2.2.2⟩
      · intro sp name hl hc
        obtain ⟨hp, hpos⟩ := nextLexeme_tag hat hl hc
        obtain ⟨h1, h2⟩ := payload_start hst.at' hp
        obtain ⟨k, rfl⟩ : ∃ k, n = k + 1 := ⟨n - 1, by omega⟩
        rw [lexRun]
        simp only [if_neg h1]
        exact ⟨_, _, rfl, by rw [h2, hpos]⟩

theorem lex_chain (s : List Char) : Chain s 0 (lex s) :=
  lexRun_chain (s := s) (s.length + 2) (Tok.new s) ⟨[], rfl, rfl⟩ rfl (by simp [Tok.measure, Tok.new])

end Styx
