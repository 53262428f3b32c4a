import Verif.Parse.HeredocLemmas
import Verif.Format.Scalar

/-! # Property theorems C05–C09: scalars -/

namespace Styx.Props

open Styx Styx.Spec

/-! ## C05 -/

/-- **C05**.  For every string `s`: the quoted form of `s` is tokenized and lexed as exactly one
quoted scalar with value `s`, parsed (as an expression) to exactly one scalar event with that value,
and the formatter's unescape function inverts its escape function. -/
theorem C05_quoted_round_trip (s : List Char) :
    (tokenize ('"' :: escapeQuoted s ++ ['"'])).map (fun t => (t.kind, t.text)) =
        [(.quotedScalar, '"' :: escapeQuoted s ++ ['"'])] ∧
    lex ('"' :: escapeQuoted s ++ ['"']) =
        [.scalar ⟨0, utf8Len (escapeQuoted s) + 2⟩ s .quoted] ∧
    parseExprEvents ('"' :: escapeQuoted s ++ ['"']) =
        some [⟨⟨0, utf8Len (escapeQuoted s) + 2⟩, .scalar s .quoted⟩] ∧
    fmtUnescape (escapeQuoted s) = s := by
  have hb := escapeQuoted_body s
  have hl : lex ('"' :: escapeQuoted s ++ ['"']) =
        [.scalar ⟨0, utf8Len (escapeQuoted s) + 2⟩ s .quoted] := by
    have h := nextLexeme_quoted hb [] 0
    rw [processEscapes_complete (escapeQuoted_escaped s)] at h
    simp only [Nat.zero_add] at h
    exact lex_single h (by simp)
  refine ⟨?_, hl, parseExpr_scalar hl, fmtUnescape_escaped (escapeQuoted_escaped s)⟩
  have h := next_quoted hb [] 0
  unfold tokenize
  rw [Tok.run, show Tok.new ('"' :: escapeQuoted s ++ ['"']) =
    ⟨'"' :: escapeQuoted s ++ '"' :: [], 0, none⟩ from rfl, h]
  simp only [List.cons_append, List.length_cons, List.length_append]
  rw [Tok.run, next_nil]
  simp

/-- **C05**, in context: also when followed by any text and at any position, the quoted form of `s`
is one quoted scalar with value `s`, and lexing goes on right after it. -/
theorem C05_quoted_round_trip_in_context (s rest : List Char) (p : Nat) :
    nextLexeme ⟨'"' :: escapeQuoted s ++ '"' :: rest, p, none⟩ =
      (.scalar ⟨p, p + utf8Len (escapeQuoted s) + 2⟩ s .quoted,
       ⟨rest, p + utf8Len (escapeQuoted s) + 2, none⟩) := by
  have h := nextLexeme_quoted (escapeQuoted_body s) rest p
  rwa [processEscapes_complete (escapeQuoted_escaped s)] at h

example : escapeQuoted (chars! "é\"\\\n\x01🎉") = chars! "é\\\"\\\\\\n\\u{0001}🎉" := by decide +kernel

/-! ## C06 -/

/-- What the parser does with a quoted string in expression position, by the outcome of decoding. -/
theorem parseExpr_quoted {raw : List Char} (h : QuotedBody raw) :
    parseExprEvents ('"' :: raw ++ ['"']) =
      match processEscapes raw with
      | .ok v => some [⟨⟨0, utf8Len raw + 2⟩, .scalar v .quoted⟩]
      | .error m =>
        if m.containsEscape then
          some (escErrEvents 1 raw ++ [⟨⟨0, utf8Len raw + 2⟩, .scalar (unescapeQuoted raw) .quoted⟩])
        else some [errEv ⟨0, utf8Len raw + 2⟩ m.valueError] := by
  have hn := nextLexeme_quoted h [] 0
  simp only [Nat.zero_add] at hn
  cases hp : processEscapes raw with
  | ok v =>
    rw [hp] at hn
    exact parseExpr_scalar (lex_single hn (by simp))
  | error m =>
    rw [hp] at hn
    have hl := lex_single hn (by simp)
    unfold parseExprEvents
    rw [hl]
    have hs : sliceBytes ('"' :: raw ++ ['"']) 0 (utf8Len raw + 2) = some ('"' :: raw ++ ['"']) := by
      rw [sliceBytes_eq]
      have := slice_append [] ('"' :: raw ++ ['"']) []
      have e : '"'.utf8Size = 1 := rfl
      simp only [List.nil_append, List.append_nil, utf8Len_nil, utf8Len_cons, utf8Len_append, e,
        Nat.zero_add] at this
      rw [show utf8Len raw + 2 = 1 + utf8Len raw + (1 + 0) by omega]
      simpa using this
    have hq : stripQuotes ('"' :: raw ++ ['"']) = raw := by
      have : ('"' :: raw ++ ['"']).getLast? = some '"' := List.getLast?_concat
      unfold stripQuotes
      rw [if_pos ⟨rfl, this⟩]
      simp
    cases hm : m.containsEscape with
    | false =>
      simp [runParser, advance, advanceExpression, parseAtom, parseFuel, hm, emitValue]
    | true =>
      have hne : ∀ (a : List Event) (e : Event), ∃ x y, a ++ [e] = x :: y := by
        intro a e; cases a <;> simp
      obtain ⟨x, y, hxy⟩ := hne (escErrEvents 1 raw)
        ⟨⟨0, utf8Len raw + 2⟩, .scalar (unescapeQuoted raw) .quoted⟩
      simp only [runParser, advance, advanceExpression, parseAtom, parseFuel, hm, if_true, hs, hq,
        emitValue, List.nil_append, hxy]
      simp

/-- **C06** (valid strings).  If every backslash of the quoted text begins an escape, the parser
reports nothing and the value is the character-by-character replacement of each escape; conversely,
the lexer produces a quoted scalar only for such texts, and with that value. -/
theorem C06_valid_escapes_decoded {raw v : List Char} (hb : QuotedBody raw) :
    (Escaped raw v → parseExprEvents ('"' :: raw ++ ['"']) =
      some [⟨⟨0, utf8Len raw + 2⟩, .scalar v .quoted⟩]) ∧
    (Escaped raw v ↔ lex ('"' :: raw ++ ['"']) = [.scalar ⟨0, utf8Len raw + 2⟩ v .quoted]) := by
  refine ⟨fun h => ?_, fun h => ?_, fun h => ?_⟩
  · rw [parseExpr_quoted hb, processEscapes_complete h]
  · have hn := nextLexeme_quoted hb [] 0
    rw [processEscapes_complete h] at hn
    simpa using lex_single hn (by simp)
  · have hn := nextLexeme_quoted hb [] 0
    cases hp : processEscapes raw with
    | ok w =>
      rw [hp] at hn
      rw [lex_single hn (by simp)] at h
      simp at h
      exact processEscapes_sound (h ▸ hp)
    | error m =>
      rw [hp] at hn
      rw [lex_single hn (by simp)] at h
      simp at h

/-- A character is ASCII. -/
def Ascii (c : Char) : Prop := c.utf8Size = 1

/-- **C06** (reported errors).  Full statement: an error is reported if and only if some backslash
does not begin an escape, i.e. iff `¬ ∃ v, Escaped raw v`.  Proved: (1) an error (or panic) is only
reported for such texts; (2) every text outside `Lenient` gets an error (or panic); (3) on ASCII
texts there is no panic.  Missing: the texts that are `Lenient` but denote nothing, which the code
accepts silently (`C06_false_short`, `C06_false_empty`). -/
theorem C06_invalid_escapes_reported_partial {raw : List Char} (hb : QuotedBody raw) :
    ∃ evs, parseExprEvents ('"' :: raw ++ ['"']) = some evs ∧
      ((∃ e ∈ evs, (∃ k, e.kind = .error k) ∨ e.kind = .panic) → ¬ ∃ v, Escaped raw v) ∧
      (¬ Lenient raw → ∃ e ∈ evs, (∃ k, e.kind = .error k) ∨ e.kind = .panic) ∧
      ((∀ c ∈ raw, Ascii c) → ∀ e ∈ evs, e.kind ≠ .panic) := by
  rw [parseExpr_quoted hb]
  cases hp : processEscapes raw with
  | ok v =>
    refine ⟨_, rfl, ?_, ?_, ?_⟩
    · simp
    · intro h; exact absurd (Escaped.lenient (processEscapes_sound hp)) h
    · simp
  | error m =>
    have hne : ¬ ∃ v, Escaped raw v := by
      rintro ⟨v, hv⟩
      rw [processEscapes_complete hv] at hp
      cases hp
    simp only
    split
    · refine ⟨_, rfl, fun _ => hne, ?_, ?_⟩
      · intro h
        rw [← validateEscapes_iff] at h
        cases hv : validateEscapes raw with
        | nil => exact absurd hv h
        | cons e es =>
          cases e with
          | bad off seq => exact ⟨_, by simp [escErrEvents, hv]; exact Or.inl rfl, Or.inl ⟨_, rfl⟩⟩
          | panic => exact ⟨_, by simp [escErrEvents, hv]; exact Or.inl rfl, Or.inr rfl⟩
      · intro ha e he
        rw [List.mem_append, List.mem_singleton] at he
        rcases he with he | rfl
        · simp only [escErrEvents, List.mem_map] at he
          obtain ⟨x, hx, rfl⟩ := he
          cases x with
          | bad => simp [errEv]
          | panic => exact absurd hx (validate_ascii ha (by simp [ValMode.seen]))
        · simp
    · refine ⟨_, rfl, fun _ => hne, fun _ => ⟨_, by simp; rfl, Or.inl ⟨_, rfl⟩⟩, ?_⟩
      simp [errEv]

/-- Non-vacuity: a text with a bad escape is reported, with the place of the escape. -/
example : parseExprEvents (chars! "\"ab\\qé\"") =
    some [⟨⟨3, 5⟩, .error (.invalidEscape (chars! "\\q"))⟩,
      ⟨⟨0, 8⟩, .scalar (chars! "ab\\qé") .quoted⟩] := by decide +kernel

example : ¬ Lenient (chars! "ab\\qé") := by
  rw [← validateEscapes_iff]; decide +kernel

example : Escaped (chars! "a\\u{1F600}\\n\\u00e9") (chars! "a😀\né") := by
  rw [← processEscapes_iff]; rfl

/-- **C06 is false** of the code: `\u00e` (three digits) is accepted without an error, as the empty
string. -/
theorem C06_false_short :
    QuotedBody (chars! "\\u00e") ∧ (¬ ∃ v, Escaped (chars! "\\u00e") v) ∧
    parseExprEvents (chars! "\"\\u00e\"") = some [⟨⟨0, 7⟩, .scalar [] .quoted⟩] := by
  refine ⟨?_, ?_, by decide +kernel⟩
  · exact .esc (.plain (by decide) (by decide) (.plain (by decide) (by decide)
      (.plain (by decide) (by decide) .nil)))
  · rintro ⟨v, h⟩
    have := processEscapes_complete h
    have h2 : processEscapes (chars! "\\u00e") = .error .invalidUnicodeEscape := by rfl
    rw [h2] at this; cases this

/-- **C06 is false** of the code: `\u{}` is accepted without an error, as the empty string. -/
theorem C06_false_empty :
    (¬ ∃ v, Escaped (chars! "\\u{}") v) ∧
    parseExprEvents (chars! "\"\\u{}\"") = some [⟨⟨0, 6⟩, .scalar [] .quoted⟩] := by
  refine ⟨?_, by decide +kernel⟩
  rintro ⟨v, h⟩
  have := processEscapes_complete h
  have h2 : processEscapes (chars! "\\u{}") = .error .invalidUnicodeEscape := by rfl
  rw [h2] at this; cases this

/-! ## C07 -/

/-- The text of a raw string with `n` hashes and content `c`. -/
def rawText (n : Nat) (c : List Char) : List Char :=
  'r' :: List.replicate n '#' ++ '"' :: c ++ '"' :: List.replicate n '#'

/-- **C07** for at most 255 hashes.  Full statement: the same for every `n`; it is false for
`n = 256` (`C07_false_256`).  The raw string, followed by anything, is one raw scalar with value
`c`; alone, it is one token, one lexeme and one scalar event. -/
theorem C07_raw_verbatim_partial {n : Nat} (hn : n ≤ 255) {c : List Char}
    (h : ∀ a b, c ≠ a ++ '"' :: List.replicate n '#' ++ b) :
    (∀ rest p, nextLexeme ⟨rawText n c ++ rest, p, none⟩ =
      (.scalar ⟨p, p + utf8Len (rawText n c)⟩ c .raw, ⟨rest, p + utf8Len (rawText n c), none⟩)) ∧
    parseExprEvents (rawText n c) = some [⟨⟨0, utf8Len (rawText n c)⟩, .scalar c .raw⟩] := by
  have hu : ∀ p, p + utf8Len (rawText n c) = p + utf8Len c + 2 * n + 3 := by
    intro p
    have er : 'r'.utf8Size = 1 := rfl
    have eq : '"'.utf8Size = 1 := rfl
    simp [rawText, utf8Len_hashes, er, eq]
    omega
  have key : ∀ rest p, nextLexeme ⟨rawText n c ++ rest, p, none⟩ =
      (.scalar ⟨p, p + utf8Len (rawText n c)⟩ c .raw, ⟨rest, p + utf8Len (rawText n c), none⟩) := by
    intro rest p
    rw [hu]
    exact nextLexeme_raw hn h rest p
  refine ⟨key, ?_⟩
  have := key [] 0
  rw [List.append_nil, Nat.zero_add] at this
  exact parseExpr_scalar (lex_single this (by simp))

/-- Non-vacuity: content with quotes, hashes and backslashes. -/
example : parseExprEvents (rawText 2 (chars! "a\"#\\n")) =
    some [⟨⟨0, 12⟩, .scalar (chars! "a\"#\\n") .raw⟩] := by decide +kernel

example : ∀ a b, chars! "a\"#\\n" ≠ a ++ '"' :: List.replicate 2 '#' ++ b := by
  intro a b h
  have h1 : (chars! "a\"#\\n").length = a.length + 3 + b.length := by rw [h]; simp; omega
  have h2 : (chars! "a\"#\\n").drop a.length = '"' :: List.replicate 2 '#' ++ b := by
    rw [h, List.append_assoc]; simp
  have : a.length ≤ 2 := by simp at h1; omega
  match hl : a.length with
  | 0 => rw [hl] at h2; simp at h2
  | 1 => rw [hl] at h2; simp [List.replicate_succ] at h2
  | 2 => rw [hl] at h2; simp at h2
  | k + 3 => omega

/-- **C07 is false** of the code for 256 hashes: the value of `r##…"x"##…` is empty (and a hash is
left over), and lexing `r##…""##…` panics. -/
theorem C07_false_256 :
    lex (rawText 256 ['x']) = [.scalar ⟨0, 515⟩ [] .raw, .scalar ⟨515, 516⟩ ['#'] .bare] ∧
    lex (rawText 256 []) = [.panic ⟨0, 514⟩, .scalar ⟨514, 515⟩ ['#'] .bare] := by
  decide +kernel

theorem scanRaw_stops (k : Nat) (c tail : List Char) :
    (scanRaw k (c ++ '"' :: List.replicate k '#' ++ tail)).1 = true ∧
      tail.length ≤ (scanRaw k (c ++ '"' :: List.replicate k '#' ++ tail)).2.2.length := by
  induction c with
  | nil =>
    have h : hashesFollow k (List.replicate k '#' ++ tail) = true := (hashesFollow_iff _ _).mpr ⟨tail, rfl⟩
    simp [scanRaw, h]
  | cons x c ih =>
    simp only [List.cons_append, scanRaw]
    split
    · simp; omega
    · exact ih

/-- **C07**, where it ends.  The raw string with `n` hashes, whatever follows it and wherever it
stands, is read as one raw scalar with its content as value exactly if `n` is at most 255.  With more
hashes the lexeme ends before the raw string does, for every content. -/
theorem C07_exact {n : Nat} {c : List Char} (h : ∀ a b, c ≠ a ++ '"' :: List.replicate n '#' ++ b)
    (rest : List Char) (p : Nat) :
    (nextLexeme ⟨rawText n c ++ rest, p, none⟩ =
      (.scalar ⟨p, p + utf8Len (rawText n c)⟩ c .raw, ⟨rest, p + utf8Len (rawText n c), none⟩) ↔ n ≤ 255) ∧
    (255 < n → rest.length < (nextLexeme ⟨rawText n c ++ rest, p, none⟩).2.remaining.length) := by
  have long : 255 < n → rest.length < (nextLexeme ⟨rawText n c ++ rest, p, none⟩).2.remaining.length := by
    intro hn
    obtain ⟨m, rfl⟩ : ∃ m, n = 255 + m := ⟨n - 255, by omega⟩
    have hs := scanRaw_stops 255 c (List.replicate m '#' ++ rest)
    have hnx : Tok.next ⟨rawText (255 + m) c ++ rest, p, none⟩ = Tok.rawString ⟨rawText (255 + m) c ++ rest, p, none⟩
        (List.replicate (255 + m) '#' ++ '"' :: (c ++ '"' :: List.replicate 255 '#' ++ (List.replicate m '#' ++ rest))) := by
      have e : rawText (255 + m) c ++ rest = 'r' :: (List.replicate (255 + m) '#' ++
          '"' :: (c ++ '"' :: List.replicate 255 '#' ++ (List.replicate m '#' ++ rest))) := by
        rw [rawText, ← List.replicate_append_replicate]
        simp only [List.cons_append, List.append_assoc]
      rw [e, next_r _ _ (by
        rw [show 255 + m = (254 + m) + 1 by omega, List.replicate_succ, List.cons_append]; exact .inl rfl)]
    have hsat : satHash (255 + m) = 255 := by simp only [satHash]; omega
    unfold Tok.rawString at hnx
    simp only [takeWhile_hashes, dropWhile_hashes, List.length_replicate, hsat] at hnx
    rcases he : scanRaw 255 (c ++ '"' :: List.replicate 255 '#' ++ (List.replicate m '#' ++ rest)) with ⟨ok, a, b⟩
    rw [he] at hs hnx
    obtain ⟨h1, h2⟩ := hs
    simp only at h1 h2
    subst h1
    simp only [Tok.emit] at hnx
    rw [nextLexeme_of_ne (by rw [hnx]; simp), hnx]
    simp only [lexToken]
    simp only [List.length_append, List.length_replicate] at h2
    have : b.length > rest.length := by omega
    split <;> simpa using this
  refine ⟨⟨fun he => ?_, fun hn => (C07_raw_verbatim_partial hn h).1 rest p⟩, long⟩
  apply Nat.le_of_not_lt
  intro hn
  have := long hn
  rw [he] at this
  exact absurd this (by simp)

example : ¬ nextLexeme ⟨rawText 300 (chars! "a\"b") ++ ['z'], 7, none⟩ =
    (.scalar ⟨7, 7 + utf8Len (rawText 300 (chars! "a\"b"))⟩ (chars! "a\"b") .raw,
      ⟨['z'], 7 + utf8Len (rawText 300 (chars! "a\"b")), none⟩) := by
  rw [(C07_exact (fun a b h => by
    have := congrArg List.length h
    simp only [List.length_append, List.length_cons, List.length_replicate, List.length_nil] at this
    omega) ['z'] 7).1]
  omega

/-! ## C08 -/

/-- **C08**.  A heredoc whose body consists of complete lines none of which closes it, with a closing
delimiter indented by `ind`, is one heredoc scalar; its value is the body with up to `ind.length`
leading blanks removed from each line.  This holds at every position and for every text after the
closing line. -/
theorem C08_heredoc_verbatim {d lang nl ind rest : List Char} (hd : Delimiter d)
    (hl : LangHint lang) (hn : nl = ['\n'] ∨ nl = ['\r', '\n']) (hi : ∀ c ∈ ind, Blank c)
    (hr : AtLineEnd rest) {ls : List (List Char)} (hls : ∀ l ∈ ls, '\n' ∉ l ∧ ¬ ClosingLine d l)
    (p : Nat) :
    let text := chars! "<<" ++ d ++ lang ++ nl ++ unlines ls ++ ind ++ d
    nextLexeme ⟨text ++ rest, p, none⟩ =
      (.scalar ⟨p, p + utf8Len text⟩ (unlines (ls.map (dedentLine ind.length))) .heredoc,
       ⟨rest, p + utf8Len text, none⟩) := by
  have h := nextLexeme_heredoc hd hl hn hi hr hls p
  simp only [utf8Len_append, List.append_assoc, List.cons_append, List.nil_append, Nat.add_assoc]
    at h ⊢
  simpa [Nat.add_assoc] using h

/-- **C08**, unindented closing delimiter: the value is exactly the body. -/
theorem C08_heredoc_unindented {d rest : List Char} (hd : Delimiter d) (hr : AtLineEnd rest)
    {ls : List (List Char)} (hls : ∀ l ∈ ls, '\n' ∉ l ∧ ¬ ClosingLine d l) :
    let text := chars! "<<" ++ d ++ ['\n'] ++ unlines ls ++ d
    (lex (text ++ rest)).head? = some (.scalar ⟨0, utf8Len text⟩ (unlines ls) .heredoc) ∧
    parseExprEvents text = some [⟨⟨0, utf8Len text⟩, .scalar (unlines ls) .heredoc⟩] := by
  have hz : ls.map (dedentLine 0) = ls := by
    rw [show dedentLine 0 = id from funext dedentLine_zero, List.map_id]
  have key := fun rest hr => C08_heredoc_verbatim (rest := rest) (ind := []) (lang := []) hd (Or.inl rfl)
    (Or.inl rfl) (by simp) hr hls 0
  simp only [List.length_nil, hz, List.append_nil, Nat.zero_add] at key
  refine ⟨?_, ?_⟩
  · unfold lex
    rw [lexRun, Tok.new, key rest hr]
    simp
  · have := key [] (Or.inl rfl)
    rw [List.append_nil] at this
    exact parseExpr_scalar (lex_single this (by simp))

/-- Non-vacuity: a body containing the delimiter as a prefix of a line and dedented lines. -/
example : lex (chars! "<<EOF,sql\r\n   x\n EOFa\n\n  EOF\nb") =
    [.scalar ⟨0, 28⟩ (chars! " x\nEOFa\n\n") .heredoc, .newline ⟨28, 29⟩, .scalar ⟨29, 30⟩ ['b'] .bare] ∧
    unlines ([chars! "   x", chars! " EOFa", []].map (dedentLine 2)) = chars! " x\nEOFa\n\n" := by
  decide +kernel

/-! ## C09 -/

/-- What may follow a bare scalar: end of input, whitespace, or `,` `}` `)` `{` `(`. -/
def Separator (rest : List Char) : Prop :=
  rest = [] ∨ ∃ c r, rest = c :: r ∧ (isWhitespace c = true ∨ c ∈ [',', '}', ')', '{', '('])

/-- **C09** for strings without `>`.  Full statement: for every string accepted by `can_be_bare`;
it is false for strings with `>` (`C09_false_gt`).  An accepted string, followed by a separator, is
one bare token and one bare scalar with identical text. -/
theorem C09_bare_round_trip_partial {s rest : List Char} (hs : canBeBare s = true) (hgt : '>' ∉ s)
    (hr : Separator rest) (p : Nat) :
    Tok.next ⟨s ++ rest, p, none⟩ =
      (⟨.bareScalar, p, p + utf8Len s, s⟩, ⟨rest, p + utf8Len s, none⟩) ∧
    nextLexeme ⟨s ++ rest, p, none⟩ =
      (.scalar ⟨p, p + utf8Len s⟩ s .bare, ⟨rest, p + utf8Len s, none⟩) := by
  have hall : ∀ c ∈ s, bareSpecial c = false ∧ isWhitespace c = false := by
    unfold canBeBare at hs
    split at hs
    · cases hs
    · split at hs
      · cases hs
      · intro c hc
        have := hs
        simp at this
        exact this c hc
  have hbc : ∀ c ∈ s, isBareChar c = true := by
    intro c hc
    have h1 := hall c hc
    have h2 : c ≠ '>' := fun e => hgt (e ▸ hc)
    have h3 := h1.1
    simp only [bareSpecial, Bool.or_eq_false_iff, beq_eq_false_iff_ne] at h3
    simp [isBareChar, h1.2, h2, h3]
  have hstop : ∀ c r, rest = c :: r → isBareChar c = false := by
    intro c r h
    rcases hr with rfl | ⟨x, y, rfl, h1⟩
    · cases h
    · simp only [List.cons.injEq] at h
      rw [← h.1]
      rcases h1 with h1 | h1
      · simp [isBareChar, h1]
      · simp only [List.mem_cons, List.not_mem_nil, or_false] at h1
        rcases h1 with rfl | rfl | rfl | rfl | rfl <;> rfl
  have hsplit := takeWhile_append_stop hbc hstop
  have hbare : Tok.bareScalar ⟨s ++ rest, p, none⟩ =
      (⟨.bareScalar, p, p + utf8Len s, s⟩, ⟨rest, p + utf8Len s, none⟩) := by
    simp [Tok.bareScalar, Tok.emit, hsplit.1, hsplit.2]
  have hnext : Tok.next ⟨s ++ rest, p, none⟩ =
      (⟨.bareScalar, p, p + utf8Len s, s⟩, ⟨rest, p + utf8Len s, none⟩) := by
    rw [← hbare]
    cases hcs : s with
    | nil => rw [hcs] at hs; simp [canBeBare] at hs
    | cons c cs =>
      have hc := hall c (by simp [hcs])
      have hcgt : c ≠ '>' := fun e => hgt (by simp [hcs, e])
      have h3 := hc.1
      simp only [bareSpecial, Bool.or_eq_false_iff, beq_eq_false_iff_ne] at h3
      obtain ⟨⟨⟨⟨⟨⟨⟨n1, n2⟩, n3⟩, n4⟩, n5⟩, n6⟩, n7⟩, n8⟩ := h3
      have hw := hc.2
      have hblank : isBlank c = false := by
        cases hb : isBlank c with
        | false => rfl
        | true => rcases (isBlank_iff c).mp hb with rfl | rfl <;> revert hw <;> decide
      have hn1 : c ≠ '\n' := by rintro rfl; revert hw; decide
      have hn2 : c ≠ '\r' := by rintro rfl; revert hw; decide
      have hhead : ∀ x, (cs ++ rest).head? = some x →
          cs.head? = some x ∨ (isWhitespace x = true ∨ x ∈ [',', '}', ')', '{', '(']) := by
        intro x hx
        cases cs with
        | cons y ys => left; simpa using hx
        | nil =>
          right
          rcases hr with rfl | ⟨x', y, rfl, h1⟩
          · simp at hx
          · simp at hx; rw [← hx]; exact h1
      rw [hcs] at hs
      have hpre : ¬ (c = '/' ∧ cs.head? = some '/') ∧ ¬ (c = 'r' ∧ cs.head? = some '#') ∧
          ¬ (c = '<' ∧ cs.head? = some '<') := by
        refine ⟨?_, ?_, ?_⟩ <;> rintro ⟨rfl, h⟩ <;> cases cs <;> simp at h <;> subst h <;>
          simp [canBeBare, startsWith, stripPrefix] at hs
      unfold Tok.next
      simp only [List.cons_append]
      rw [if_neg n1, if_neg n2, if_neg n3, if_neg n4, if_neg n5, if_neg hcgt, if_neg n8, if_neg n6]
      by_cases hsl : c = '/'
      · rw [if_pos hsl]
        have : (cs ++ rest).head? ≠ some '/' := by
          intro hx
          rcases hhead _ hx with h | h
          · exact hpre.1 ⟨hsl, h⟩
          · revert h; decide
        split
        · rename_i heq; rw [heq] at this; simp at this
        · rename_i heq; rw [heq] at this; simp at this
        · rfl
      · rw [if_neg hsl, if_neg, if_neg, if_neg (by simp [hblank]), if_neg hn1, if_neg (fun h => hn2 h.1), if_pos]
        · simp [isBareStart, hw, n1, n2, n3, n4, n5, n6, n7, n8, hcgt, hsl]
        · rintro ⟨h1, h2 | h2⟩
          · rcases hhead _ h2 with h | h
            · exact hpre.2.1 ⟨h1, h⟩
            · revert h; decide
          · rcases hhead _ h2 with h | h
            · have := (hall '"' (by rw [hcs]; cases cs <;> simp at h; simp [h])).1
              revert this; decide
            · revert h; decide
        · rintro ⟨h1, h2⟩
          rcases hhead _ h2 with h | h
          · exact hpre.2.2 ⟨h1, h⟩
          · revert h; decide
  refine ⟨hnext, ?_⟩
  rw [nextLexeme_of_ne (by rw [hnext]; simp), hnext]
  simp only [lexToken]
  have hngt : (Tok.next ⟨rest, p + utf8Len s, none⟩).1.kind ≠ .gt := by
    intro hk
    have hkt := (next_kind ⟨rest, p + utf8Len s, none⟩ (tokInv_none rfl)).2
    rw [hk] at hkt
    have hst := (next_step ⟨rest, p + utf8Len s, none⟩).text
    rw [show (Tok.next ⟨rest, p + utf8Len s, none⟩).1.text = ['>'] from hkt] at hst
    rcases hr with rfl | ⟨x, y, rfl, h1⟩
    · simp at hst
    · simp at hst
      rw [← hst.1] at h1
      revert h1; decide
  rw [if_neg (fun h => hngt h.1)]
  rfl

/-- Non-vacuity: strings with characters that are special elsewhere. -/
example : canBeBare (chars! "/a<<r#é\\") = true ∧ canBeBare (chars! "r#a") = false := by decide +kernel

/-- **C09 is false** of the code: `a>b` is accepted by `can_be_bare` and is three tokens. -/
theorem C09_false_gt :
    canBeBare (chars! "a>b") = true ∧
    (tokenize (chars! "a>b")).map (·.kind) = [.bareScalar, .gt, .bareScalar] := by decide +kernel

/-- **C09**, exactly.  A string that `can_be_bare` accepts, followed by a separator, is one bare token
and one bare scalar with the same text exactly if it has no `>`. -/
theorem C09_exact {s rest : List Char} (hs : canBeBare s = true) (hr : Separator rest) (p : Nat) :
    (Tok.next ⟨s ++ rest, p, none⟩ =
      (⟨.bareScalar, p, p + utf8Len s, s⟩, ⟨rest, p + utf8Len s, none⟩) ∧
    nextLexeme ⟨s ++ rest, p, none⟩ =
      (.scalar ⟨p, p + utf8Len s⟩ s .bare, ⟨rest, p + utf8Len s, none⟩)) ↔ '>' ∉ s := by
  refine ⟨fun ⟨h, _⟩ hm => ?_, fun h => C09_bare_round_trip_partial hs h hr p⟩
  have hk := (next_kind ⟨s ++ rest, p, none⟩ (tokInv_none rfl)).2
  rw [h] at hk
  exact (hk.2 '>' hm).1 (by decide)

example : canBeBare (chars! "a>b") = true ∧ Separator [','] :=
  ⟨by decide +kernel, .inr ⟨',', [], rfl, .inr (by decide)⟩⟩

end Styx.Props
