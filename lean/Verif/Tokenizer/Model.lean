import Verif.Basic

/-!
# Model of the tokenizer

Source: crates/styx-tokenizer/src/{tokenizer.rs, token.rs, span.rs}.

Simplifications, common to all definitions of this file:
* `pos : u32` is a `Nat` (sources shorter than 4 GiB).
* A loop that calls `advance` character by character is modelled by a scanning function that returns
  the consumed characters and the rest; the position grows by the UTF-8 length of what was consumed,
  as the sum of the `advance` calls does (tokenizer.rs:75-80).
* The text of a token is the list of consumed characters.  The code computes it as the slice
  `source[start..pos]` (tokenizer.rs:96-101); that this slice exists and is equal to the consumed
  characters is theorem `C02_spans_exact`.
* `trace!` calls are dropped.
-/

namespace Styx

/-- crates/styx-tokenizer/src/token.rs:6-61 `TokenKind`. -/
inductive TokenKind where
  | lbrace | rbrace | lparen | rparen | comma | gt | at | tag
  | bareScalar | quotedScalar | rawScalar | heredocStart | heredocContent | heredocEnd
  | lineComment | docComment | whitespace | newline | eof | error
  deriving DecidableEq, Repr

/-- crates/styx-tokenizer/src/token.rs:89-98 `Token` with its span
(crates/styx-tokenizer/src/span.rs `Span {start, end}`) inlined as `start`, `stop`. -/
structure Token where
  kind : TokenKind
  start : Nat
  stop : Nat
  text : List Char
  deriving DecidableEq, Repr

/-- tokenizer.rs:20-28 `HeredocState`. -/
structure HeredocState where
  delimiter : List Char
  closingIndent : Option Nat
  deriving DecidableEq, Repr

/-- tokenizer.rs:6-18 `Tokenizer`.  The immutable `source` field is only used for slicing and is not
stored (see the file comment). -/
structure Tok where
  remaining : List Char
  pos : Nat
  heredoc : Option HeredocState
  deriving DecidableEq, Repr

/-- tokenizer.rs:32-39 `Tokenizer::new`. -/
def Tok.new (source : List Char) : Tok := ⟨source, 0, none⟩

/-- tokenizer.rs:48-50 `is_eof`. -/
def Tok.isEof (t : Tok) : Bool := t.remaining.isEmpty

/-- tokenizer.rs:56-58 `heredoc_closing_indent`. -/
def Tok.closingIndent (t : Tok) : Option Nat := t.heredoc.bind (·.closingIndent)

/-- tokenizer.rs:606-610 `is_bare_scalar_start`. -/
def isBareStart (c : Char) : Bool :=
  !(c == '{' || c == '}' || c == '(' || c == ')' || c == ',' || c == '"' || c == '=' || c == '@'
    || c == '>' || c == '/') && !isWhitespace c

/-- tokenizer.rs:614-619 `is_bare_scalar_char`. -/
def isBareChar (c : Char) : Bool :=
  !(c == '{' || c == '}' || c == '(' || c == ')' || c == ',' || c == '"' || c == '>')
    && !isWhitespace c

/-- The blank test of tokenizer.rs:202 and 443 (space or tab). -/
def isBlank (c : Char) : Bool := c == ' ' || c == '\t'

/-- tokenizer.rs:231, 238: `c.is_ascii_alphabetic() || c == '_'`. -/
def isTagStart (c : Char) : Bool := c.isAlpha || c == '_'

/-- tokenizer.rs:261: `c.is_ascii_alphanumeric() || c == '_' || c == '-'`. -/
def isTagChar (c : Char) : Bool := c.isAlphanum || c == '_' || c == '-'

/-- tokenizer.rs:377: heredoc delimiter characters. -/
def isDelimChar (c : Char) : Bool := c.isUpper || c.isDigit || c == '_'

/-- tokenizer.rs:405-409: heredoc language-hint characters. -/
def isLangChar (c : Char) : Bool := c.isLower || c.isDigit || c == '_' || c == '.' || c == '-'

/-- tokenizer.rs:312, 333: characters of a comment body (everything up to CR or LF). -/
def notEol (c : Char) : Bool := !(c == '\n' || c == '\r')

/-- tokenizer.rs:257-266: the loop of `consume_tag_segment` after its first `advance`.
Returns consumed characters and rest. -/
def scanTagTail : List Char → List Char × List Char
  | [] => ([], [])
  | c :: cs =>
    if c = 'r' ∧ (cs.head? = some '#' ∨ cs.head? = some '"') then ([], c :: cs)
    else if isTagChar c then
      let (a, b) := scanTagTail cs
      (c :: a, b)
    else ([], c :: cs)

/-- tokenizer.rs:253-267 `consume_tag_segment`: one unconditional `advance`, then the loop. -/
def scanTagSegment : List Char → List Char × List Char
  | [] => ([], [])
  | c :: cs =>
    let (a, b) := scanTagTail cs
    (c :: a, b)

/-- tokenizer.rs:235-243: the chained-tag loop `while "/@" followed by a tag start`.
Fuel: each round consumes at least one character; `nextToken` passes the length of the remaining
text (sufficiency: `scanTagChain_fuel`). -/
def scanTagChain : Nat → List Char → List Char × List Char
  | 0, s => ([], s)
  | n + 1, '/' :: '@' :: c :: cs =>
    if isTagStart c then
      let (a, b) := scanTagSegment (c :: cs)
      let (a', b') := scanTagChain n b
      ('/' :: '@' :: a ++ a', b')
    else ([], '/' :: '@' :: c :: cs)
  | _ + 1, s => ([], s)

/-- tokenizer.rs:276-296: the loop of `tokenize_quoted_scalar` after the opening quote.
Returns whether the closing quote was found, the consumed characters and the rest. -/
def scanQuoted : List Char → Bool × List Char × List Char
  | [] => (false, [], [])
  | c :: cs =>
    if c = '"' then (true, [c], cs)
    else if c = '\\' then
      match cs with
      | [] => (false, [c], [])
      | d :: ds =>
        let (ok, a, b) := scanQuoted ds
        (ok, c :: d :: a, b)
    else
      let (ok, a, b) := scanQuoted cs
      (ok, c :: a, b)

/-- tokenizer.rs:561-568: count `#` after a quote, at most `n`; true if all `n` matched. -/
def hashesFollow : Nat → List Char → Bool
  | 0, _ => true
  | n + 1, c :: cs => if c = '#' then hashesFollow n cs else false
  | _ + 1, [] => false

/-- tokenizer.rs:550-587: the content loop of `tokenize_raw_string` for `n` closing hashes.
Returns whether the closing delimiter was found, the consumed characters (including the closing
delimiter) and the rest. -/
def scanRaw (n : Nat) : List Char → Bool × List Char × List Char
  | [] => (false, [], [])
  | c :: cs =>
    if c = '"' ∧ hashesFollow n cs = true then (true, c :: cs.take n, cs.drop n)
    else
      let (ok, a, b) := scanRaw n cs
      (ok, c :: a, b)

/-- tokenizer.rs:535-539: `hash_count: u8` with `saturating_add`. -/
def satHash (n : Nat) : Nat := min n 255

/-- tokenizer.rs:437-455 `find_heredoc_delimiter`: the indent if the text is an optionally indented
delimiter followed by end of input, LF or CRLF. -/
def findDelim (delim : List Char) (s : List Char) : Option Nat :=
  let indent := (s.takeWhile isBlank).length
  match stripPrefix delim (s.dropWhile isBlank) with
  | some after =>
    if after.isEmpty || startsWith after ['\n'] || startsWith after ['\r', '\n'] then some indent
    else none
  | none => none

/-- tokenizer.rs:474-501: the loop consuming lines until the closing delimiter or end of input.
Returns consumed text, rest, and the indent of the closing delimiter if found.
The code consumes a line (up to and including LF or CRLF, both of which end in LF) and then tests for
the delimiter; here the same test happens at each LF and at the last character. -/
def scanHeredoc (delim : List Char) : List Char → List Char × List Char × Option Nat
  | [] => ([], [], none)
  | c :: cs =>
    if c = '\n' ∨ cs = [] then
      match findDelim delim cs with
      | some i => ([c], cs, some i)
      | none =>
        let (a, b, r) := scanHeredoc delim cs
        (c :: a, b, r)
    else
      let (a, b, r) := scanHeredoc delim cs
      (c :: a, b, r)

/-- tokenizer.rs:396-417: optional language hint. -/
def scanLang : List Char → List Char × List Char
  | ',' :: cs =>
    match cs with
    | d :: ds =>
      if d.isLower then (',' :: d :: ds.takeWhile isLangChar, ds.dropWhile isLangChar)
      else ([','], cs)
    | [] => ([','], [])
  | s => ([], s)

/-- tokenizer.rs:419-425: optional CR then optional LF. -/
def scanNewlineOpt (s : List Char) : List Char × List Char :=
  match s with
  | '\r' :: '\n' :: cs => (['\r', '\n'], cs)
  | '\r' :: cs => (['\r'], cs)
  | '\n' :: cs => (['\n'], cs)
  | cs => ([], cs)

/-- tokenizer.rs:72-101 `advance`/`token`: finish a token that consumed `text`, leaving `rest`, and
set the heredoc state. -/
def Tok.emit (t : Tok) (kind : TokenKind) (text rest : List Char) (h : Option HeredocState) :
    Token × Tok :=
  (⟨kind, t.pos, t.pos + utf8Len text, text⟩, ⟨rest, t.pos + utf8Len text, h⟩)

/-- tokenizer.rs:460-524 `tokenize_heredoc_content`.
The branch at 503-511 (`start == pos && found_end`) is unreachable (the loop consumes at least one
character before setting `found_end`) and is not modelled. -/
def Tok.heredocContent (t : Tok) (h : HeredocState) : Token × Tok :=
  match findDelim h.delimiter t.remaining with
  | some i =>
    let n := i + h.delimiter.length
    t.emit .heredocEnd (t.remaining.take n) (t.remaining.drop n) none
  | none =>
    match scanHeredoc h.delimiter t.remaining with
    | (a, b, some i) => t.emit .heredocContent a b (some { h with closingIndent := some i })
    | (a, b, none) => t.emit .error a b none

/-- tokenizer.rs:347-432 `tokenize_heredoc_start`; `cs` is the text after `<<`, whose first
character is an ASCII upper-case letter (guard at 158-162), so the branch at 361-372 is not
reachable. -/
def Tok.heredocStart (t : Tok) (cs : List Char) : Token × Tok :=
  let delim := cs.takeWhile isDelimChar
  let r1 := cs.dropWhile isDelimChar
  if 16 < utf8Len delim then t.emit .error ('<' :: '<' :: delim) r1 none
  else
    let (lang, r2) := scanLang r1
    let (nl, r3) := scanNewlineOpt r2
    t.emit .heredocStart ('<' :: '<' :: delim ++ lang ++ nl) r3 (some ⟨delim, none⟩)

/-- tokenizer.rs:529-588 `tokenize_raw_string`; `cs` is the text after `r`. -/
def Tok.rawString (t : Tok) (cs : List Char) : Token × Tok :=
  let hashes := cs.takeWhile (· == '#')
  let r1 := cs.dropWhile (· == '#')
  match r1 with
  | '"' :: r2 =>
    match scanRaw (satHash hashes.length) r2 with
    | (true, a, b) => t.emit .rawScalar ('r' :: hashes ++ '"' :: a) b none
    | (false, a, b) => t.emit .error ('r' :: hashes ++ '"' :: a) b none
  | _ => t.emit .error ('r' :: hashes) r1 none

/-- tokenizer.rs:225-250 `tokenize_at_or_tag`; `cs` is the text after `@`. -/
def Tok.atOrTag (t : Tok) (cs : List Char) : Token × Tok :=
  match cs with
  | c :: _ =>
    if isTagStart c then
      let (a, b) := scanTagSegment cs
      let (a', b') := scanTagChain b.length b
      t.emit .tag ('@' :: a ++ a') b' none
    else t.emit .at ['@'] cs none
  | [] => t.emit .at ['@'] [] none

/-- tokenizer.rs:212-222 `tokenize_bare_scalar`. -/
def Tok.bareScalar (t : Tok) : Token × Tok :=
  t.emit .bareScalar (t.remaining.takeWhile isBareChar) (t.remaining.dropWhile isBareChar) none

/-- tokenizer.rs:104-196 `next_token`.  In every non-heredoc branch `heredoc_state` is `None` on
entry (guard at 106-108), so emitting `none` leaves it unchanged. -/
def Tok.next (t : Tok) : Token × Tok :=
  match t.heredoc with
  | some h => t.heredocContent h
  | none =>
    match t.remaining with
    | [] => t.emit .eof [] [] none
    | c :: cs =>
      if c = '{' then t.emit .lbrace [c] cs none
      else if c = '}' then t.emit .rbrace [c] cs none
      else if c = '(' then t.emit .lparen [c] cs none
      else if c = ')' then t.emit .rparen [c] cs none
      else if c = ',' then t.emit .comma [c] cs none
      else if c = '>' then t.emit .gt [c] cs none
      else if c = '@' then t.atOrTag cs
      else if c = '"' then
        match scanQuoted cs with
        | (true, a, b) => t.emit .quotedScalar (c :: a) b none
        | (false, a, b) => t.emit .error (c :: a) b none
      else if c = '/' then
        match cs with
        | '/' :: '/' :: ds =>
          t.emit .docComment ('/' :: '/' :: '/' :: ds.takeWhile notEol) (ds.dropWhile notEol) none
        | '/' :: ds =>
          t.emit .lineComment ('/' :: '/' :: ds.takeWhile notEol) (ds.dropWhile notEol) none
        | _ => t.bareScalar
      else if c = '<' ∧ cs.head? = some '<' then
        match cs.tail with
        | d :: ds =>
          if d.isUpper then t.heredocStart (d :: ds) else t.emit .error ['<', '<'] (d :: ds) none
        | [] => t.emit .error ['<', '<'] [] none
      else if c = 'r' ∧ (cs.head? = some '#' ∨ cs.head? = some '"') then t.rawString cs
      else if isBlank c then
        t.emit .whitespace (t.remaining.takeWhile isBlank) (t.remaining.dropWhile isBlank) none
      else if c = '\n' then t.emit .newline [c] cs none
      else if c = '\r' ∧ cs.head? = some '\n' then t.emit .newline ['\r', '\n'] cs.tail none
      else if isBareStart c then t.bareScalar
      else t.emit .error [c] cs none

/-- tokenizer.rs:591-602 `Iterator::next` driven to the end: pull tokens until `Eof`.
Fuel bounds the number of calls (sufficiency is theorem `C03_tokenizer_terminates`). -/
def Tok.run : Nat → Tok → List Token
  | 0, _ => []
  | n + 1, t =>
    let (tok, t') := t.next
    if tok.kind = .eof then [] else tok :: Tok.run n t'

/-- `Tokenizer::new(source).collect()`. -/
def tokenize (source : List Char) : List Token := Tok.run (source.length + 2) (Tok.new source)

end Styx
