import Verif.Parse.Escapes
import Verif.Tree.Value

/-!
# Model of the lexers of the Python, JavaScript and Go implementations

Source: implementations/styx-py/styx/lexer.py, implementations/styx-js/src/lexer.ts and
implementations/styx-go/lexer.go.  The three are translations of each other; where they differ the
model asks for the `Dialect`.  A text is its list of characters (JavaScript works on UTF-16 units, but
compares only with characters of one unit).  Spans are left out.
-/

namespace Styx.Impl

/-- The implementation. -/
inductive Dialect where
  | python | javascript | go
  deriving DecidableEq, Repr

/-- lexer.py:13-28 `TokenType`; the same in lexer.ts:3-17 (whose `newline` is never
made) and lexer.go:11-25. -/
inductive TokKind where
  | scalar | quoted | raw | heredoc | lbrace | rbrace | lparen | rparen | comma | «at» | tag | gt | eof
  deriving DecidableEq, Repr

/-- lexer.py:31-39 `Token`, lexer.ts:19-27 `Token`, lexer.go:61-67 `Token`, without the span. -/
structure Tok where
  kind : TokKind
  text : List Char
  ws : Bool
  nl : Bool
  deriving DecidableEq, Repr

/-- The errors of the lexers and parsers, without texts and spans.  `exception` is an exception that is
not a parse error (Python's `ValueError`, JavaScript's `RangeError`); `surrogate` stands for a string
with half a surrogate pair, which Python and JavaScript make of `\uD800`, and which is not a list of
characters. -/
inductive Err where
  | unexpectedToken | invalidEscape | unclosedRaw | exception | surrogate
  | expectedValue | expectedScalar | invalidTagName | invalidKey
  | duplicateKey | reopened | nestIntoTerminal
  | unclosedObject | unclosedSequence | commaInSequence | trailingContent
  deriving DecidableEq, Repr

/-- lexer.py:42-44 `SPECIAL_CHARS`, lexer.ts:29, lexer.go:134-140 `isSpecialChar`. -/
def isSpecial (c : Char) : Bool :=
  c == '{' || c == '}' || c == '(' || c == ')' || c == ',' || c == '"' || c == '>' || c == ' ' || c == '\t' ||
    c == '\n' || c == '\r'

/-- lexer.py:46, 99-101 `_is_tag_start`, lexer.ts:240-242 `isTagStart`, lexer.go:126-128 `isTagStart`. -/
def isTagStart (c : Char) : Bool := c.isAlpha || c == '_'

/-- lexer.py:47, 103-105 `_is_tag_char`, lexer.ts:244-246 `isTagChar`, lexer.go:130-132 `isTagChar`. -/
def isTagChar (c : Char) : Bool := c.isAlphanum || c == '_' || c == '-'

/-- lexer.py:76-97 `_skip_whitespace_and_comments`, lexer.ts:79-102 `skipWhitespaceAndComments`,
lexer.go:99-124 `skipWhitespaceAndComments`.  `comment`: inside the inner loop over a comment. -/
def skipSpace (comment ws nl : Bool) : List Char → Bool × Bool × List Char
  | [] => (ws, nl, [])
  | c :: cs =>
    if comment && c != '\n' then skipSpace true ws nl cs
    else if c == ' ' || c == '\t' || c == '\r' then skipSpace false true nl cs
    else if c == '\n' then skipSpace false true true cs
    else if c == '/' && cs.head? == some '/' then skipSpace true true nl cs
    else (ws, nl, c :: cs)

/-- lexer.py:248, 253 `int`: hexadecimal digits, single underscores between them.  (Simplified: Python also
takes blanks around, a sign and `0x` before the digits, and digits of other scripts.) -/
def pyInt (s : List Char) : Option Nat :=
  let digits := s.filter (· != '_')
  if !s.isEmpty && s.head? != some '_' && s.getLast? != some '_' && digits.all isHexDigit &&
      !(s.zip s.tail).contains ('_', '_')
  then some (hexNat digits) else none

/-- lexer.ts:319, 327 `parseInt`: the longest prefix of hexadecimal digits; `none` is `NaN`.  (Simplified:
JavaScript also takes blanks, a sign and `0x` before the digits.) -/
def jsInt (s : List Char) : Option Nat :=
  let digits := s.takeWhile isHexDigit
  if digits.isEmpty then none else some (hexNat digits)

/-- lexer.go:312-327 `parseHex`: characters that are no digits count as the digit 0.  (Simplified: without
overflow.) -/
def goInt (s : List Char) : Nat := s.foldl (fun n c => 16 * n + if isHexDigit c then hexVal c else 0) 0

/-- The character of a code point: lexer.py:248, 253 `chr`, lexer.ts:320, 328 `fromCodePoint`, lexer.go:258
`WriteRune`, which writes U+FFFD for what is no character. -/
def codePoint : Dialect → List Char → Except Err Char
  | .python, hex =>
    match pyInt hex with
    | none => .error .exception
    | some n =>
      match charFromU32 n with
      | some c => .ok c
      | none => .error (if n < 0x110000 then .surrogate else .exception)
  | .javascript, hex =>
    match jsInt hex with
    | none => .error .exception
    | some n =>
      match charFromU32 n with
      | some c => .ok c
      | none => .error (if n < 0x110000 then .surrogate else .exception)
  | .go, hex => .ok ((charFromU32 (goInt hex)).getD '�')

/-- lexer.py:240-253 `_read_unicode_escape`, lexer.ts:311-330 `readUnicodeEscape`, lexer.go:284-310
`readUnicodeEscape`: the character, and how many characters of the text were read. -/
def readUnicode (d : Dialect) (s : List Char) : Except Err (Char × Nat) :=
  match s with
  | '{' :: r =>
    let hex := r.takeWhile (· != '}')
    (codePoint d hex).map fun c => (c, hex.length + 2)
  | _ => (codePoint d (s.take 4)).map fun c => (c, 4)

/-- The single-letter escapes, lexer.py:211-220, lexer.ts:269-284, lexer.go:243-252. -/
def simpleEscape (c : Char) : Option Char :=
  if c == 'n' then some '\n' else if c == 'r' then some '\r' else if c == 't' then some '\t'
  else if c == '\\' then some '\\' else if c == '"' then some '"' else none

/-- The loop of lexer.py:194-238 `_read_quoted_string`, lexer.ts:248-309 `readQuotedString`, lexer.go:228-282
`readQuotedString`, behind the opening quote: text and rest.  `skip` characters belong to an escape that has been
read. -/
def readQuoted (d : Dialect) : Nat → List Char → Except Err (List Char × List Char)
  | _, [] => .error .unexpectedToken
  | skip + 1, _ :: cs => readQuoted d skip cs
  | 0, c :: cs =>
    if c == '"' then .ok ([], cs)
    else if c == '\\' then
      match cs with
      | [] => .error .invalidEscape
      | e :: es =>
        match simpleEscape e with
        | some x => (readQuoted d 1 cs).map fun (t, r) => (x :: t, r)
        | none =>
          if e == 'u' then
            match readUnicode d es with
            | .error err => .error err
            | .ok (x, n) => (readQuoted d (n + 1) cs).map fun (t, r) => (x :: t, r)
          else .error .invalidEscape
    else if c == '\n' || c == '\r' then .error .unexpectedToken
    else (readQuoted d 0 cs).map fun (t, r) => (c :: t, r)

/-- The loop of lexer.py:255-276 `_read_raw_string`, lexer.ts:332-362 `readRawString`, lexer.go:329-355
`readRawString`: text before the closing pattern, and rest. -/
def readRaw (pattern : List Char) : List Char → Option (List Char × List Char)
  | [] => none
  | c :: cs =>
    if pattern.isPrefixOf (c :: cs) then some ([], (c :: cs).drop pattern.length)
    else (readRaw pattern cs).map fun (t, r) => (c :: t, r)

/-- Pieces between line feeds (`split("\n")`). -/
def splitLines : List Char → List (List Char)
  | [] => [[]]
  | c :: cs =>
    if c == '\n' then [] :: splitLines cs
    else
      match splitLines cs with
      | [] => [[c]]
      | l :: ls => (c :: l) :: ls

/-- The inner loop of `dedent` (lexer.py:333-341): up to `n` leading blanks are dropped. -/
def stripBlanks : Nat → List Char → List Char
  | n + 1, c :: cs => if c == ' ' || c == '\t' then stripBlanks n cs else c :: cs
  | _, l => l

/-- Pieces joined with line feeds. -/
def joinLines : List (List Char) → List Char
  | [] => []
  | [l] => l
  | l :: ls => l ++ '\n' :: joinLines ls

/-- lexer.py:328-342 `_dedent_heredoc`, lexer.ts:432-450 `dedentHeredoc`, lexer.go:414-432 `dedentHeredoc`. -/
def dedent (n : Nat) (text : List Char) : List Char := joinLines ((splitLines text).map (stripBlanks n))

/-- lexer.py:300-318, lexer.ts:391-417, lexer.go:384-397: what a line of a heredoc closes it with, if it
does. -/
def closeHeredoc (delim text line : List Char) : Option (List Char) :=
  if line = delim then some text
  else
    let stripped := line.dropWhile fun c => c == ' ' || c == '\t'
    if stripped = delim then some (dedent (line.length - stripped.length) text) else none

/-- The loop over the lines of a heredoc, lexer.py:295-326, lexer.ts:384-428, lexer.go:376-410.  `line` is the
part of the current line that has been read, `text` the lines before. -/
def heredocLoop (delim : List Char) : (line text : List Char) → List Char → Option (List Char × List Char)
  | line, text, [] => if line = [] then none else (closeHeredoc delim text line).map fun t => (t, [])
  | line, text, c :: cs =>
    if c == '\n' then
      match closeHeredoc delim text line with
      | some t => some (t, c :: cs)
      | none => heredocLoop delim [] (text ++ line ++ ['\n']) cs
    else heredocLoop delim (line ++ [c]) text cs

/-- lexer.py:278-326 `_read_heredoc`, lexer.ts:364-429 `readHeredoc`, lexer.go:357-411 `readHeredoc`, behind the
two `<`. -/
def readHeredoc (s : List Char) : Option (List Char × List Char) :=
  let delimiter := s.takeWhile (· != '\n')
  heredocLoop (delimiter.takeWhile (· != ',')) [] [] ((s.dropWhile (· != '\n')).drop 1)

/-- lexer.py:107-192 `next_token`, lexer.ts:104-238 `nextToken`, lexer.go:142-226 `nextToken`, behind white space;
lexer.py:344-354 `_read_bare_scalar`, lexer.ts:452-468 `readBareScalar`, lexer.go:434-444 `readBareScalar`.
(Simplified: Python starts a heredoc at any capital letter, here at `A` to `Z`.) -/
def readToken (d : Dialect) (ws nl : Bool) : List Char → Except Err (Tok × List Char)
  | [] => .ok (⟨.eof, [], ws, nl⟩, [])
  | c :: cs =>
    if c == '{' then .ok (⟨.lbrace, [c], ws, nl⟩, cs)
    else if c == '}' then .ok (⟨.rbrace, [c], ws, nl⟩, cs)
    else if c == '(' then .ok (⟨.lparen, [c], ws, nl⟩, cs)
    else if c == ')' then .ok (⟨.rparen, [c], ws, nl⟩, cs)
    else if c == ',' then .ok (⟨.comma, [c], ws, nl⟩, cs)
    else if c == '>' then .ok (⟨.gt, [c], ws, nl⟩, cs)
    else if c == '@' then
      if (cs.head?.map isTagStart).getD false then
        .ok (⟨.tag, cs.takeWhile isTagChar, ws, nl⟩, cs.dropWhile isTagChar)
      else .ok (⟨.at, ['@'], ws, nl⟩, cs)
    else if c == '"' then (readQuoted d 0 cs).map fun (t, r) => (⟨.quoted, t, ws, nl⟩, r)
    else if c == 'r' && (cs.head? == some '"' || cs.head? == some '#') then
      let hashes := (cs.takeWhile (· == '#')).length
      match readRaw ('"' :: List.replicate hashes '#') ((cs.drop hashes).drop 1) with
      | some (t, r) => .ok (⟨.raw, t, ws, nl⟩, r)
      | none => .error .unclosedRaw
    else if c == '<' && cs.head? == some '<' then
      if (cs.tail.head?.map Char.isUpper).getD false then
        match readHeredoc cs.tail with
        | some (t, r) => .ok (⟨.heredoc, t, ws, nl⟩, r)
        | none => .error .unexpectedToken
      else .error .unexpectedToken
    else
      .ok (⟨.scalar, (c :: cs).takeWhile (fun c => !isSpecial c), ws, nl⟩, (c :: cs).dropWhile fun c => !isSpecial c)

/-- lexer.py:107-109 `next_token`: white space and comments, then a token. -/
def nextToken (d : Dialect) (s : List Char) : Except Err (Tok × List Char) :=
  match skipSpace false false false s with
  | (ws, nl, r) => readToken d ws nl r

end Styx.Impl
