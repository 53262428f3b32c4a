import Verif.Impl.Lexer

/-!
# Model of the lexer of the Swift implementation

Source: implementations/styx-swift/Sources/Styx/Lexer.swift.  A text is its list of Unicode scalars.  Swift works on
grapheme clusters; of these only CR LF is modelled, which Swift takes for one character that is neither CR nor LF.
(Simplified: combining marks and other clusters of several scalars are taken for characters of their own.)  The
Unicode properties of characters are a parameter.  Spans are left out.
-/

namespace Styx.Swift

/-- The properties of Swift's `Character` that the lexer and the parser ask for (Lexer.swift:167, 337-369, 497, 510,
531, Parser.swift:414, 420). -/
structure Classes where
  isWhitespace : Char → Bool
  isUppercase : Char → Bool
  isLowercase : Char → Bool
  isNumber : Char → Bool
  isLetter : Char → Bool

/-- The messages of error tokens, Lexer.swift:174, 187, 220, 227, 234, 295, 344, 357. -/
inductive LexErr where
  | unexpectedToken | unexpectedCharacter | invalidUnicode | invalidEscape | expectedQuote | delimiterStart
  | delimiterLong
  deriving DecidableEq, Repr

/-- Lexer.swift:2-17 `TokenType`, without `newline`, which is never made; `error` with its message. -/
inductive Kind where
  | eof | lBrace | rBrace | lParen | rParen | comma | gt | «at» | bare | quoted | raw | heredoc
  | error (e : LexErr)
  deriving DecidableEq, Repr

/-- Lexer.swift:20-37 `Token`, without the span. -/
structure Tok where
  kind : Kind
  text : List Char
  ws : Bool
  nl : Bool
  deriving DecidableEq, Repr

/-- Lexer.swift:89-113 `skipWhitespaceAndComments`.  `comment`: inside the inner loop over a comment.  Other than in
the other implementations a comment does not count as white space. -/
def skipBlank (comment ws nl : Bool) : List Char → Bool × Bool × List Char
  | [] => (ws, nl, [])
  | '\r' :: '\n' :: cs => if comment then skipBlank true ws nl cs else (ws, nl, '\r' :: '\n' :: cs)
  | c :: cs =>
    if comment && c != '\n' then skipBlank true ws nl cs
    else if c == ' ' || c == '\t' || c == '\r' then skipBlank false true nl cs
    else if c == '\n' then skipBlank false true true cs
    else if c == '/' && cs.head? == some '/' then skipBlank true ws nl cs
    else (ws, nl, c :: cs)

/-- Swift's `UInt32(hex, radix: 16)` (Lexer.swift:266, 278), for up to six characters: digits behind an optional
sign; behind a minus only zero. -/
def swiftHex (s : List Char) : Option Nat :=
  let digits := if s.head? == some '+' || s.head? == some '-' then s.tail else s
  if !digits.isEmpty && digits.all isHexDigit && (s.head? != some '-' || hexNat digits == 0) then
    some (hexNat digits)
  else none

/-- Lexer.swift:252-283 `parseUnicodeEscape`: the character, and how many characters of the text were read. -/
def readUnicode (s : List Char) : Option (Char × Nat) :=
  if s.head? == some '{' then
    let hex := s.tail.takeWhile (· != '}')
    if (s.tail.drop hex.length).head? == some '}' && 1 ≤ hex.length && hex.length ≤ 6 then
      ((swiftHex hex).bind charFromU32).map fun c => (c, hex.length + 2)
    else none
  else if (s.take 4).length = 4 ∧ (s.take 4).all isHexDigit then
    (charFromU32 (hexNat (s.take 4))).map fun c => (c, 4)
  else none

/-- The loop of Lexer.swift:193-250 `lexQuotedString`, behind the opening quote: text and rest.  `skip` characters
belong to an escape or a CR LF that has been read. -/
def readQuoted : Nat → List Char → Except LexErr (List Char × List Char)
  | _, [] => .error .unexpectedToken
  | skip + 1, _ :: cs => readQuoted skip cs
  | 0, c :: cs =>
    if c == '"' then .ok ([], cs)
    else if c == '\\' then
      match cs with
      | [] => .error .unexpectedToken
      | e :: es =>
        match Impl.simpleEscape e with
        | some x => (readQuoted 1 cs).map fun (t, r) => (x :: t, r)
        | none =>
          if e == 'u' then
            match readUnicode es with
            | none => .error .invalidUnicode
            | some (x, n) => (readQuoted (n + 1) cs).map fun (t, r) => (x :: t, r)
          else .error .invalidEscape
    else if c == '\r' && cs.head? == some '\n' then (readQuoted 1 cs).map fun (t, r) => ('\r' :: '\n' :: t, r)
    else if c == '\n' then .error .unexpectedToken
    else (readQuoted 0 cs).map fun (t, r) => (c :: t, r)

/-- The pieces of a text between the characters LF (Lexer.swift:446; the LF of a CR LF is not one). -/
def splitLines : List Char → List (List Char)
  | [] => [[]]
  | '\r' :: '\n' :: cs =>
    match splitLines cs with
    | [] => [['\r', '\n']]
    | l :: ls => ('\r' :: '\n' :: l) :: ls
  | c :: cs =>
    if c == '\n' then [] :: splitLines cs
    else
      match splitLines cs with
      | [] => [[c]]
      | l :: ls => (c :: l) :: ls

/-- Lexer.swift:439-473 `dedentHeredocContent`. -/
def dedent (n : Nat) (text : List Char) : List Char :=
  Impl.joinLines ((splitLines text).map (Impl.stripBlanks n))

/-- Lexer.swift:398-404, 420-426 with 530-547: what a line of a heredoc closes it with, if it does. -/
def closeHeredoc (U : Classes) (delim text line : List Char) : Option (List Char) :=
  if line.dropWhile U.isWhitespace = delim then
    let indent := (line.takeWhile fun c => c == ' ' || c == '\t').length
    some (if 0 < indent ∧ text ≠ [] then dedent indent text else text)
  else none

/-- The loop over the lines of a heredoc, Lexer.swift:389-435.  `line` is the part of the current line that has been
read, `text` the lines before.  The flag says that the line feed behind the delimiter has been read. -/
def heredocLoop (U : Classes) (delim : List Char) :
    (line text : List Char) → List Char → Except LexErr (List Char × List Char × Bool)
  | line, text, [] =>
    match closeHeredoc U delim text line with
    | some t => .ok (t, [], false)
    | none => .error .unexpectedToken
  | line, text, '\r' :: '\n' :: cs => heredocLoop U delim (line ++ ['\r', '\n']) text cs
  | line, text, c :: cs =>
    if c == '\n' then
      match closeHeredoc U delim text line with
      | some t => .ok (t, cs, true)
      | none => heredocLoop U delim [] (text ++ line ++ ['\n']) cs
    else heredocLoop U delim (line ++ [c]) text cs

/-- Lexer.swift:362-376: the text behind an optional language hint. -/
def dropHint (U : Classes) (s : List Char) : List Char :=
  if s.head? == some ',' then
    if (s.tail.head?.map U.isLowercase).getD false then
      s.tail.tail.dropWhile fun c => U.isLowercase c || U.isNumber c || c == '_' || c == '.' || c == '-'
    else s.tail
  else s

/-- Lexer.swift:378-384: the text behind the optional CR and LF; a CR LF, being one character, is neither. -/
def dropLineEnd (s : List Char) : List Char :=
  if s.head? == some '\r' && s.tail.head? == some '\n' then s
  else
    let s := if s.head? == some '\r' then s.tail else s
    if s.head? == some '\n' then s.tail else s

/-- Lexer.swift:332-436 `lexHeredoc`, behind the two `<`. -/
def readHeredoc (U : Classes) (s : List Char) : Except LexErr (List Char × List Char × Bool) :=
  if (s.head?.map U.isUppercase).getD false then
    let part := fun c => U.isUppercase c || U.isNumber c || c == '_'
    let delim := s.takeWhile part
    if 16 < delim.length then .error .delimiterLong
    else heredocLoop U delim [] [] (dropLineEnd (dropHint U (s.dropWhile part)))
  else .error .delimiterStart

/-- Lexer.swift:509-517 `isBareChar`. -/
def isBareChar (U : Classes) (c : Char) : Bool :=
  !U.isWhitespace c && !(['{', '}', '(', ')', ',', '>', '"', '\n', '\r'].contains c)

/-- Lexer.swift:496-504 `canStartBare`. -/
def canStartBare (U : Classes) (c : Char) : Bool :=
  !U.isWhitespace c && !(['{', '}', '(', ')', ',', '>', '@', '=', '/', '"', '\n', '\r'].contains c)

/-- The state of a parser between tokens: the text behind the last token (Lexer.swift:42 `index`) and the flag
`pendingNewline` (Lexer.swift:46). -/
structure St where
  text : List Char
  pend : Bool
  deriving DecidableEq, Repr

/-- An error token.  (Simplified: the text behind it is dropped.  The parser throws when it comes to an error token,
so that nothing behind it is looked at.) -/
def errorTok (e : LexErr) (ws nl : Bool) : Tok × St := (⟨.error e, [], ws, nl⟩, ⟨[], false⟩)

/-- Lexer.swift:115-191 `nextToken` behind white space, with 475-490 `lexBare` and 285-330 `lexRawString` (whose loop is
`Impl.readRaw`).  The test for a heredoc at line 167 stands behind the first `<`, so that `peekAfterNext` is the second
character of the delimiter. -/
def readToken (U : Classes) (ws nl : Bool) : List Char → Tok × St
  | [] => (⟨.eof, [], ws, nl⟩, ⟨[], false⟩)
  | c :: cs =>
    if c == '{' then (⟨.lBrace, [], ws, nl⟩, ⟨cs, false⟩)
    else if c == '}' then (⟨.rBrace, [], ws, nl⟩, ⟨cs, false⟩)
    else if c == '(' then (⟨.lParen, [], ws, nl⟩, ⟨cs, false⟩)
    else if c == ')' then (⟨.rParen, [], ws, nl⟩, ⟨cs, false⟩)
    else if c == ',' then (⟨.comma, [], ws, nl⟩, ⟨cs, false⟩)
    else if c == '>' then (⟨.gt, [], ws, nl⟩, ⟨cs, false⟩)
    else if c == '@' then (⟨.at, [], ws, nl⟩, ⟨cs, false⟩)
    else if c == '"' then
      match readQuoted 0 cs with
      | .ok (t, r) => (⟨.quoted, t, ws, nl⟩, ⟨r, false⟩)
      | .error e => errorTok e ws nl
    else if c == 'r' && (cs.head? == some '#' || cs.head? == some '"') then
      let hashes := (cs.takeWhile (· == '#')).length
      if (cs.drop hashes).head? == some '"' then
        match Impl.readRaw ('"' :: List.replicate hashes '#') (cs.drop hashes).tail with
        | some (t, r) => (⟨.raw, t, ws, nl⟩, ⟨r, false⟩)
        | none => errorTok .unexpectedToken ws nl
      else errorTok .expectedQuote ws nl
    else if c == '<' && cs.head? == some '<' then
      if (cs.tail.tail.head?.map U.isUppercase).getD false then
        match readHeredoc U cs.tail with
        | .ok (t, r, p) => (⟨.heredoc, t, ws, nl⟩, ⟨r, p⟩)
        | .error e => errorTok e ws nl
      else errorTok .unexpectedToken ws nl
    else if (c == '/' && cs.head? != some '/') || canStartBare U c then
      (⟨.bare, c :: cs.takeWhile (isBareChar U), ws, nl⟩, ⟨cs.dropWhile (isBareChar U), false⟩)
    else errorTok .unexpectedCharacter ws nl

/-- Lexer.swift:115-191 `nextToken`: the next token and the state behind it. -/
def nextToken (U : Classes) (st : St) : Tok × St :=
  match skipBlank false false st.pend st.text with
  | (ws, nl, r) => readToken U ws nl r

end Styx.Swift
