import Verif.Tokenizer.Model

/-!
# Model of the escape-sequence functions

* `processEscapes` – crates/styx-parse/src/lexer.rs:414-476 `process_escapes`
* `unescapeQuoted` – crates/styx-parse/src/parser/mod.rs:1864-1931 `unescape_quoted`
* `validateEscapes` – crates/styx-parse/src/parser/mod.rs:1933-1994 `validate_escapes`

Each Rust function is a loop over a character iterator with nested loops for the unicode escapes.
They are modelled as one-character-at-a-time machines whose modes are the positions in that code;
"peek and do not consume" becomes "handle the current character again in `normal` mode".
-/

namespace Styx

/-- `char::is_ascii_hexdigit`. -/
def isHexDigit (c : Char) : Bool :=
  c.isDigit || ('a' ≤ c && c ≤ 'f') || ('A' ≤ c && c ≤ 'F')

/-- Value of a hexadecimal digit (`char::to_digit(16)`). -/
def hexVal (c : Char) : Nat :=
  if c.isDigit then c.toNat - '0'.toNat
  else if 'a' ≤ c && c ≤ 'f' then c.toNat - 'a'.toNat + 10
  else c.toNat - 'A'.toNat + 10

/-- Value of a string of hexadecimal digits. -/
def hexNat (s : List Char) : Nat := s.foldl (fun n c => 16 * n + hexVal c) 0

/-- `u32::from_str_radix(s, 16).ok()`: an optional `+`, then one or more digits, value below 2^32. -/
def parseHexU32 (s : List Char) : Option Nat :=
  let d := match s with
    | '+' :: r => r
    | r => r
  if d = [] then none
  else if d.all isHexDigit then
    if hexNat d < 2 ^ 32 then some (hexNat d) else none
  else none

/-- `char::from_u32`. -/
def charFromU32 (n : Nat) : Option Char :=
  if h : n.isValidChar then some (Char.ofNatAux n h) else none

/-- Lexer error messages (the `message` strings of crates/styx-parse/src/lexer.rs and of
parser/mod.rs:801-813), one constructor per distinct string. -/
inductive Msg where
  /-- "unexpected `>` (attribute syntax requires no spaces: key>value)" -/
  | gtSpace
  /-- "invalid tag name" -/
  | invalidTagName
  /-- "expected a value" -/
  | expectedValue
  /-- "whitespace after `>` in attribute (use key>value with no spaces)" -/
  | wsAfterGt
  /-- "invalid unicode escape" -/
  | invalidUnicodeEscape
  /-- "invalid unicode code point" -/
  | invalidCodePoint
  /-- "invalid escape sequence" -/
  | invalidEscape
  /-- "trailing backslash" -/
  | trailingBackslash
  /-- "unterminated heredoc" -/
  | unterminatedHeredoc
  /-- "unexpected token in heredoc" -/
  | tokenInHeredoc
  /-- "unexpected heredoc token" -/
  | heredocToken
  /-- "tokenizer error" -/
  | tokenizer
  /-- "unexpected token" -/
  | unexpectedToken
  /-- "unexpected end of input" -/
  | unexpectedEof
  deriving DecidableEq, Repr

/-- parser/mod.rs:773 `message.contains("escape")`, evaluated on the strings above. -/
def Msg.containsEscape : Msg → Bool
  | .invalidUnicodeEscape | .invalidEscape => true
  | _ => false

/-- Position in `process_escapes`: between characters, after a backslash, after `\u`, inside
`\u{…` with the digits so far (reversed), inside `\uXXXX` with the digits so far (reversed). -/
inductive EscMode where
  | normal | esc | afterU | braced (hex : List Char) | four (hex : List Char)
  deriving DecidableEq, Repr

/-- lexer.rs:448-450 and 462-464: digits to character. -/
def decodeHex (hex : List Char) : Except Msg Char :=
  match parseHexU32 hex with
  | none => .error .invalidUnicodeEscape
  | some n =>
    match charFromU32 n with
    | none => .error .invalidCodePoint
    | some c => .ok c

/-- lexer.rs:414-476 `process_escapes`.  The fast path at 416-418 returns the text itself, which is
also what the loop does on a text without backslash. -/
def processEscapesAux : EscMode → List Char → Except Msg (List Char)
  | .normal, [] => .ok []
  | .esc, [] => .error .trailingBackslash
  | .afterU, [] => .error .invalidUnicodeEscape
  | .braced _, [] => .error .invalidUnicodeEscape
  | .four _, [] => .error .invalidUnicodeEscape
  | .normal, c :: cs =>
    if c = '\\' then processEscapesAux .esc cs
    else do let r ← processEscapesAux .normal cs; .ok (c :: r)
  | .esc, c :: cs =>
    if c = '\\' then do let r ← processEscapesAux .normal cs; .ok ('\\' :: r)
    else if c = '"' then do let r ← processEscapesAux .normal cs; .ok ('"' :: r)
    else if c = 'n' then do let r ← processEscapesAux .normal cs; .ok ('\n' :: r)
    else if c = 'r' then do let r ← processEscapesAux .normal cs; .ok ('\r' :: r)
    else if c = 't' then do let r ← processEscapesAux .normal cs; .ok ('\t' :: r)
    else if c = 'u' then processEscapesAux .afterU cs
    else .error .invalidEscape
  | .afterU, c :: cs =>
    if c = '{' then processEscapesAux (.braced []) cs
    else if isHexDigit c then processEscapesAux (.four [c]) cs
    else .error .invalidUnicodeEscape
  | .braced hex, c :: cs =>
    if c = '}' then do
      let ch ← decodeHex hex.reverse
      let r ← processEscapesAux .normal cs
      .ok (ch :: r)
    else if isHexDigit c then processEscapesAux (.braced (c :: hex)) cs
    else .error .invalidUnicodeEscape
  | .four hex, c :: cs =>
    if isHexDigit c then
      if hex.length = 3 then do
        let ch ← decodeHex (c :: hex).reverse
        let r ← processEscapesAux .normal cs
        .ok (ch :: r)
      else processEscapesAux (.four (c :: hex)) cs
    else .error .invalidUnicodeEscape

/-- lexer.rs:414-476 `process_escapes`. -/
def processEscapes (s : List Char) : Except Msg (List Char) := processEscapesAux .normal s

/-- parser/mod.rs:1891-1895 and 1908-1913: push the decoded character if there is one. -/
def hexPush (hex : List Char) : List Char :=
  match parseHexU32 hex with
  | none => []
  | some n =>
    match charFromU32 n with
    | none => []
    | some c => [c]

/-- parser/mod.rs:1864-1931 `unescape_quoted` (lenient: keeps or drops invalid escapes).
Modes as above; `four` holds the digits read so far, at most three. -/
def unescapeQuotedAux : EscMode → List Char → List Char
  | .normal, [] => []
  | .esc, [] => ['\\']
  | .afterU, [] => []
  | .braced hex, [] => hexPush hex.reverse
  | .four _, [] => []
  | .normal, c :: cs =>
    if c = '\\' then unescapeQuotedAux .esc cs else c :: unescapeQuotedAux .normal cs
  | .esc, c :: cs =>
    if c = 'n' then '\n' :: unescapeQuotedAux .normal cs
    else if c = 'r' then '\r' :: unescapeQuotedAux .normal cs
    else if c = 't' then '\t' :: unescapeQuotedAux .normal cs
    else if c = '\\' then '\\' :: unescapeQuotedAux .normal cs
    else if c = '"' then '"' :: unescapeQuotedAux .normal cs
    else if c = 'u' then unescapeQuotedAux .afterU cs
    else '\\' :: c :: unescapeQuotedAux .normal cs
  | .afterU, c :: cs =>
    if c = '{' then unescapeQuotedAux (.braced []) cs
    else if isHexDigit c then unescapeQuotedAux (.four [c]) cs
    else if c = '\\' then unescapeQuotedAux .esc cs
    else c :: unescapeQuotedAux .normal cs
  | .braced hex, c :: cs =>
    if c = '}' then hexPush hex.reverse ++ unescapeQuotedAux .normal cs
    else unescapeQuotedAux (.braced (c :: hex)) cs
  | .four hex, c :: cs =>
    if isHexDigit c then
      if hex.length = 3 then hexPush (c :: hex).reverse ++ unescapeQuotedAux .normal cs
      else unescapeQuotedAux (.four (c :: hex)) cs
    else if c = '\\' then unescapeQuotedAux .esc cs
    else c :: unescapeQuotedAux .normal cs

/-- parser/mod.rs:1864-1931 `unescape_quoted`. -/
def unescapeQuoted (s : List Char) : List Char := unescapeQuotedAux .normal s

/-- Rust's `&s[n..]`: drop `n` bytes; `none` models the panic when `n` is out of range or not a
character boundary. -/
def dropBytes : Nat → List Char → Option (List Char)
  | 0, s => some s
  | _ + 1, [] => none
  | n + 1, c :: cs => if c.utf8Size ≤ n + 1 then dropBytes (n + 1 - c.utf8Size) cs else none

/-- Rust's `&s[..n]`; `none` models the panic. -/
def takeBytes : Nat → List Char → Option (List Char)
  | 0, _ => some []
  | _ + 1, [] => none
  | n + 1, c :: cs =>
    if c.utf8Size ≤ n + 1 then (takeBytes (n + 1 - c.utf8Size) cs).map (c :: ·) else none

/-- Rust's `&s[a..b]`; `none` models the panic. -/
def sliceBytes (s : List Char) (a b : Nat) : Option (List Char) :=
  if a ≤ b then (dropBytes a s).bind (takeBytes (b - a)) else none

/-- One reported escape error: byte offset and text, or a panic of the slice at
parser/mod.rs:1958 (`&text[escape_start..end.min(escape_start + 12)]`). -/
inductive EscErr where
  | bad (offset : Nat) (seq : List Char)
  | panic
  deriving DecidableEq, Repr

/-- Position in `validate_escapes`.  `start` is `escape_start`; `seen` is the text from the
backslash to the current position, reversed. -/
inductive ValMode where
  | normal
  | esc (start : Nat)
  | afterU (start : Nat)
  | braced (start : Nat) (seen : List Char) (valid : Bool)
  | four (start : Nat) (seen : List Char) (count : Nat)
  deriving DecidableEq, Repr

/-- parser/mod.rs:1956-1960: report a bad braced escape; `seen` is the text from the backslash up to
the current position. -/
def bracedErr (start : Nat) (seen : List Char) : EscErr :=
  match takeBytes (min (utf8Len seen) 12) seen with
  | some seq => .bad start seq
  | none => .panic

/-- parser/mod.rs:1933-1994 `validate_escapes`; `i` is the byte index of the current character.
In `four` mode the code has peeked (not consumed) the first digit and set `count = 1`; each further
loop round consumes one digit. -/
def validateEscapesAux : ValMode → Nat → List Char → List EscErr
  | .normal, _, [] => []
  | .esc st, _, [] => [.bad st ['\\']]
  | .afterU st, _, [] => [.bad st ['\\', 'u']]
  | .braced st seen _, _, [] => [bracedErr st seen.reverse]
  | .four st seen count, _, [] => if count = 4 then [] else [.bad st seen.reverse]
  | .normal, i, c :: cs =>
    if c = '\\' then validateEscapesAux (.esc i) (i + c.utf8Size) cs
    else validateEscapesAux .normal (i + c.utf8Size) cs
  | .esc st, i, c :: cs =>
    if c = 'n' ∨ c = 'r' ∨ c = 't' ∨ c = '\\' ∨ c = '"' then
      validateEscapesAux .normal (i + c.utf8Size) cs
    else if c = 'u' then validateEscapesAux (.afterU st) (i + c.utf8Size) cs
    else .bad st ['\\', c] :: validateEscapesAux .normal (i + c.utf8Size) cs
  | .afterU st, i, c :: cs =>
    if c = '{' then validateEscapesAux (.braced st ['{', 'u', '\\'] true) (i + c.utf8Size) cs
    else if isHexDigit c then
      -- first loop round: count = 1 < 4, the digit is consumed
      validateEscapesAux (.four st [c, 'u', '\\'] 2) (i + c.utf8Size) cs
    else if c = '\\' then .bad st ['\\', 'u'] :: validateEscapesAux (.esc i) (i + c.utf8Size) cs
    else .bad st ['\\', 'u'] :: validateEscapesAux .normal (i + c.utf8Size) cs
  | .braced st seen valid, i, c :: cs =>
    if c = '}' then
      if valid then validateEscapesAux .normal (i + c.utf8Size) cs
      else bracedErr st (c :: seen).reverse :: validateEscapesAux .normal (i + c.utf8Size) cs
    else validateEscapesAux (.braced st (c :: seen) (valid && isHexDigit c)) (i + c.utf8Size) cs
  | .four st seen count, i, c :: cs =>
    if count < 4 ∧ isHexDigit c = true then
      validateEscapesAux (.four st (c :: seen) (count + 1)) (i + c.utf8Size) cs
    else if count = 4 then
      if c = '\\' then validateEscapesAux (.esc i) (i + c.utf8Size) cs
      else validateEscapesAux .normal (i + c.utf8Size) cs
    else
      if c = '\\' then
        .bad st seen.reverse :: validateEscapesAux (.esc i) (i + c.utf8Size) cs
      else .bad st seen.reverse :: validateEscapesAux .normal (i + c.utf8Size) cs

/-- parser/mod.rs:1933-1994 `validate_escapes`. -/
def validateEscapes (s : List Char) : List EscErr := validateEscapesAux .normal 0 s

end Styx
