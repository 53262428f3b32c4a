import Verif.Parse.Escapes

/-!
# Model of the formatter's scalar helpers

Source: crates/styx-format/src/scalar.rs.
-/

namespace Styx

/-- `char::is_ascii_control`: U+0000–U+001F and U+007F. -/
def isAsciiControl (c : Char) : Bool := c.toNat < 32 || c.toNat == 127

/-- scalar.rs:24: the characters that force quoting. -/
def bareSpecial (c : Char) : Bool :=
  c == '{' || c == '}' || c == '(' || c == ')' || c == ',' || c == '"' || c == '=' || c == '@'

/-- scalar.rs:14-25 `can_be_bare`. -/
def canBeBare (s : List Char) : Bool :=
  if s.isEmpty then false
  else if startsWith s ['/', '/'] || startsWith s ['r', '#'] || startsWith s ['<', '<'] then false
  else !s.any (fun c => bareSpecial c || isWhitespace c)

/-- scalar.rs:28-32 `count_escapes`. -/
def countEscapes (s : List Char) : Nat :=
  s.countP (fun c => c == '"' || c == '\\' || c == '\n' || c == '\r' || c == '\t')

/-- scalar.rs:35-37 `count_newlines`. -/
def countNewlines (s : List Char) : Nat := s.countP (· == '\n')

/-- Lower-case hexadecimal digit. -/
def hexDigit (n : Nat) : Char :=
  if n < 10 then Char.ofNat ('0'.toNat + n) else Char.ofNat ('a'.toNat + (n - 10))

/-- `format!("{code:04x}")` for `code < 0x10000` (it is only used for ASCII control characters). -/
def hex4 (n : Nat) : List Char :=
  [hexDigit (n / 4096 % 16), hexDigit (n / 256 % 16), hexDigit (n / 16 % 16), hexDigit (n % 16)]

/-- scalar.rs:52-66: the escape of one character. -/
def escapeChar (c : Char) : List Char :=
  if c = '"' then ['\\', '"']
  else if c = '\\' then ['\\', '\\']
  else if c = '\n' then ['\\', 'n']
  else if c = '\r' then ['\\', 'r']
  else if c = '\t' then ['\\', 't']
  else if isAsciiControl c then ['\\', 'u', '{'] ++ hex4 c.toNat ++ ['}']
  else [c]

/-- scalar.rs:42-68 `escape_quoted`.  The early return at 44-49 returns the text itself, which is
also what the loop produces when no character needs an escape. -/
def escapeQuoted (s : List Char) : List Char := s.flatMap escapeChar

/-- scalar.rs:73-142 `unescape_quoted` of the formatting library.  It differs from the parser's
`unescape_quoted` in the `\uXXXX` branch (108-125), which accepts fewer than four digits.
Modes as in `processEscapesAux`; `afterU` is merged into `four []`. -/
def fmtUnescapeAux : EscMode → List Char → List Char
  | .normal, [] => []
  | .esc, [] => ['\\']
  | .afterU, [] => []
  | .braced hex, [] => hexPush hex.reverse
  | .four hex, [] => hexPush hex.reverse
  | .normal, c :: cs =>
    if c = '\\' then fmtUnescapeAux .esc cs else c :: fmtUnescapeAux .normal cs
  | .esc, c :: cs =>
    if c = 'n' then '\n' :: fmtUnescapeAux .normal cs
    else if c = 'r' then '\r' :: fmtUnescapeAux .normal cs
    else if c = 't' then '\t' :: fmtUnescapeAux .normal cs
    else if c = '\\' then '\\' :: fmtUnescapeAux .normal cs
    else if c = '"' then '"' :: fmtUnescapeAux .normal cs
    else if c = 'u' then fmtUnescapeAux .afterU cs
    else '\\' :: c :: fmtUnescapeAux .normal cs
  | .afterU, c :: cs =>
    if c = '{' then fmtUnescapeAux (.braced []) cs
    else if isHexDigit c then fmtUnescapeAux (.four [c]) cs
    else if c = '\\' then fmtUnescapeAux .esc cs
    else c :: fmtUnescapeAux .normal cs
  | .braced hex, c :: cs =>
    if c = '}' then hexPush hex.reverse ++ fmtUnescapeAux .normal cs
    else fmtUnescapeAux (.braced (c :: hex)) cs
  | .four hex, c :: cs =>
    if isHexDigit c then
      if hex.length = 3 then hexPush (c :: hex).reverse ++ fmtUnescapeAux .normal cs
      else fmtUnescapeAux (.four (c :: hex)) cs
    else if c = '\\' then hexPush hex.reverse ++ fmtUnescapeAux .esc cs
    else hexPush hex.reverse ++ c :: fmtUnescapeAux .normal cs

/-- scalar.rs:73-142 `unescape_quoted`. -/
def fmtUnescape (s : List Char) : List Char := fmtUnescapeAux .normal s

end Styx
