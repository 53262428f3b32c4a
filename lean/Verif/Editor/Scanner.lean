import Verif.Tokenizer.Model

/-!
# Model of the external scanner of the editor grammar

Source: crates/tree-sitter-styx/src/scanner.c, with the table of valid external tokens of
crates/tree-sitter-styx/src/parser.c:8332-8383 and the rules of
crates/tree-sitter-styx/grammar.js that use the external tokens.

The contract of the tree-sitter runtime (`TSLexer`, crates/tree-sitter-styx/src/tree_sitter/parser.h:48-57)
is not part of the repository.  It is modelled as its documentation gives it:
* `lookahead` is the next character, and 0 at the end of the input.  Here it is `here.head?`.  (No
  comparison in scanner.c but the one with the delimiter bytes can tell a 0 from the end.)
* `advance(false)` steps over the next character; `advance(true)` does the same and makes the token
  start after it; `mark_end` makes the token end here; without `mark_end` it ends where the scan
  stopped.
* Before each scan the state is restored from the bytes that the last successful scan saved; the
  state a failing scan leaves behind is dropped.

Positions are represented by the text that follows them.  The memory of the scanner is modelled with
its bounds: a write or read outside the delimiter array is the fault `overrun`.  A loop that has used
up its fuel is the fault `spins`.
-/

namespace Styx.Editor

/-- crates/tree-sitter-styx/src/scanner.c:14-26 `TokenType`. -/
inductive Symbol where
  | heredocStart | heredocLang | heredocContent | heredocEnd
  | rawStart | rawContent | rawEnd
  | unitAt | tagStart | immediateRawStart | immediateUnitAt
  deriving DecidableEq, Repr

/-- What must not happen: an access outside the delimiter array, or a loop without end. -/
inductive Fault where
  | overrun | spins
  deriving DecidableEq, Repr

/-- crates/tree-sitter-styx/src/scanner.c:33-43 `Scanner`.  `buf` is the array
`heredoc_delimiter[MAX_DELIMITER_LEN + 1]` of 17 bytes. -/
structure Scanner where
  buf : List UInt8
  len : Nat
  inHeredoc : Bool
  needsLang : Bool
  hashes : Nat
  inRaw : Bool
  deriving DecidableEq, Repr

/-- crates/tree-sitter-styx/src/scanner.c:135-138 `tree_sitter_styx_external_scanner_create`:
all zeroes. -/
def Scanner.create : Scanner := ⟨List.replicate 17 0, 0, false, false, 0, false⟩

/-- An assignment `heredoc_delimiter[i] = b`. -/
def put (buf : List UInt8) (i : Nat) (b : UInt8) : Except Fault (List UInt8) :=
  if i < buf.length then .ok (buf.set i b) else .error .overrun

/-- Reading `heredoc_delimiter[0..n)`. -/
def get (buf : List UInt8) (n : Nat) : Except Fault (List UInt8) :=
  if n ≤ buf.length then .ok (buf.take n) else .error .overrun

/-- A `bool` stored in a byte. -/
def flag (b : Bool) : UInt8 := if b then 1 else 0

/-- crates/tree-sitter-styx/src/scanner.c:82-97 `tree_sitter_styx_external_scanner_serialize`.
The bytes written to `buffer`; `uint8_t` values are stored modulo 256. -/
def Scanner.serialize (s : Scanner) : Except Fault (List UInt8) := do
  let d ← get s.buf s.len
  return flag s.inHeredoc :: flag s.needsLang :: UInt8.ofNat s.len ::
    (d ++ [flag s.inRaw, UInt8.ofNat s.hashes])

/-- crates/tree-sitter-styx/src/scanner.c:117-120: the loop that copies delimiter bytes, `j` being the
next index and `k` the number still to come.  Returns the array and the bytes not consumed. -/
def copyDelim (buf : List UInt8) (j : Nat) : Nat → List UInt8 → Except Fault (List UInt8 × List UInt8)
  | 0, bs => .ok (buf, bs)
  | _ + 1, [] => .ok (buf, [])
  | k + 1, b :: bs => do
    let buf' ← put buf j b
    copyDelim buf' (j + 1) k bs

/-- crates/tree-sitter-styx/src/scanner.c:124-129: the last two fields. -/
def restoreRaw (s : Scanner) : List UInt8 → Scanner
  | [] => s
  | [r] => { s with inRaw := r != 0 }
  | r :: h :: _ => { s with inRaw := r != 0, hashes := h.toNat }

/-- crates/tree-sitter-styx/src/scanner.c:100-132 `tree_sitter_styx_external_scanner_deserialize`,
called on a scanner that holds whatever the last scan left in it. -/
def Scanner.deserialize (old : Scanner) (bytes : List UInt8) : Except Fault Scanner := do
  let buf ← put old.buf 0 0
  let s : Scanner := ⟨buf, 0, false, false, 0, false⟩
  match bytes with
  | [] => return s
  | [h] => return { s with inHeredoc := h != 0 }
  | [h, n] => return { s with inHeredoc := h != 0, needsLang := n != 0 }
  | h :: n :: l :: bs =>
    let (buf, rest) ← copyDelim s.buf 0 l.toNat bs
    let buf ← put buf l.toNat 0
    return restoreRaw ⟨buf, l.toNat, h != 0, n != 0, 0, false⟩ rest

/-- The lexer: the text from the token's start, from the current position, and from the marked end of
the token. -/
structure Lexer where
  start : List Char
  here : List Char
  mark : Option (List Char)
  deriving DecidableEq, Repr

/-- A lexer before a scan. -/
def Lexer.at (text : List Char) : Lexer := ⟨text, text, none⟩

/-- crates/tree-sitter-styx/src/scanner.c:45 `advance`. -/
def Lexer.advance (l : Lexer) : Lexer := { l with here := l.here.tail }

/-- crates/tree-sitter-styx/src/scanner.c:47 `skip`. -/
def Lexer.skip (l : Lexer) : Lexer := { l with start := l.here.tail, here := l.here.tail }

/-- `lexer->mark_end`. -/
def Lexer.markEnd (l : Lexer) : Lexer := { l with mark := some l.here }

/-- `while (p(lookahead)) advance`. -/
def Lexer.advanceWhile (l : Lexer) (p : Char → Bool) : Lexer := { l with here := l.here.dropWhile p }

/-- `if (lookahead == c) advance`. -/
def Lexer.advanceIf (l : Lexer) (c : Char) : Lexer := if l.here.head? = some c then l.advance else l

/-- crates/tree-sitter-styx/src/scanner.c:50-52 `is_delimiter_start`. -/
def isDelimiterStart (c : Char) : Bool := decide ('A' ≤ c ∧ c ≤ 'Z')

/-- crates/tree-sitter-styx/src/scanner.c:55-57 `is_delimiter_char`. -/
def isDelimiterChar (c : Char) : Bool :=
  decide ('A' ≤ c ∧ c ≤ 'Z') || decide ('0' ≤ c ∧ c ≤ '9') || c == '_'

/-- crates/tree-sitter-styx/src/scanner.c:60-62 `is_tag_name_start`. -/
def isTagNameStart (c : Char) : Bool :=
  decide ('A' ≤ c ∧ c ≤ 'Z') || decide ('a' ≤ c ∧ c ≤ 'z') || c == '_'

/-- crates/tree-sitter-styx/src/scanner.c:65-67 `is_lang_hint_start`. -/
def isLangHintStart (c : Char) : Bool := decide ('a' ≤ c ∧ c ≤ 'z')

/-- crates/tree-sitter-styx/src/scanner.c:70-73 `is_lang_hint_char`. -/
def isLangHintChar (c : Char) : Bool :=
  decide ('a' ≤ c ∧ c ≤ 'z') || decide ('0' ≤ c ∧ c ≤ '9') || c == '_' || c == '.' || c == '-'

/-- crates/tree-sitter-styx/src/scanner.c:76-79 `is_tag_name_char`. -/
def isTagNameChar (c : Char) : Bool :=
  decide ('A' ≤ c ∧ c ≤ 'Z') || decide ('a' ≤ c ∧ c ≤ 'z') || decide ('0' ≤ c ∧ c ≤ '9') ||
    c == '_' || c == '.' || c == '-'

/-- A test of the lookahead; false at the end of the input (the tests above are false for 0). -/
def looks (p : Char → Bool) (l : Lexer) : Bool := l.here.head?.any p

/-- The outcome of a scanning function: the symbol if it returned true, and what it left behind. -/
abbrev Scan := Except Fault (Option Symbol × Scanner × Lexer)

/-- crates/tree-sitter-styx/src/scanner.c:160-165: the loop that reads the delimiter.  Returns the
array, the length and the text after it. -/
def readDelim (buf : List UInt8) (len : Nat) : List Char → Except Fault (List UInt8 × Nat × List Char)
  | [] => .ok (buf, len, [])
  | c :: cs =>
    if isDelimiterChar c && decide (len < 16) then do
      let buf' ← put buf len (UInt8.ofNat c.toNat)
      readDelim buf' (len + 1) cs
    else .ok (buf, len, c :: cs)

/-- crates/tree-sitter-styx/src/scanner.c:146-178 `scan_heredoc_start`. -/
def scanHeredocStart (s : Scanner) (l : Lexer) : Scan :=
  if l.here.head? ≠ some '<' then .ok (none, s, l) else
  let l := l.advance
  if l.here.head? ≠ some '<' then .ok (none, s, l) else
  let l := l.advance
  if !looks isDelimiterStart l then .ok (none, s, l) else do
  let (buf, len, here) ← readDelim s.buf 0 l.here
  let buf ← put buf len 0
  let s := { s with buf := buf, len := len }
  let l := { l with here := here }
  if here.head? ≠ some ',' ∧ here.head? ≠ some '\n' ∧ here.head? ≠ some '\r' then
    return (none, s, l)
  else return (some .heredocStart, { s with inHeredoc := true, needsLang := true }, l)

/-- crates/tree-sitter-styx/src/scanner.c:183-219 `scan_heredoc_lang`. -/
def scanHeredocLang (s : Scanner) (l : Lexer) : Option Symbol × Scanner × Lexer :=
  if !s.needsLang then (none, s, l) else
  if l.here.head? ≠ some ',' then (none, s, l) else
  let l := l.skip
  if !looks isLangHintStart l then (none, s, l) else
  let l := (l.advanceWhile isLangHintChar).markEnd
  if l.here.head? ≠ some '\n' ∧ l.here.head? ≠ some '\r' then (none, s, l) else
  (some .heredocLang, { s with needsLang := false }, (l.advanceIf '\r').advanceIf '\n')

/-- crates/tree-sitter-styx/src/scanner.c:251-258: step over the delimiter as far as it matches;
true if all of it did.  A byte is compared with the code point (for bytes below 128, the only ones
`readDelim` stores, the signedness of `char` does not matter). -/
def matchDelim : List UInt8 → Lexer → Bool × Lexer
  | [], l => (true, l)
  | b :: bs, l =>
    if (l.here.head?.map Char.toNat).getD 0 ≠ b.toNat then (false, l) else matchDelim bs l.advance

/-- The characters of a line: neither LF nor CR (scanner.c:280-281). -/
def inLine (c : Char) : Bool := !(c == '\n' || c == '\r')

/-- crates/tree-sitter-styx/src/scanner.c:241-297: the loop of `scan_heredoc_content_or_end`. -/
def heredocLoop (s : Scanner) (delim : List UInt8) : Nat → Bool → Lexer → Scan
  | 0, _, _ => .error .spins
  | f + 1, hasContent, l =>
    let (atDelim, l) := matchDelim delim (l.markEnd.advanceWhile isBlank)
    if atDelim && (l.here.isEmpty || l.here.head? == some '\n' || l.here.head? == some '\r') then
      if hasContent then .ok (some .heredocContent, s, l)
      else .ok (some .heredocEnd, { s with inHeredoc := false }, l.markEnd)
    else
      let l := ((l.advanceWhile inLine).advanceIf '\r').advanceIf '\n'
      if l.here.isEmpty then .ok (some .heredocContent, s, l.markEnd)
      else heredocLoop s delim f true l.markEnd

/-- crates/tree-sitter-styx/src/scanner.c:222-298 `scan_heredoc_content_or_end`.  The fuel is enough for
one round per character left (`C93_safe`). -/
def scanHeredocContentOrEnd (s : Scanner) (l : Lexer) : Scan :=
  if !s.inHeredoc then .ok (none, s, l) else do
  let l' := if s.needsLang then (l.advanceIf '\r').advanceIf '\n' else l
  let s' := { s with needsLang := false }
  let delim ← get s.buf s.len
  heredocLoop s' delim (l'.here.length + 1) false l'

/-- crates/tree-sitter-styx/src/scanner.c:309-313 and 349-353: step over at most `n` hashes; how many
there were. -/
def stepHashes : Nat → Lexer → Nat × Lexer
  | 0, l => (0, l)
  | n + 1, l =>
    if l.here.head? = some '#' then
      let (k, l') := stepHashes n l.advance
      (k + 1, l')
    else (0, l)

/-- crates/tree-sitter-styx/src/scanner.c:301-323 `scan_raw_string_start`. -/
def scanRawStart (s : Scanner) (l : Lexer) (sym : Symbol) : Option Symbol × Scanner × Lexer :=
  if l.here.head? ≠ some 'r' then (none, s, l) else
  let (k, l) := stepHashes 255 l.advance
  let s := { s with hashes := k }
  if l.here.head? ≠ some '"' then (none, s, l) else
  (some sym, { s with inRaw := true }, l.advance)

/-- crates/tree-sitter-styx/src/scanner.c:333-376: the loop of `scan_raw_string_content_or_end`. -/
def rawLoop (s : Scanner) : Nat → Bool → Lexer → Scan
  | 0, _, _ => .error .spins
  | f + 1, hasContent, l =>
    match l.here with
    | [] => if hasContent then .ok (some .rawContent, s, l.markEnd) else .ok (none, s, l)
    | c :: _ =>
      if c = '"' then
        let (k, l) := stepHashes s.hashes l.markEnd.advance
        if k = s.hashes then
          if hasContent then .ok (some .rawContent, s, l)
          else .ok (some .rawEnd, { s with inRaw := false }, l.markEnd)
        else rawLoop s f true l
      else rawLoop s f true l.advance

/-- crates/tree-sitter-styx/src/scanner.c:326-377 `scan_raw_string_content_or_end`. -/
def scanRawContentOrEnd (s : Scanner) (l : Lexer) : Scan :=
  if !s.inRaw then .ok (none, s, l) else rawLoop s (l.here.length + 1) false l

/-- crates/tree-sitter-styx/src/scanner.c:380-406 `scan_at_token`. -/
def scanAtToken (valid : Symbol → Bool) (l : Lexer) : Option Symbol × Lexer :=
  if l.here.head? ≠ some '@' then (none, l) else
  let l := l.advance
  if looks isTagNameStart l then
    if !valid .tagStart then (none, l) else (some .tagStart, l.advanceWhile isTagNameChar)
  else
    if !valid .unitAt then (none, l) else (some .unitAt, l)

/-- crates/tree-sitter-styx/src/scanner.c:434-484: `scan` once heredocs and raw strings are out of the
way. -/
def scanOther (valid : Symbol → Bool) (s : Scanner) (l : Lexer) : Scan :=
  if valid .immediateUnitAt && l.here.head? == some '@' then
    let l := l.markEnd.advance
    if !looks isTagNameStart l then .ok (some .immediateUnitAt, s, l.markEnd) else .ok (none, s, l)
  else if valid .immediateRawStart && l.here.head? == some 'r' then
    .ok (scanRawStart s l .immediateRawStart)
  else
    let l :=
      if !s.inHeredoc && !s.inRaw then
        let here := l.here.dropWhile isBlank
        if here = l.here then l else { l with start := here, here := here }
      else l
    if (valid .unitAt || valid .tagStart) && l.here.head? == some '@' then
      let (r, l) := scanAtToken valid l
      .ok (r, s, l)
    else if valid .heredocStart && l.here.head? == some '<' then scanHeredocStart s l
    else if valid .rawStart && l.here.head? == some 'r' then .ok (scanRawStart s l .rawStart)
    else .ok (none, s, l)

/-- crates/tree-sitter-styx/src/scanner.c:422-432: the branches for the inside of heredocs and raw
strings. -/
def scanInside (valid : Symbol → Bool) (s : Scanner) (l : Lexer) : Scan :=
  if s.inHeredoc && (valid .heredocContent || valid .heredocEnd) then scanHeredocContentOrEnd s l
  else if s.inRaw && (valid .rawContent || valid .rawEnd) then scanRawContentOrEnd s l
  else scanOther valid s l

/-- crates/tree-sitter-styx/src/scanner.c:409-487 `tree_sitter_styx_external_scanner_scan`.  After a
failed attempt at a language hint the scan goes on from where the attempt stopped. -/
def scan (valid : Symbol → Bool) (s : Scanner) (l : Lexer) : Scan :=
  if s.needsLang && valid .heredocLang then
    match scanHeredocLang s l with
    | (some y, s, l) => .ok (some y, s, l)
    | (none, s, l) => scanInside valid s l
  else scanInside valid s l

/-- A token as the runtime sees it: its symbol, its text, and the text that follows. -/
structure Piece where
  symbol : Symbol
  /-- text stepped over before the token (blanks, or the comma before a language hint) -/
  skipped : List Char
  text : List Char
  deriving DecidableEq, Repr

/-- The text between two positions. -/
def between (a b : List Char) : List Char := a.take (a.length - b.length)

/-- One call of the external scanner by the runtime: restore the state into the scanner `old`, scan,
save the state.  `none` when the scan returned false. -/
def lexExternal (old : Scanner) (saved : List UInt8) (valid : Symbol → Bool) (text : List Char) :
    Except Fault (Option (Piece × List Char × List UInt8) × Scanner) := do
  let s ← old.deserialize saved
  let (r, s', l) ← scan valid s (.at text)
  match r with
  | none => return (none, s')
  | some y =>
    let stop := l.mark.getD l.here
    let bytes ← s'.serialize
    return (some (⟨y, between text l.start, between l.start stop⟩, stop, bytes), s')

/-- crates/tree-sitter-styx/src/parser.c:8332-8383 `ts_external_scanner_states`, rows 1 to 9. -/
def validIn : Nat → List Symbol
  | 1 => [.heredocStart, .heredocLang, .heredocContent, .heredocEnd, .rawStart, .rawContent, .rawEnd,
      .unitAt, .tagStart, .immediateRawStart, .immediateUnitAt]
  | 2 => [.heredocStart, .rawStart, .unitAt, .tagStart]
  | 3 => [.heredocStart, .rawStart, .unitAt, .tagStart, .immediateRawStart, .immediateUnitAt]
  | 4 => [.immediateRawStart, .immediateUnitAt]
  | 5 => [.heredocLang, .heredocContent, .heredocEnd]
  | 6 => [.rawContent, .rawEnd]
  | 7 => [.heredocContent, .heredocEnd]
  | 8 => [.rawEnd]
  | 9 => [.heredocEnd]
  | _ => []

/-- The row as the array `valid_symbols`. -/
def validSymbols (row : Nat) (y : Symbol) : Bool := (validIn row).contains y

/-- The row in which the parser is after an external token, inside the rules `raw_scalar` and `heredoc`
(crates/tree-sitter-styx/grammar.js:141-150: start, optional hint, optional content, end). -/
def rowAfter : Symbol → Option Nat
  | .heredocStart => some 5
  | .heredocLang => some 7
  | .heredocContent => some 9
  | .rawStart => some 6
  | .immediateRawStart => some 6
  | .rawContent => some 8
  | _ => none

/-- Read external tokens along the rule that the first of them opens, until the rule is complete.
`none` if the scanner finds no token or one that the rule does not allow there.  A rule has at most
four tokens. -/
def readRule : Nat → Nat → Scanner → List UInt8 → List Char →
    Except Fault (Option (List Piece × List Char))
  | 0, _, _, _, _ => .ok none
  | n + 1, row, old, saved, text => do
    match ← lexExternal old saved (validSymbols row) text with
    | (none, _) => return none
    | (some (p, rest, saved), s) =>
      if !validSymbols row p.symbol then return none else
      match rowAfter p.symbol with
      | none => return some ([p], rest)
      | some row =>
        match ← readRule n row s saved rest with
        | none => return none
        | some (ps, rest) => return some (p :: ps, rest)

/-- What the external tokens make of a text at the start of a value (row 2: crates/tree-sitter-styx/src/parser.c:8346-8351),
outside of heredocs and raw strings. -/
def readExternal (text : List Char) : Except Fault (Option (List Piece × List Char)) :=
  readRule 4 2 .create [] text

/-- The text that a list of tokens covers, with what was stepped over between them. -/
def covered : List Piece → List Char
  | [] => []
  | p :: ps => p.skipped ++ p.text ++ covered ps

end Styx.Editor
