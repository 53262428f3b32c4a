import Verif.Tokenizer.Model

/-!
# Heredocs in the CodeMirror mode

Models `editors/codemirror-styx/src/heredoc.ts` (the external tokenizer for heredocs) and
`parseHeredocText` and the choice of a nested language in `editors/codemirror-styx/src/index.ts`.
Texts are lists of characters where the code counts UTF-16 units: none of the tests looks at half a
character.
-/

namespace Styx.CodeMirror

/-- heredoc.ts:5-7 `isDelimiterStart`. -/
def delimiterStart (c : Char) : Bool := decide (65 ≤ c.toNat ∧ c.toNat ≤ 90)

/-- heredoc.ts:10-12 `isDelimiterChar`. -/
def delimiterChar (c : Char) : Bool :=
  decide ((65 ≤ c.toNat ∧ c.toNat ≤ 90) ∨ (48 ≤ c.toNat ∧ c.toNat ≤ 57) ∨ c.toNat = 95)

/-- heredoc.ts:53: the first character of a language hint. -/
def langStart (c : Char) : Bool := decide (97 ≤ c.toNat ∧ c.toNat ≤ 122)

/-- heredoc.ts:15-18 `isLangHintChar`. -/
def langHintChar (c : Char) : Bool :=
  decide ((97 ≤ c.toNat ∧ c.toNat ≤ 122) ∨ (48 ≤ c.toNat ∧ c.toNat ≤ 57) ∨ c.toNat = 95 ∨ c.toNat = 46 ∨
    c.toNat = 45)

/-- heredoc.ts:49-58: an optional comma, and behind it an optional hint. -/
def skipHint : List Char → List Char
  | ',' :: s => if s.head?.any langStart then s.dropWhile langHintChar else s
  | s => s

/-- heredoc.ts:64-65 and 108-109: an optional carriage return, then an optional line feed. -/
def skipBreak (s : List Char) : List Char :=
  let s := if s.head? = some '\r' then s.tail else s
  if s.head? = some '\n' then s.tail else s

/-- heredoc.ts:84-91: step over the delimiter, as far as the text agrees with it.  Says whether all of
it was found (line 93), and what follows. -/
def stepOver : List Char → List Char → Bool × List Char
  | [], s => (true, s)
  | _ :: _, [] => (false, [])
  | d :: ds, c :: s => if c = d then stepOver ds s else (false, c :: s)

/-- heredoc.ts:95: a line feed, a carriage return or the end of the text. -/
def atLineEnd (s : List Char) : Bool :=
  s.isEmpty || s.head? == some '\n' || s.head? == some '\r'

/-- heredoc.ts:103: neither a line feed nor a carriage return. -/
def isInLine (c : Char) : Bool := c != '\n' && c != '\r'

/-- heredoc.ts:67-113: the lines up to the one that holds the delimiter, or up to the end of the text.
What follows the token.  Every round but the last takes a character, so `length + 1` rounds suffice. -/
def lines (d : List Char) : Nat → List Char → List Char
  | 0, s => s
  | f + 1, s =>
    if s.isEmpty then [] else
      match stepOver d (s.dropWhile isBlank) with
      | (found, after) =>
        if found && atLineEnd after then after
        else lines d f (skipBreak (after.dropWhile isInLine))

/-- heredoc.ts:31-116 `heredocTokenizer`: what follows the heredoc token at the front of the text, if
there is such a token. -/
def heredocToken : List Char → Option (List Char)
  | '<' :: '<' :: e =>
    if e.head?.any delimiterStart then
      let s := skipHint (e.dropWhile delimiterChar)
      if s.head? = some '\n' ∨ s.head? = some '\r' then
        let body := skipBreak s
        some (lines (e.takeWhile delimiterChar) (body.length + 1) body)
      else none
    else none
  | _ => none

/-- index.ts:39: the optional group of the pattern, a comma and a name.  The group is tried first; if
there is no name behind the comma, nothing is taken. -/
def hintGroup : List Char → Option (List Char) × List Char
  | ',' :: c :: s =>
    if langStart c then (some (c :: s.takeWhile langHintChar), s.dropWhile langHintChar)
    else (none, ',' :: c :: s)
  | s => (none, s)

/-- index.ts:39: the pattern of the opening: delimiter, hint and the text behind the line break.  The
classes of the delimiter, of the hint and of the line break have no characters in common, so that the
greedy match is the only one. -/
def openingPattern : List Char → Option (List Char × Option (List Char) × List Char)
  | '<' :: '<' :: e =>
    if e.head?.any delimiterStart then
      match hintGroup (e.dropWhile delimiterChar) with
      | (hint, '\r' :: '\n' :: body) => some (e.takeWhile delimiterChar, hint, body)
      | (hint, '\n' :: body) => some (e.takeWhile delimiterChar, hint, body)
      | _ => none
    else none
  | _ => none

/-- The line terminators of JavaScript, which `^` and `$` look for under the flag `m` (index.ts:47). -/
def isTerminator (c : Char) : Bool :=
  c == '\n' || c == '\r' || c == '\u2028' || c == '\u2029'

/-- index.ts:47: spaces and tabs, the delimiter, and `$`. -/
def closesHere (d s : List Char) : Bool :=
  match stepOver d (s.dropWhile isBlank) with
  | (found, after) => found && (after.isEmpty || after.head?.any isTerminator)

/-- index.ts:47-48: the text before the first match of the pattern of the closing line, if there is
one.  `start` says whether `^` holds here. -/
def beforeClose (d : List Char) (start : Bool) (s : List Char) : Option (List Char) :=
  if start && closesHere d s then some []
  else
    match s with
    | [] => none
    | c :: cs => (beforeClose d (isTerminator c) cs).map (c :: ·)

/-- index.ts:32-66 `parseHeredocText`: the hint and the text from `contentStart` to `contentEnd`. -/
def parseHeredocText (text : List Char) : Option (Option (List Char) × List Char) :=
  match openingPattern text with
  | none => none
  | some (d, hint, body) => some (hint, (beforeClose d true body).getD body)

/-- index.ts:77-95: the hint by which the nested parser is chosen and the text it is given, for the
text of a heredoc token.  None if the heredoc has no hint. -/
def nested (text : List Char) : Option (List Char × List Char) :=
  match parseHeredocText text with
  | some (some hint, content) => some (hint, content)
  | _ => none

end Styx.CodeMirror
