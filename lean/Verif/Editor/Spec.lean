import Verif.Tokenizer.Spec
import Verif.Editor.Scanner

/-!
# Specifications for the properties of the editor's scanner (C93–C96, C114)
-/

namespace Styx.Spec

open Styx.Editor

/-- A history of the editor's scanner: what it holds in memory, and all the states that were saved so
far.  Every step restores any one of the saved states (editors reparse from any earlier point), scans
any text with any set of valid tokens, and saves the new state if there was a token. -/
inductive Reached : Scanner → List (List UInt8) → Prop
  | create : Reached .create [[]]
  | token {s s' : Scanner} {saved : List (List UInt8)} {b b' : List UInt8} {v : Symbol → Bool}
      {text rest : List Char} {p : Piece} : Reached s saved → b ∈ saved →
      lexExternal s b v text = .ok (some (p, rest, b'), s') → Reached s' (b' :: saved)
  | nothing {s s' : Scanner} {saved : List (List UInt8)} {b : List UInt8} {v : Symbol → Bool}
      {text : List Char} : Reached s saved → b ∈ saved →
      lexExternal s b v text = .ok (none, s') → Reached s' saved

/-- What a scan tells the editor: the token found, and where it starts and ends. -/
def told (r : Scan) : Option (Option Symbol × Lexer) :=
  match r with
  | .ok (y, _, l) => some (y, l)
  | .error _ => none

end Styx.Spec

namespace Styx.Spec

open Styx Styx.Editor

/-- A raw string as it is written: `n` hashes on both sides. -/
def rawWritten (n : Nat) (body : List Char) : List Char :=
  'r' :: (List.replicate n '#' ++ '"' :: (body ++ '"' :: List.replicate n '#'))

/-- The tokenizer reads a token of the given kind and text from the front of `text`, and `rest`
follows. -/
def TokenizerReads (text : List Char) (kind : TokenKind) (token rest : List Char) : Prop :=
  (Tok.new text).next.1.kind = kind ∧ (Tok.new text).next.1.text = token ∧
    (Tok.new text).next.2.remaining = rest

/-- The editor's external tokens for a raw string, after the blanks before it. -/
def rawPieces (blanks : List Char) (n : Nat) (body : List Char) : List Piece :=
  ⟨.rawStart, blanks, 'r' :: (List.replicate n '#' ++ ['"'])⟩ ::
    ((if body = [] then [] else [⟨.rawContent, [], body⟩]) ++
      [⟨.rawEnd, [], '"' :: List.replicate n '#'⟩])

/-- Every carriage return is followed by a line feed. -/
def PairedCR (s : List Char) : Prop := ∀ a b, s = a ++ '\r' :: b → ∃ c, b = '\n' :: c

/-- Spaces and tabs. -/
def SpacesTabs (s : List Char) : Prop := ∀ c ∈ s, c = ' ' ∨ c = '\t'

end Styx.Spec

namespace Styx.Spec

open Styx Styx.Editor

/-- The tokenizer reads a heredoc from the front of `text`: an opening token, a content token if
`content` is not empty, a closing token; and `rest` follows. -/
def TokenizerHeredoc (text opening content close rest : List Char) : Prop :=
  (Tok.new text).next.1.kind = .heredocStart ∧ (Tok.new text).next.1.text = opening ∧
  let t := (Tok.new text).next.2
  (content = [] ∧ t.next.1.kind = .heredocEnd ∧ t.next.1.text = close ∧ t.next.2.remaining = rest) ∨
  (content ≠ [] ∧ t.next.1.kind = .heredocContent ∧ t.next.1.text = content ∧
    t.next.2.next.1.kind = .heredocEnd ∧ t.next.2.next.1.text = close ∧
    t.next.2.next.2.remaining = rest)

/-- The parts of the text of an opening token: `<<`, the delimiter, the language hint (a comma and a
name, which may be missing) and the line break. -/
def OpeningParts (opening d lang nl : List Char) : Prop :=
  opening = '<' :: '<' :: d ++ lang ++ nl ∧ Delimiter d ∧
  (lang = [] ∨ ∃ h, lang = ',' :: h ∧ (h = [] ∨ ∃ c r, h = c :: r ∧ c.isLower = true ∧
    ∀ x ∈ r, x.isLower = true ∨ x.isDigit = true ∨ x = '_' ∨ x = '.' ∨ x = '-')) ∧
  (nl = [] ∨ nl = ['\n'] ∨ nl = ['\r', '\n'])

/-- The editor's external tokens for a heredoc with the opening `<<d`, `lang`, `nl`.  With a hint and a
line break after it there is a token for the hint.  Otherwise what the tokenizer took of the hint and
the line break goes to the token that follows.  The comma is stepped over. -/
def heredocPieces (blanks d lang nl content close : List Char) : List Piece :=
  ⟨.heredocStart, blanks, '<' :: '<' :: d⟩ ::
    if 2 ≤ lang.length ∧ nl ≠ [] then
      [⟨.heredocLang, [','], lang.drop 1⟩, ⟨.heredocContent, [], nl ++ content⟩, ⟨.heredocEnd, [], close⟩]
    else if content = [] then [⟨.heredocEnd, lang.take 1, lang.drop 1 ++ nl ++ close⟩]
    else [⟨.heredocContent, lang.take 1, lang.drop 1 ++ nl ++ content⟩, ⟨.heredocEnd, [], close⟩]

end Styx.Spec

namespace Styx.Spec

open Styx Styx.Editor

/-- The tokenizer reads the opening of a heredoc from the front of `text`, and finds no closing line:
`content` is all that follows. -/
def TokenizerUnclosed (text opening content : List Char) : Prop :=
  TokenizerReads text .heredocStart opening content ∧
    ∀ content close rest, ¬ TokenizerHeredoc text opening content close rest

/-- If the text begins with two angle brackets, the word of capitals, digits and underscores after them
has at most 16 characters. -/
def ShortDelimiter (text : List Char) : Prop :=
  ∀ d rest, text = '<' :: '<' :: d ++ rest →
    (∀ c ∈ d, c.isUpper = true ∨ c.isDigit = true ∨ c = '_') → d.length ≤ 16

/-- Neither of the two line terminators that only JavaScript knows. -/
def NoSeparator (s : List Char) : Prop := ∀ c ∈ s, c ≠ '\u2028' ∧ c ≠ '\u2029'

end Styx.Spec
