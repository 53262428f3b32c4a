import Verif.Tokenizer.Model

/-!
# Specifications for the tokenizer properties (C01–C04)

Written without reference to the scanning functions of the model.
-/

namespace Styx.Spec

open Styx

/-- Byte-slicing of a text, as Rust's `&source[a..b]`: `none` when an end is out of range, not on a
character boundary, or the ends are in the wrong order (the cases in which Rust panics). -/
def dropBytes : Nat → List Char → Option (List Char)
  | 0, s => some s
  | _ + 1, [] => none
  | n + 1, c :: cs => if c.utf8Size ≤ n + 1 then dropBytes (n + 1 - c.utf8Size) cs else none

/-- The first `n` bytes of a text, if they end on a character boundary. -/
def takeBytes : Nat → List Char → Option (List Char)
  | 0, _ => some []
  | _ + 1, [] => none
  | n + 1, c :: cs =>
    if c.utf8Size ≤ n + 1 then (takeBytes (n + 1 - c.utf8Size) cs).map (c :: ·) else none

/-- `&source[a..b]`. -/
def slice (source : List Char) (a b : Nat) : Option (List Char) :=
  if a ≤ b then (dropBytes a source).bind (takeBytes (b - a)) else none

/-- The spans of `toks` follow each other without gap or overlap from byte `a` to byte `b`. -/
def Contiguous : Nat → List Token → Nat → Prop
  | a, [], b => a = b
  | a, t :: ts, b => t.start = a ∧ Contiguous t.stop ts b

/-- The characters that can never occur in a bare scalar. -/
def bareForbidden : List Char := ['{', '}', '(', ')', ',', '"', '>']

/-- Body of a quoted scalar: a backslash always takes the next character with it, and a quote only
occurs after a backslash. -/
inductive QuotedBody : List Char → Prop
  | nil : QuotedBody []
  | plain {c cs} : c ≠ '"' → c ≠ '\\' → QuotedBody cs → QuotedBody (c :: cs)
  | esc {c cs} : QuotedBody cs → QuotedBody ('\\' :: c :: cs)

/-- A tag name `[A-Za-z_][A-Za-z0-9_-]*`. -/
def TagName (n : List Char) : Prop :=
  ∃ c r, n = c :: r ∧ (c.isAlpha = true ∨ c = '_') ∧
    ∀ x ∈ r, x.isAlphanum = true ∨ x = '_' ∨ x = '-'

/-- A heredoc delimiter `[A-Z][A-Z0-9_]*` of at most 16 characters. -/
def Delimiter (d : List Char) : Prop :=
  ∃ c r, d = c :: r ∧ c.isUpper = true ∧ (∀ x ∈ r, x.isUpper = true ∨ x.isDigit = true ∨ x = '_') ∧
    d.length ≤ 16

/-- What the text of a token of each kind looks like. -/
def KindText : TokenKind → List Char → Prop
  | .lbrace, s => s = ['{']
  | .rbrace, s => s = ['}']
  | .lparen, s => s = ['(']
  | .rparen, s => s = [')']
  | .comma, s => s = [',']
  | .gt, s => s = ['>']
  | .at, s => s = ['@']
  | .tag, s => ∃ (n : List Char) (ns : List (List Char)), s = '@' :: n ++ (ns.map (['/', '@'] ++ ·)).flatten ∧
      TagName n ∧ ∀ m ∈ ns, TagName m
  | .bareScalar, s => s ≠ [] ∧ ∀ c ∈ s, c ∉ bareForbidden ∧ isWhitespace c = false
  | .quotedScalar, s => ∃ body, s = '"' :: body ++ ['"'] ∧ QuotedBody body
  | .rawScalar, s => ∃ n body,
      s = 'r' :: List.replicate n '#' ++ '"' :: body ++ '"' :: List.replicate (min n 255) '#' ∧
      ∀ a b, body ≠ a ++ '"' :: List.replicate (min n 255) '#' ++ b
  | .heredocStart, s => ∃ d lang nl, s = '<' :: '<' :: d ++ lang ++ nl ∧ Delimiter d ∧
      (lang = [] ∨ ∃ l, lang = ',' :: l ∧
        (l = [] ∨ ∃ c r, l = c :: r ∧ c.isLower = true ∧
          ∀ x ∈ r, x.isLower = true ∨ x.isDigit = true ∨ x = '_' ∨ x = '.' ∨ x = '-')) ∧
      (nl = [] ∨ nl = ['\n'] ∨ nl = ['\r', '\n'] ∨ nl = ['\r'])
  | .heredocContent, s => ∃ r, s = r ++ ['\n']
  | .heredocEnd, s => ∃ ind d, s = ind ++ d ∧ (∀ c ∈ ind, c = ' ' ∨ c = '\t') ∧ Delimiter d
  | .lineComment, s => ∃ r, s = '/' :: '/' :: r ∧ r.head? ≠ some '/' ∧ '\n' ∉ r ∧ '\r' ∉ r
  | .docComment, s => ∃ r, s = '/' :: '/' :: '/' :: r ∧ '\n' ∉ r ∧ '\r' ∉ r
  | .whitespace, s => s ≠ [] ∧ ∀ c ∈ s, c = ' ' ∨ c = '\t'
  | .newline, s => s = ['\n'] ∨ s = ['\r', '\n']
  | .eof, s => s = []
  | .error, _ => True

end Styx.Spec
