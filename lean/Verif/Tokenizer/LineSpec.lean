import Verif.Tokenizer.Model

/-!
# Specification: the lines of a document and their tokens
-/

namespace Styx.Spec

/-- The text ends with a line break that is a token of its own: not one in a string or heredoc. -/
def EndsLine (a : List Char) : Prop := ∃ pre t, tokenize a = pre ++ [t] ∧ t.kind = .newline

/-- The token, so many bytes further on. -/
def moved (n : Nat) (t : Token) : Token := ⟨t.kind, t.start + n, t.stop + n, t.text⟩

/-- What the tokens are, without places and blanks. -/
def solid (ts : List Token) : List (TokenKind × List Char) :=
  (ts.filter (fun t => t.kind ≠ .whitespace)).map (fun t => (t.kind, t.text))

end Styx.Spec
