import Verif.Tokenizer.Model

/-!
# Specification: the brackets that are open at a point of a document
-/

namespace Styx.Spec

/-- The two kinds of brackets. -/
inductive Bracket where
  | brace
  | paren
  deriving DecidableEq, Repr

/-- The open brackets after a token, innermost first: an opening bracket is added, a closing bracket takes the
innermost one if it is of its kind, and is ignored otherwise. -/
def afterToken (s : List Bracket) : TokenKind → List Bracket
  | .lbrace => .brace :: s
  | .lparen => .paren :: s
  | .rbrace => match s with
    | .brace :: r => r
    | _ => s
  | .rparen => match s with
    | .paren :: r => r
    | _ => s
  | _ => s

/-- The open brackets after some tokens. -/
def openAfter : List Bracket → List Token → List Bracket
  | s, [] => s
  | s, t :: ts => openAfter (afterToken s t.kind) ts

/-- A closing bracket. -/
def Closer (k : TokenKind) : Prop := k = .rbrace ∨ k = .rparen

/-- An opening bracket. -/
def Opener (k : TokenKind) : Prop := k = .lbrace ∨ k = .lparen

/-- A closing bracket stands after a `>`, blanks aside. -/
def LooseGt (ts : List Token) : Prop :=
  ∃ pre g ws t post, ts = pre ++ g :: (ws ++ t :: post) ∧ g.kind = .gt ∧ (∀ w ∈ ws, w.kind = .whitespace) ∧ Closer t.kind

/-- `n` brackets are open at this byte offset, after the first token that reaches up to it or beyond. -/
def OpenAt (ts : List Token) (offset n : Nat) : Prop :=
  ∃ pre t post, ts = pre ++ t :: post ∧ utf8Len (pre.flatMap (·.text)) < offset ∧
    offset ≤ utf8Len (pre.flatMap (·.text)) + utf8Len t.text ∧ n = (openAfter [] (pre ++ [t])).length

/-- The text of `n` steps of indentation in an editor set to spaces or tabs. -/
def indentation (n tabSize : Nat) (spaces : Bool) : List Char :=
  if spaces then List.replicate (n * tabSize) ' ' else List.replicate n '\t'

end Styx.Spec
