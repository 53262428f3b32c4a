import Verif.Cst.Parser
import Verif.Tokenizer.Spec

/-!
# Specifications for the concrete syntax tree (C26, C27)
-/

namespace Styx.Spec

open Styx Styx.Cst

mutual
/-- The leaves of a tree from left to right, each with its kind and its text. -/
def leaves : Green → List (SyntaxKind × List Char)
  | .token k t => [(k, t)]
  | .node _ cs => leavesL cs
/-- The leaves of a list of trees. -/
def leavesL : List Green → List (SyntaxKind × List Char)
  | [] => []
  | g :: gs => leaves g ++ leavesL gs
end

/-- The leaf or leaves that stand for a token: a token is a leaf with its own kind and text, except
that a chain of tags `@a/@b/@c` is one token but the leaves `@a`, `/`, `@b`, `/`, `@c`. -/
inductive TokenLeaves : Token → List (SyntaxKind × List Char) → Prop
  | one {t : Token} : t.kind ≠ .tag → TokenLeaves t [(SyntaxKind.ofToken t.kind, t.text)]
  | chain {t : Token} (n : List Char) (ns : List (List Char)) :
      t.kind = .tag → t.text = '@' :: n ++ (ns.map (['/', '@'] ++ ·)).flatten →
      '/' ∉ n → (∀ m ∈ ns, '/' ∉ m) →
      TokenLeaves t ((.TAG_TOKEN, '@' :: n) ::
        (ns.map (fun m => [(.SLASH, ['/']), (.TAG_TOKEN, '@' :: m)])).flatten)

/-- Every token of a list stands as leaf (or leaves) in order, and there is nothing else. -/
inductive TokensLeaves : List Token → List (SyntaxKind × List Char) → Prop
  | nil : TokensLeaves [] []
  | cons {t ts l ls} : TokenLeaves t l → TokensLeaves ts ls → TokensLeaves (t :: ts) (l ++ ls)

/-- What the text of a leaf of each kind looks like; the kinds of inner nodes have no leaves. -/
def LeafText : SyntaxKind → List Char → Prop
  | .L_BRACE, s => s = ['{']
  | .R_BRACE, s => s = ['}']
  | .L_PAREN, s => s = ['(']
  | .R_PAREN, s => s = [')']
  | .COMMA, s => s = [',']
  | .GT, s => s = ['>']
  | .AT, s => s = ['@']
  | .TAG_TOKEN, s => ∃ n, s = '@' :: n ∧ TagName n
  | .SLASH, s => s = ['/']
  | .BARE_SCALAR, s => s ≠ [] ∧ ∀ c ∈ s, c ∉ bareForbidden ∧ isWhitespace c = false
  | .QUOTED_SCALAR, s => ∃ body, s = '"' :: body ++ ['"'] ∧ QuotedBody body
  | .RAW_SCALAR, s => ∃ n body, s = 'r' :: List.replicate n '#' ++ '"' :: body ++ '"' :: List.replicate (min n 255) '#'
  | .HEREDOC_START, s => ∃ d r, s = '<' :: '<' :: d ++ r ∧ Delimiter d ∧
      (∀ c r', r = c :: r' → c = ',' ∨ c = '\n' ∨ c = '\r')
  | .HEREDOC_CONTENT, s => ∃ r, s = r ++ ['\n']
  | .HEREDOC_END, s => ∃ ind d, s = ind ++ d ∧ (∀ c ∈ ind, c = ' ' ∨ c = '\t') ∧ Delimiter d
  | .LINE_COMMENT, s => ∃ r, s = '/' :: '/' :: r ∧ r.head? ≠ some '/' ∧ '\n' ∉ r ∧ '\r' ∉ r
  | .DOC_COMMENT, s => ∃ r, s = '/' :: '/' :: '/' :: r ∧ '\n' ∉ r ∧ '\r' ∉ r
  | .WHITESPACE, s => s ≠ [] ∧ ∀ c ∈ s, c = ' ' ∨ c = '\t'
  | .NEWLINE, s => s = ['\n'] ∨ s = ['\r', '\n']
  | .EOF, s => s = []
  | .ERROR, _ => True
  | _, _ => False

end Styx.Spec
