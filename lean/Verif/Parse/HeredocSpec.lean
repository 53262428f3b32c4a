import Verif.Tokenizer.Spec

/-!
# Specification of heredocs

Written without reference to the scanning functions of the model.
-/

namespace Styx.Spec

/-- A space or a tab. -/
def Blank (c : Char) : Prop := c = ' ' ∨ c = '\t'

instance (c : Char) : Decidable (Blank c) := inferInstanceAs (Decidable (_ ∨ _))

/-- A line that would close a heredoc with delimiter `d`: blanks, the delimiter, possibly a CR. -/
def ClosingLine (d l : List Char) : Prop :=
  ∃ ind, (∀ c ∈ ind, Blank c) ∧ (l = ind ++ d ∨ l = ind ++ d ++ ['\r'])

/-- The text of complete lines: each line is followed by LF. -/
def unlines (ls : List (List Char)) : List Char := ls.flatMap (· ++ ['\n'])

/-- Remove up to `n` leading blanks. -/
def dedentLine : Nat → List Char → List Char
  | n + 1, c :: cs => if Blank c then dedentLine n cs else c :: cs
  | _, l => l

/-- A language hint: nothing, or a comma and `[a-z][a-z0-9_.-]*`. -/
def LangHint (l : List Char) : Prop :=
  l = [] ∨ ∃ c r, l = ',' :: c :: r ∧ c.isLower = true ∧
    ∀ x ∈ r, x.isLower = true ∨ x.isDigit = true ∨ x = '_' ∨ x = '.' ∨ x = '-'

/-- What may follow a closing delimiter: end of input or a line break. -/
def AtLineEnd (rest : List Char) : Prop :=
  rest = [] ∨ (∃ r, rest = '\n' :: r) ∨ ∃ r, rest = '\r' :: '\n' :: r

/-- A raw string that stands for `v`: an `r`, hashes, a quote, `v`, a quote and as many hashes, where `v`
does not itself have a quote with that many hashes behind it. -/
def RawFor (text v : List Char) : Prop :=
  ∃ n, text = 'r' :: List.replicate n '#' ++ '"' :: v ++ '"' :: List.replicate n '#' ∧
    ∀ a b, v ≠ a ++ '"' :: List.replicate n '#' ++ b

/-- A heredoc that stands for `v`: `<<`, a delimiter, perhaps a comma and a language, perhaps a line break,
complete lines of which none closes the heredoc, blanks and the delimiter again; `v` is the lines, each
without as many leading blanks (at most) as there are before the closing delimiter. -/
def HeredocFor (text v : List Char) : Prop :=
  ∃ d lang nl ls ind, text = '<' :: '<' :: d ++ lang ++ nl ++ unlines ls ++ ind ++ d ∧ Delimiter d ∧
    (lang = [] ∨ ∃ l, lang = ',' :: l ∧
      (l = [] ∨ ∃ c r, l = c :: r ∧ c.isLower = true ∧
        ∀ x ∈ r, x.isLower = true ∨ x.isDigit = true ∨ x = '_' ∨ x = '.' ∨ x = '-')) ∧
    (nl = [] ∨ nl = ['\n'] ∨ nl = ['\r', '\n'] ∨ nl = ['\r']) ∧
    (∀ l ∈ ls, '\n' ∉ l ∧ ¬ ClosingLine d l) ∧ (∀ c ∈ ind, Blank c) ∧
    v = unlines (ls.map (dedentLine ind.length))

end Styx.Spec
