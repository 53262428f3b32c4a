import Verif.Basic

/-!
# Specification of escape sequences in quoted strings

Written without reference to the scanning functions of the model.
-/

namespace Styx.Spec

/-- `c` is a hexadecimal digit of value `d`. -/
def HexDigit (c : Char) (d : Nat) : Prop :=
  (∃ k < 10, c = Char.ofNat ('0'.toNat + k) ∧ d = k) ∨
  (∃ k < 6, c = Char.ofNat ('a'.toNat + k) ∧ d = 10 + k) ∨
  (∃ k < 6, c = Char.ofNat ('A'.toNat + k) ∧ d = 10 + k)

/-- `s` is a (possibly empty) string of hexadecimal digits denoting `n`, most significant first. -/
inductive HexNumber : List Char → Nat → Prop
  | nil : HexNumber [] 0
  | snoc {s n c d} : HexNumber s n → HexDigit c d → HexNumber (s ++ [c]) (16 * n + d)

/-- `Escaped raw value`: the text `raw` between the quotes denotes `value`.  The escapes are
`\\ \" \n \r \t`, `\uXXXX` with exactly four and `\u{X…}` with one or more hexadecimal digits; the
number of a unicode escape is that of a Unicode scalar value. -/
inductive Escaped : List Char → List Char → Prop
  | nil : Escaped [] []
  | plain {c raw v} : c ≠ '\\' → Escaped raw v → Escaped (c :: raw) (c :: v)
  | simple {e d raw v} :
      (e, d) ∈ [('\\', '\\'), ('"', '"'), ('n', '\n'), ('r', '\r'), ('t', '\t')] →
      Escaped raw v → Escaped ('\\' :: e :: raw) (d :: v)
  | four {h c raw v} : h.length = 4 → HexNumber h c.toNat → Escaped raw v →
      Escaped ('\\' :: 'u' :: h ++ raw) (c :: v)
  | braced {h c raw v} : h ≠ [] → HexNumber h c.toNat → Escaped raw v →
      Escaped ('\\' :: 'u' :: '{' :: h ++ '}' :: raw) (c :: v)

/-- The texts for which the parser reports no invalid escape: as `Escaped`, except that `\u` needs
only three digits, that `\u{…}` may be empty and that the number need not be that of a character. -/
inductive Lenient : List Char → Prop
  | nil : Lenient []
  | plain {c raw} : c ≠ '\\' → Lenient raw → Lenient (c :: raw)
  | simple {e raw} : e ∈ ['\\', '"', 'n', 'r', 't'] → Lenient raw → Lenient ('\\' :: e :: raw)
  | three {h n raw} : h.length = 3 → HexNumber h n → Lenient raw → Lenient ('\\' :: 'u' :: h ++ raw)
  | braced {h n raw} : HexNumber h n → Lenient raw → Lenient ('\\' :: 'u' :: '{' :: h ++ '}' :: raw)

/-- Behind a `\u{` in the text, and before the next `}`, is a character that begins before the ninth byte and ends behind
it. -/
def CutEscape (s : List Char) : Prop :=
  ∃ a w c b, s = a ++ '\\' :: 'u' :: '{' :: w ++ c :: b ∧ '}' ∉ w ∧ utf8Len w < 9 ∧ 9 < utf8Len w + c.utf8Size

end Styx.Spec
