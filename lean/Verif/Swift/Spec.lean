import Verif.Impl.Spec
import Verif.Swift.Lexer

/-!
# Specification: the documents that the Swift implementation reads as the others do

The shared documents of `Verif.Impl.Spec`, restricted further: lines end with LF; no escape `\u{…}` has more than six
digits; the second character of the delimiter of a heredoc is a letter, and in a heredoc no line has only white space of
any kind before the delimiter; no string directly behind the tag `@r`; attributes are separated by blanks; no key of an
object is without value; between two entries of an object is at most one comma, and none before the first, between doc
comments and their entries or at the root.
-/

namespace Styx.Spec

/-- What is assumed about the Unicode properties of characters: what is white space, and the classes of the ASCII
characters. -/
structure Standard (U : Swift.Classes) : Prop where
  space : ∀ c, U.isWhitespace c = isWhitespace c
  upper : ∀ c, c.toNat < 128 → U.isUppercase c = c.isUpper
  lower : ∀ c, c.toNat < 128 → U.isLowercase c = c.isLower
  number : ∀ c, c.toNat < 128 → U.isNumber c = c.isDigit
  letter : ∀ c, c.toNat < 128 → U.isLetter c = c.isAlpha

/-- Space without commas in which lines end with LF. -/
def LfGap (g : List Char) : Prop := Gap false g ∧ '\r' ∉ g

/-- No escape `\u{…}` has more than six digits. -/
def ShortEscapes (body : List Char) : Prop :=
  ∀ a h b, body = a ++ '\\' :: 'u' :: '{' :: h ++ '}' :: b → '}' ∉ h → h.length ≤ 6

/-- The second character of a delimiter is a letter. -/
def SecondUpper (d : List Char) : Prop := ∃ c, d.tail.head? = some c ∧ c.isUpper = true

/-- Scalars. -/
inductive SwiftScalar : List Char → ScalarKind → Tail → List Char → Prop
  | bare {s} : BareText s → SwiftScalar s .bare .word s
  | quoted {body v} : QuotedBody body → '\n' ∉ body → '\r' ∉ body → Escaped body v → ShortEscapes body →
      SwiftScalar v .quoted .closed ('"' :: body ++ ['"'])
  | raw {n c} : n ≤ 255 → (∀ a b, c ≠ a ++ '"' :: List.replicate n '#' ++ b) →
      SwiftScalar c .raw .closed ('r' :: List.replicate n '#' ++ '"' :: c ++ '"' :: List.replicate n '#')
  | heredoc {d lang ind : List Char} {ls : List (List Char)} : Delimiter d → SecondUpper d → LangHint lang →
      Blanks ind → (∀ l ∈ ls, '\n' ∉ l ∧ '\r' ∉ l ∧ ¬ ∃ w, (∀ c ∈ w, isWhitespace c = true) ∧ l = w ++ d) →
      SwiftScalar (unlines (ls.map (dedentLine ind.length))) .heredoc .line
        ('<' :: '<' :: d ++ lang ++ ['\n'] ++ unlines ls ++ ind ++ d)

/-- The text `s` can follow the tag `@n` as its payload: it begins with a bracket or a quote. -/
def SwiftPayload (n s : List Char) : Prop :=
  ∃ c r, s = c :: r ∧ (c = '(' ∨ c = '{' ∨ (c = '"' ∧ n.getLast? ≠ some 'r'))

/-- Keys. -/
inductive SwiftKey : Value → Tail → List Char → Prop
  | scalar {v k e s} : SwiftScalar v k e s → k ≠ .heredoc → SwiftKey (scalarValue v k) e s
  | unit : SwiftKey (.mk none none none) .word ['@']
  | tag {n} : TagName n → SwiftKey (.mk (some ⟨n, none⟩) none none) .word ('@' :: n)
  | tagged {n v k e s} : TagName n → SwiftScalar v k e s → SwiftPayload n s → (k = .quoted → '\\' ∉ v) →
      SwiftKey (.mk (some ⟨n, none⟩) (some (.scalar v k none)) none) e ('@' :: n ++ s)

/-- What may stand before an entry of an object: space, with a comma in it if that is allowed. -/
def EntrySpace (comma : Bool) (g : List Char) : Prop :=
  LfGap g ∨ (comma = true ∧ ∃ g1 g2, g = g1 ++ ',' :: g2 ∧ LfGap g1 ∧ LfGap g2)

/-- Doc comment lines, each followed by LF and possibly more space. -/
inductive LfDocLines : List (List Char) → List Char → Prop
  | nil : LfDocLines [] []
  | cons {l body g ls t} : (body = ' ' :: l ∨ (body = l ∧ l.head? ≠ some ' ')) →
      (∀ c ∈ l, c ≠ '\n' ∧ c ≠ '\r') → LfGap g → LfDocLines ls t →
      LfDocLines (l :: ls) ('/' :: '/' :: '/' :: body ++ ['\n'] ++ g ++ t)

mutual
/-- Values. -/
inductive SwiftValue : Value → Tail → List Char → Prop
  | scalar {v k e s} : SwiftScalar v k e s → SwiftValue (scalarValue v k) e s
  | unit : SwiftValue (.mk none none none) .word ['@']
  | tag {n} : TagName n → SwiftValue (.mk (some ⟨n, none⟩) none none) .word ('@' :: n)
  | tagged {n p e s} : TagName n → SwiftValue (.mk none (some p) none) e s → SwiftPayload n s →
      SwiftValue (.mk (some ⟨n, none⟩) (some p) none) e ('@' :: n ++ s)
  | sequence {vs t} : SwiftItems vs t →
      SwiftValue (.mk none (some (.sequence vs none)) none) .closed ('(' :: t)
  | object {es t} : SwiftEntries false es t → DistinctKeys es → DistinctLabels es →
      SwiftValue (.mk none (some (.object es none)) none) .closed ('{' :: t)
  | attributes {es e t} : SwiftAttrs es e t →
      SwiftValue (.mk none (some (.object es none)) none) (.attrs e) t

/-- The items of a sequence, with the closing parenthesis. -/
inductive SwiftItems : List Value → List Char → Prop
  | nil {g} : LfGap g → SwiftItems [] (g ++ [')'])
  | cons {g v e s vs t} : LfGap g → SwiftValue v e s → SwiftItems vs t → SharedFollows e t →
      SwiftItems (v :: vs) (g ++ s ++ t)

/-- The entries of an object, with the closing brace. -/
inductive SwiftEntries : Bool → List Entry → List Char → Prop
  | nil {c g} : EntrySpace c g → SwiftEntries c [] (g ++ ['}'])
  | cons {c g ls dt k ke ks b v e s tr es t} : EntrySpace c g → LfDocLines ls dt → SwiftKey k ke ks → Dotless k →
      Blanks b → b ≠ [] → SwiftValue v e s → Trailing tr → SwiftEntries true es t → SharedFollows e (tr ++ t) →
      EntryEnd tr t → SwiftEntries c (.mk k v (docOf ls) :: es) (g ++ dt ++ ks ++ b ++ s ++ tr ++ t)

/-- Runs of attributes. -/
inductive SwiftAttrs : List Entry → Tail → List Char → Prop
  | one {k v e s} : BareText k → SwiftValue v e s → e.notAttrs →
      SwiftAttrs [.mk (scalarValue k .bare) v none] e (k ++ '>' :: s)
  | cons {k v e s b es e' t} : BareText k → SwiftValue v e s → e.notAttrs → Blanks b → b ≠ [] →
      SwiftAttrs es e' t → SharedFollows e (b ++ t) →
      SwiftAttrs (.mk (scalarValue k .bare) v none :: es) e' (k ++ '>' :: s ++ b ++ t)
end

/-- Keys at the root. -/
inductive SwiftRootKey : List Value → List (List Char) → Tail → List Char → Prop
  | path {segs} : segs ≠ [] → (∀ seg ∈ segs, seg ≠ [] ∧ '.' ∉ seg) → BareText (dotted segs) →
      SwiftRootKey (segs.map fun s => scalarValue s .bare) segs .word (dotted segs)
  | other {k e s} : SwiftKey k e s → (∀ v, k ≠ scalarValue v .bare) →
      (∀ t p, k ≠ .mk (some t) (some p) none) → '.' ∉ keyName k → SwiftRootKey [k] [keyName k] e s

/-- Documents without braces around the root. -/
inductive SwiftRoot : List RootEntry → List Char → Prop
  | nil {g} : LfGap g → SwiftRoot [] g
  | cons {g ls dt ks path ke kt b v e s tr es t} : LfGap g → LfDocLines ls dt → SwiftRootKey ks path ke kt →
      Blanks b → b ≠ [] → SwiftValue v e s → Trailing tr → SwiftRoot es t → SharedFollows e (tr ++ t) →
      EntryEnd tr t → SwiftRoot (⟨ks, path, v, docOf ls⟩ :: es) (g ++ dt ++ kt ++ b ++ s ++ tr ++ t)
  | lone {g ls dt ks seg ke kt tr es t} : LfGap g → LfDocLines ls dt → SwiftRootKey ks [seg] ke kt →
      Trailing tr → SwiftRoot es t → SharedFollows ke (tr ++ t) → LoneEnd tr t →
      SwiftRoot (⟨ks, [seg], .mk none none none, docOf ls⟩ :: es) (g ++ dt ++ kt ++ tr ++ t)

/-- The paths of root entries that the Swift implementation looks at, with what they are given. -/
def allPaths (es : List RootEntry) : History := es.map fun e => (e.path, objectKind e.value)

end Styx.Spec
