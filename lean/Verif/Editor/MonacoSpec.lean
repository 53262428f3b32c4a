import Verif.Editor.Monaco
import Verif.Text.Grammar

/-!
# Specification: coloured documents

`PRoot es t`: the coloured text `t` is a document with the root entries `es` in which every character has the colour of what it
is: keys those of keys, values those of values, at every depth.  The relations follow the grammar of documents
(`Verif.Text.Grammar`) and add a colour to each character; they do not refer to the tokens provider.  Not covered: attributes,
quoted strings over several lines, raw strings without hashes, and raw strings directly behind a tag.
-/

namespace Styx.Monaco

open Styx.Spec

/-- The colour of each character of a line: that of the last token that starts at it or before it.  (Monaco colours the text
from the start of a token to the start of the next.) -/
def colourAt (ts : List Token) (i : Nat) : Option Scope := (ts.filter (·.1 ≤ i)).getLast?.map (·.2)

/-- A text with a colour for each character. -/
abbrev Painted := List (Char × Option Scope)

/-- A line painted with tokens. -/
def paint (ts : List Token) (line : List Char) : Painted := line.zipIdx.map fun p => (p.1, colourAt ts p.2)

/-- The lines of a text. -/
def linesOf : List Char → List (List Char)
  | [] => [[]]
  | c :: cs =>
    if c = '\n' then [] :: linesOf cs
    else match linesOf cs with
      | [] => [[c]]
      | l :: ls => (c :: l) :: ls

/-- Lines painted one after the other, from a state; line breaks have no colour. -/
def colourLines (st : St) : List (List Char) → Painted
  | [] => []
  | [l] => paint (tokenize l st).1 l
  | l :: ls => paint (tokenize l st).1 l ++ ('\n', none) :: colourLines (tokenize l st).2 ls

/-- A document as the editor paints it. -/
def colours (doc : List Char) : Painted := colourLines initial (linesOf doc)

/-! ## Coloured documents -/

/-- Text of one colour. -/
def ink (c : Scope) (s : List Char) : Painted := s.map fun x => (x, some c)

/-- Text of one colour, over several lines. -/
def inkLines (c : Scope) (s : List Char) : Painted := s.map fun x => (x, if x = '\n' then none else some c)

/-- The text without the colours. -/
def text (p : Painted) : List Char := p.map (·.1)

/-- A line break. -/
def brk : Painted := [('\n', none)]

/-- The inside of a quoted string: a backslash and the character behind it have the colour of escapes. -/
def inkBody (c : Scope) : List Char → Painted
  | '\\' :: x :: s => ('\\', some .stringEscape) :: (x, some .stringEscape) :: inkBody c s
  | x :: s => (x, some c) :: inkBody c s
  | [] => []

/-- The colour of bare words. -/
def wordColour (key : Bool) : Scope := if key then .key else .value

/-- The colour of strings. -/
def stringColour (key : Bool) : Scope := if key then .stringKey else .string

/-- The colour of tags. -/
def tagColour (key : Bool) : Scope := if key then .tagKey else .tag

/-- What may stand between items. -/
inductive PGap (commas : Bool) : Painted → Prop
  | nil : PGap commas []
  | blank {c g} : Blank c → PGap commas g → PGap commas (ink .white [c] ++ g)
  | newline {g} : PGap commas g → PGap commas (brk ++ g)
  | comment {t g} : CommentText t → PGap commas g → PGap commas (ink .comment t ++ (brk ++ g))
  | comma {g} : commas = true → PGap commas g → PGap commas (ink .delimiterComma [','] ++ g)

/-- A line that holds nothing but the delimiter and white space. -/
def LooseClosing (d l : List Char) : Prop :=
  ∃ a b, l = a ++ d ++ b ∧ ∀ c ∈ a ++ b, isWhitespace c = true

/-- Scalars. -/
inductive PScalar (key : Bool) : List Char → ScalarKind → Tail → Painted → Prop
  | bare {s} : BareText s → PScalar key s .bare .word (ink (wordColour key) s)
  | quoted {body v} : QuotedBody body → Escaped body v → '\n' ∉ body →
      PScalar key v .quoted .closed
        (ink (stringColour key) ['"'] ++ inkBody (stringColour key) body ++ ink (stringColour key) ['"'])
  | raw {n c} : 0 < n → n ≤ 255 → (∀ a b, c ≠ a ++ '"' :: List.replicate n '#' ++ b) →
      PScalar key c .raw .closed (inkLines (stringColour key)
        ('r' :: List.replicate n '#' ++ '"' :: c ++ '"' :: List.replicate n '#'))
  | heredoc {d lang ind : List Char} {ls : List (List Char)} : key = false → Delimiter d → LangHint lang →
      Blanks ind → (∀ l ∈ ls, '\n' ∉ l ∧ ¬ LooseClosing d l) →
      PScalar key (unlines (ls.map (dedentLine ind.length))) .heredoc .line
        (inkLines .stringHeredoc ('<' :: '<' :: d ++ lang ++ ['\n'] ++ unlines ls ++ ind ++ d))

/-- A payload of a tag that begins with a bracket or a quote. -/
def PayloadMark (n s : List Char) : Prop :=
  ∃ c r, s = c :: r ∧ (c = '(' ∨ c = '{' ∨ (c = '"' ∧ n.tail.getLast? ≠ some 'r'))

/-- Keys. -/
inductive PKey : Value → Tail → Painted → Prop
  | scalar {v k e s} : PScalar true v k e s → PKey (scalarValue v k) e s
  | unit : PKey (.mk none none none) .word (ink .tagKey ['@'])
  | tag {n} : TagName n → PKey (.mk (some ⟨n, none⟩) none none) .word (ink .tagKey ('@' :: n))
  | tagged {n v k e s} : TagName n → PScalar true v k e s → PayloadMark n (text s) → (k = .quoted → '\\' ∉ v) →
      PKey (.mk (some ⟨n, none⟩) (some (.scalar v k none)) none) e (ink .tagKey ('@' :: n) ++ s)

/-- Doc comment lines, each followed by a line break and possibly more space. -/
inductive PDoc : List (List Char) → Painted → Prop
  | nil : PDoc [] []
  | cons {l body g ls t} : (body = ' ' :: l ∨ (body = l ∧ l.head? ≠ some ' ')) →
      (∀ c ∈ l, c ≠ '\n' ∧ c ≠ '\r') → PGap true g → PDoc ls t →
      PDoc (l :: ls) (ink .commentDoc ('/' :: '/' :: '/' :: body) ++ brk ++ g ++ t)

/-- What may stand between an entry and the end of its line: nothing or a comment. -/
inductive PTrailing : Painted → Prop
  | none : PTrailing []
  | comment {b c} : Blanks b → CommentText c → PTrailing (ink .white b ++ ink .comment c)

mutual
/-- Values. -/
inductive PValue : Value → Tail → Painted → Prop
  | scalar {v k e s} : PScalar false v k e s → PValue (scalarValue v k) e s
  | unit : PValue (.mk none none none) .word (ink .tag ['@'])
  | tag {n} : TagName n → PValue (.mk (some ⟨n, none⟩) none none) .word (ink .tag ('@' :: n))
  | tagged {n p e s} : TagName n → PValue (.mk none (some p) none) e s → PayloadMark n (text s) →
      PValue (.mk (some ⟨n, none⟩) (some p) none) e (ink .tag ('@' :: n) ++ s)
  | sequence {vs t} : PItems vs t →
      PValue (.mk none (some (.sequence vs none)) none) .closed (ink .delimiterParen ['('] ++ t)
  | object {es t} : PEntries es t → DistinctKeys es →
      PValue (.mk none (some (.object es none)) none) .closed (ink .delimiterCurly ['{'] ++ t)

/-- The items of a sequence, with the closing parenthesis. -/
inductive PItems : List Value → Painted → Prop
  | nil {g} : PGap false g → PItems [] (g ++ ink .delimiterParen [')'])
  | cons {g v e s vs t} : PGap false g → PValue v e s → PItems vs t → Follows e (text t) →
      PItems (v :: vs) (g ++ s ++ t)

/-- The entries of an object, with the closing brace. -/
inductive PEntries : List Entry → Painted → Prop
  | nil {g} : PGap true g → PEntries [] (g ++ ink .delimiterCurly ['}'])
  | cons {g ls dt k ke ks b v e s tr es t} : PGap true g → PDoc ls dt → PKey k ke ks →
      Blanks b → b ≠ [] → PValue v e s → PTrailing tr → PEntries es t → Follows e (text (tr ++ t)) →
      EntryEnd (text tr) (text t) →
      PEntries (.mk k v (docOf ls) :: es) (g ++ dt ++ ks ++ ink .white b ++ s ++ tr ++ t)
  | lone {g ls dt k ke ks tr es t} : PGap true g → PDoc ls dt → PKey k ke ks →
      PTrailing tr → PEntries es t → Follows ke (text (tr ++ t)) → EntryEnd (text tr) (text t) →
      PEntries (.mk k (.mk none none none) (docOf ls) :: es) (g ++ dt ++ ks ++ tr ++ t)
end

/-- Keys at the root. -/
inductive PRootKey : List Value → List (List Char) → Tail → Painted → Prop
  | path {segs} : segs ≠ [] → (∀ seg ∈ segs, seg ≠ [] ∧ '.' ∉ seg) → BareText (dotted segs) →
      PRootKey (segs.map fun s => scalarValue s .bare) segs .word (ink .key (dotted segs))
  | other {k e s} : PKey k e s → (∀ v, k ≠ scalarValue v .bare) → PRootKey [k] [keyName k] e s

/-- Documents. -/
inductive PRoot : List RootEntry → Painted → Prop
  | nil {g} : PGap true g → PRoot [] g
  | cons {g ls dt ks path ke kt b v e s tr es t} : PGap true g → PDoc ls dt → PRootKey ks path ke kt →
      Blanks b → b ≠ [] → PValue v e s → PTrailing tr → PRoot es t → Follows e (text (tr ++ t)) →
      EntryEnd (text tr) (text t) →
      PRoot (⟨ks, path, v, docOf ls⟩ :: es) (g ++ dt ++ kt ++ ink .white b ++ s ++ tr ++ t)
  | lone {g ls dt ks path ke kt tr es t} : PGap true g → PDoc ls dt → PRootKey ks path ke kt →
      PTrailing tr → PRoot es t → Follows ke (text (tr ++ t)) → EntryEnd (text tr) (text t) →
      PRoot (⟨ks, path, .mk none none none, docOf ls⟩ :: es) (g ++ dt ++ kt ++ tr ++ t)

/-- The text has no carriage return, no other line separator and no byte order mark, about which the editor and the parser do
not agree. -/
def PlainText (s : List Char) : Prop := ∀ c ∈ s, c ≠ '\r' ∧ c ≠ '\u2028' ∧ c ≠ '\u2029' ∧ c ≠ '\ufeff'

end Styx.Monaco
