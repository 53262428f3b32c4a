import Verif.Tree.TreeSpec
import Verif.Parse.EscapeSpec
import Verif.Parse.HeredocSpec
import Verif.Tokenizer.Spec
import Verif.Parse.PathSpec

/-!
# Specification: the texts of values and documents

`ValueText v e s`: the text `s` is a way of writing the value `v`; `e` says what may follow it.
`RootText es s`: the text `s` is a way of writing a document with the root entries `es`.
The relations leave all freedom of layout: blanks, line breaks, comments, commas between the entries of
objects, and every form of scalars.  Nothing here refers to the tokenizer, the lexer or the parser.
Values carry no spans.
-/

namespace Styx.Spec

/-- A possibly empty run of blanks. -/
def Blanks (b : List Char) : Prop := ∀ c ∈ b, Blank c

/-- A line break. -/
def LineBreak (n : List Char) : Prop := n = ['\n'] ∨ n = ['\r', '\n']

/-- A line comment, without its line break: `//`, not followed by a third slash. -/
def CommentText (t : List Char) : Prop :=
  ∃ r, t = '/' :: '/' :: r ∧ (∀ c ∈ r, c ≠ '\n' ∧ c ≠ '\r') ∧ r.head? ≠ some '/'

/-- What may stand between items: blanks, line breaks, comment lines, and commas if allowed. -/
inductive Gap (commas : Bool) : List Char → Prop
  | nil : Gap commas []
  | blank {c g} : Blank c → Gap commas g → Gap commas (c :: g)
  | newline {n g} : LineBreak n → Gap commas g → Gap commas (n ++ g)
  | comment {t n g} : CommentText t → LineBreak n → Gap commas g → Gap commas (t ++ (n ++ g))
  | comma {g} : commas = true → Gap commas g → Gap commas (',' :: g)

/-- How a text ends: closed by a bracket or quote, a bare word, a heredoc (which needs the end of the
line), or a run of attributes. -/
inductive Tail where
  | closed | word | line
  | attrs (last : Tail)
  deriving DecidableEq, Repr

/-- Blanks, and then the end of the line or of the input, a comma, a closing bracket or a comment. -/
def LineRest (rest : List Char) : Prop :=
  ∃ b u, rest = b ++ u ∧ Blanks b ∧
    (AtLineEnd u ∨ (∃ c r, u = c :: r ∧ c ∈ [',', '}', ')']) ∨ ∃ r, u = '/' :: '/' :: r)

/-- What may follow a text. -/
def Follows : Tail → List Char → Prop
  | .closed, _ => True
  | .word, rest => rest = [] ∨ ∃ c r, rest = c :: r ∧ c ∈ [' ', '\t', '\n', '\r', ',', '}', ')']
  | .line, rest => AtLineEnd rest
  | .attrs last, rest => Follows last rest ∧ LineRest rest

/-- A bare word. -/
def BareText (s : List Char) : Prop :=
  (∀ c ∈ s, c ∉ bareForbidden ∧ isWhitespace c = false) ∧
  (∃ c r, s = c :: r ∧ c ∉ ['=', '@'] ∧ ¬ (c = '/' ∧ r.head? = some '/') ∧
    ¬ (c = 'r' ∧ r.head? = some '#') ∧ ¬ (c = '<' ∧ r.head? = some '<'))

/-- `ScalarText v k e s`: the text `s` is a scalar of kind `k` with value `v`. -/
inductive ScalarText : List Char → ScalarKind → Tail → List Char → Prop
  | bare {s} : BareText s → ScalarText s .bare .word s
  | quoted {body v} : QuotedBody body → Escaped body v →
      ScalarText v .quoted .closed ('"' :: body ++ ['"'])
  | raw {n c} : n ≤ 255 → (∀ a b, c ≠ a ++ '"' :: List.replicate n '#' ++ b) →
      ScalarText c .raw .closed ('r' :: List.replicate n '#' ++ '"' :: c ++ '"' :: List.replicate n '#')
  | heredoc {d lang nl ind : List Char} {ls : List (List Char)} : Delimiter d → LangHint lang → LineBreak nl →
      Blanks ind → (∀ l ∈ ls, '\n' ∉ l ∧ ¬ ClosingLine d l) →
      ScalarText (unlines (ls.map (dedentLine ind.length))) .heredoc .line
        ('<' :: '<' :: d ++ lang ++ nl ++ unlines ls ++ ind ++ d)

/-- The text `s` can follow the tag `@n` as its payload: it begins with a bracket or a quote, or is a raw
string.  (A quote directly after a name ending in `r` would be read as a raw string.) -/
def PayloadStart (n s : List Char) : Prop :=
  ∃ c r, s = c :: r ∧ (c = '(' ∨ c = '{' ∨ (c = '"' ∧ n.tail.getLast? ≠ some 'r') ∨
    (c = 'r' ∧ (r.head? = some '#' ∨ r.head? = some '"')))

/-- A scalar value. -/
def scalarValue (v : List Char) (k : ScalarKind) : Value := .mk none (some (.scalar v k none)) none

/-- The texts of keys. -/
inductive KeyText : Value → Tail → List Char → Prop
  | scalar {v k e s} : ScalarText v k e s → k ≠ .heredoc → KeyText (scalarValue v k) e s
  | unit : KeyText (.mk none none none) .word ['@']
  | tag {n} : TagName n → KeyText (.mk (some ⟨n, none⟩) none none) .word ('@' :: n)
  | tagged {n v k e s} : TagName n → ScalarText v k e s → PayloadStart n s →
      (k = .quoted → '\\' ∉ v) →
      KeyText (.mk (some ⟨n, none⟩) (some (.scalar v k none)) none) e ('@' :: n ++ s)

/-- What makes two keys the same: tag and text. -/
def keyId : Value → Option (List Char) × Option (List Char)
  | .mk t (some (.scalar v _ _)) _ => (t.map (·.name), some v)
  | .mk t _ _ => (t.map (·.name), none)

/-- The key of an entry. -/
def entryKey : Entry → Value
  | .mk k _ _ => k

/-- No two entries have the same key. -/
def DistinctKeys (es : List Entry) : Prop := (es.map fun e => keyId (entryKey e)).Pairwise (· ≠ ·)

/-- Doc comment lines, each followed by a line break and possibly more space. -/
inductive DocLines : List (List Char) → List Char → Prop
  | nil : DocLines [] []
  | cons {l body n g ls t} : (body = ' ' :: l ∨ (body = l ∧ l.head? ≠ some ' ')) →
      (∀ c ∈ l, c ≠ '\n' ∧ c ≠ '\r') → LineBreak n → Gap true g → DocLines ls t →
      DocLines (l :: ls) ('/' :: '/' :: '/' :: body ++ n ++ g ++ t)

/-- The doc comment made of lines. -/
def docOf : List (List Char) → Option (List Char)
  | [] => none
  | ls => some (joined ls)

/-- What may stand between an entry and the end of its line: nothing or a comment. -/
inductive Trailing : List Char → Prop
  | none : Trailing []
  | comment {b c} : Blanks b → CommentText c → Trailing (b ++ c)

/-- An entry ends here: at the end of the line or input, a comma or a closing bracket; a comment only ends
with the line. -/
def EntryEnd (trail rest : List Char) : Prop :=
  if trail = [] then
    ∃ b u, rest = b ++ u ∧ Blanks b ∧ (AtLineEnd u ∨ ∃ c r, u = c :: r ∧ (c = ',' ∨ c = '}'))
  else AtLineEnd rest

/-- A run of attributes is not a value of an attribute. -/
def Tail.notAttrs : Tail → Prop
  | .attrs _ => False
  | _ => True

mutual
/-- The texts of values. -/
inductive ValueText : Value → Tail → List Char → Prop
  | scalar {v k e s} : ScalarText v k e s → ValueText (scalarValue v k) e s
  | unit : ValueText (.mk none none none) .word ['@']
  | tag {n} : TagName n → ValueText (.mk (some ⟨n, none⟩) none none) .word ('@' :: n)
  | tagged {n p e s} : TagName n → ValueText (.mk none (some p) none) e s → PayloadStart n s →
      ValueText (.mk (some ⟨n, none⟩) (some p) none) e ('@' :: n ++ s)
  | sequence {vs t} : ItemsText vs t →
      ValueText (.mk none (some (.sequence vs none)) none) .closed ('(' :: t)
  | object {es t} : EntriesText es t → DistinctKeys es →
      ValueText (.mk none (some (.object es none)) none) .closed ('{' :: t)
  | attributes {es e t} : AttrsText es e t →
      ValueText (.mk none (some (.object es none)) none) (.attrs e) t

/-- The texts of the items of a sequence, with the closing parenthesis. -/
inductive ItemsText : List Value → List Char → Prop
  | nil {g} : Gap false g → ItemsText [] (g ++ [')'])
  | cons {g v e s vs t} : Gap false g → ValueText v e s → ItemsText vs t → Follows e t →
      ItemsText (v :: vs) (g ++ s ++ t)

/-- The texts of the entries of an object, with the closing brace. -/
inductive EntriesText : List Entry → List Char → Prop
  | nil {g} : Gap true g → EntriesText [] (g ++ ['}'])
  | cons {g ls dt k ke ks b v e s tr es t} : Gap true g → DocLines ls dt → KeyText k ke ks →
      Blanks b → b ≠ [] → ValueText v e s → Trailing tr → EntriesText es t → Follows e (tr ++ t) →
      EntryEnd tr t → EntriesText (.mk k v (docOf ls) :: es) (g ++ dt ++ ks ++ b ++ s ++ tr ++ t)
  | lone {g ls dt k ke ks tr es t} : Gap true g → DocLines ls dt → KeyText k ke ks →
      Trailing tr → EntriesText es t → Follows ke (tr ++ t) → EntryEnd tr t →
      EntriesText (.mk k (.mk none none none) (docOf ls) :: es) (g ++ dt ++ ks ++ tr ++ t)

/-- The texts of runs of attributes. -/
inductive AttrsText : List Entry → Tail → List Char → Prop
  | one {k v e s} : BareText k → ValueText v e s → e.notAttrs →
      AttrsText [.mk (scalarValue k .bare) v none] e (k ++ '>' :: s)
  | cons {k v e s b es e' t} : BareText k → ValueText v e s → e.notAttrs → Blanks b →
      AttrsText es e' t → Follows e (b ++ t) →
      AttrsText (.mk (scalarValue k .bare) v none :: es) e' (k ++ '>' :: s ++ b ++ t)
end

/-! ## Documents -/

/-- Segments joined by dots. -/
def dotted : List (List Char) → List Char
  | [] => []
  | [s] => s
  | s :: ss => s ++ '.' :: dotted ss

/-- The name under which a key that is not dotted is tracked at the root. -/
def keyName : Value → List Char
  | .mk (some t) _ _ => '@' :: t.name
  | .mk none (some (.scalar v _ _)) _ => v
  | .mk none _ _ => ['@']

/-- `RootKeyText ks path e s`: the text `s` writes the nested keys `ks` at the root: a bare word stands for
one key per dot-separated segment, any other key for itself. -/
inductive RootKeyText : List Value → List (List Char) → Tail → List Char → Prop
  | path {segs} : segs ≠ [] → (∀ seg ∈ segs, seg ≠ [] ∧ '.' ∉ seg) → BareText (dotted segs) →
      RootKeyText (segs.map fun s => scalarValue s .bare) segs .word (dotted segs)
  | other {k e s} : KeyText k e s → (∀ v, k ≠ scalarValue v .bare) → RootKeyText [k] [keyName k] e s

/-- A root entry: its keys from the outside in, the path they make, its value and its doc comment. -/
structure RootEntry where
  keys : List Value
  path : List (List Char)
  value : Value
  doc : Option (List Char)

/-- The entry made of nested keys. -/
def nestKeys (v : Value) : List Value → Option (List Char) → Entry
  | [], d => .mk (.mk none none none) v d
  | [k], d => .mk k v d
  | k :: ks, d => .mk k (.mk none (some (.object [nestKeys v ks none] none)) none) d

/-- The entry of the tree for a root entry. -/
def RootEntry.tree (e : RootEntry) : Entry := nestKeys e.value e.keys e.doc

/-- The kind of value a path is given: an object without a tag, or something else. -/
def pathKind : Value → PathValueKind
  | .mk none (some (.object _ _)) _ => .object
  | _ => .terminal

/-- The paths of root entries with what they are given. -/
def callsOf (es : List RootEntry) : History := es.map fun e => (e.path, pathKind e.value)

/-- The texts of documents (without braces around the root). -/
inductive RootText : List RootEntry → List Char → Prop
  | nil {g} : Gap true g → RootText [] g
  | cons {g ls dt ks path ke kt b v e s tr es t} : Gap true g → DocLines ls dt → RootKeyText ks path ke kt →
      Blanks b → b ≠ [] → ValueText v e s → Trailing tr → RootText es t → Follows e (tr ++ t) →
      EntryEnd tr t → RootText (⟨ks, path, v, docOf ls⟩ :: es) (g ++ dt ++ kt ++ b ++ s ++ tr ++ t)
  | lone {g ls dt ks path ke kt tr es t} : Gap true g → DocLines ls dt → RootKeyText ks path ke kt →
      Trailing tr → RootText es t → Follows ke (tr ++ t) → EntryEnd tr t →
      RootText (⟨ks, path, .mk none none none, docOf ls⟩ :: es) (g ++ dt ++ kt ++ tr ++ t)

end Styx.Spec
