import Verif.Text.Grammar

/-!
# Specification: the documents that all implementations read alike

The grammar of `Verif.Text.Grammar`, restricted to what the Python, JavaScript and Go implementations understand as
the Rust implementation does.  The restrictions are: no line break in a quoted string; only LF around heredocs; no
raw string directly behind a tag; no dots in the keys of objects; keys of objects differ in their text (not only in
text and tag); at the root, a dotted key has a value, other keys have no dots, and no key is a tag with a string; a key without
value is not followed by a comma.  `PathsInOrder` says which paths the root entries may have.
-/

namespace Styx.Spec

/-- What may follow a text. -/
def SharedFollows : Tail → List Char → Prop
  | .line, rest => rest = [] ∨ ∃ r, rest = '\n' :: r
  | .attrs last, rest => SharedFollows last rest ∧ LineRest rest
  | .closed, rest => Follows .closed rest
  | .word, rest => Follows .word rest

/-- Scalars. -/
inductive SharedScalar : List Char → ScalarKind → Tail → List Char → Prop
  | bare {s} : BareText s → SharedScalar s .bare .word s
  | quoted {body v} : QuotedBody body → '\n' ∉ body → '\r' ∉ body → Escaped body v →
      SharedScalar v .quoted .closed ('"' :: body ++ ['"'])
  | raw {n c} : n ≤ 255 → (∀ a b, c ≠ a ++ '"' :: List.replicate n '#' ++ b) →
      SharedScalar c .raw .closed ('r' :: List.replicate n '#' ++ '"' :: c ++ '"' :: List.replicate n '#')
  | heredoc {d lang ind : List Char} {ls : List (List Char)} : Delimiter d → LangHint lang →
      Blanks ind → (∀ l ∈ ls, '\n' ∉ l ∧ ¬ ClosingLine d l) →
      SharedScalar (unlines (ls.map (dedentLine ind.length))) .heredoc .line
        ('<' :: '<' :: d ++ lang ++ ['\n'] ++ unlines ls ++ ind ++ d)

/-- The text `s` can follow the tag `@n` as its payload: it begins with a bracket or a quote. -/
def SharedPayload (n s : List Char) : Prop :=
  ∃ c r, s = c :: r ∧ (c = '(' ∨ c = '{' ∨ (c = '"' ∧ n.tail.getLast? ≠ some 'r'))

/-- Keys. -/
inductive SharedKey : Value → Tail → List Char → Prop
  | scalar {v k e s} : SharedScalar v k e s → k ≠ .heredoc → SharedKey (scalarValue v k) e s
  | unit : SharedKey (.mk none none none) .word ['@']
  | tag {n} : TagName n → SharedKey (.mk (some ⟨n, none⟩) none none) .word ('@' :: n)
  | tagged {n v k e s} : TagName n → SharedScalar v k e s → SharedPayload n s → (k = .quoted → '\\' ∉ v) →
      SharedKey (.mk (some ⟨n, none⟩) (some (.scalar v k none)) none) e ('@' :: n ++ s)

/-- A bare key has no dots. -/
def Dotless (k : Value) : Prop := ∀ v, k = scalarValue v .bare → '.' ∉ v

/-- The text of a key: that of its scalar, or else its tag. -/
def keyLabel : Value → Option (List Char)
  | .mk _ (some (.scalar v _ _)) _ => some v
  | .mk (some t) none _ => some ('@' :: t.name)
  | _ => none

/-- No two entries have keys with the same text. -/
def DistinctLabels (es : List Entry) : Prop := (es.filterMap fun e => keyLabel (entryKey e)).Pairwise (· ≠ ·)

/-- An entry without value ends here: at the end of the line or input, or at a closing brace. -/
def LoneEnd (trail rest : List Char) : Prop :=
  if trail = [] then ∃ b u, rest = b ++ u ∧ Blanks b ∧ (AtLineEnd u ∨ ∃ r, u = '}' :: r)
  else AtLineEnd rest

mutual
/-- Values. -/
inductive SharedValue : Value → Tail → List Char → Prop
  | scalar {v k e s} : SharedScalar v k e s → SharedValue (scalarValue v k) e s
  | unit : SharedValue (.mk none none none) .word ['@']
  | tag {n} : TagName n → SharedValue (.mk (some ⟨n, none⟩) none none) .word ('@' :: n)
  | tagged {n p e s} : TagName n → SharedValue (.mk none (some p) none) e s → SharedPayload n s →
      SharedValue (.mk (some ⟨n, none⟩) (some p) none) e ('@' :: n ++ s)
  | sequence {vs t} : SharedItems vs t →
      SharedValue (.mk none (some (.sequence vs none)) none) .closed ('(' :: t)
  | object {es t} : SharedEntries es t → DistinctKeys es → DistinctLabels es →
      SharedValue (.mk none (some (.object es none)) none) .closed ('{' :: t)
  | attributes {es e t} : SharedAttrs es e t →
      SharedValue (.mk none (some (.object es none)) none) (.attrs e) t

/-- The items of a sequence, with the closing parenthesis. -/
inductive SharedItems : List Value → List Char → Prop
  | nil {g} : Gap false g → SharedItems [] (g ++ [')'])
  | cons {g v e s vs t} : Gap false g → SharedValue v e s → SharedItems vs t → SharedFollows e t →
      SharedItems (v :: vs) (g ++ s ++ t)

/-- The entries of an object, with the closing brace. -/
inductive SharedEntries : List Entry → List Char → Prop
  | nil {g} : Gap true g → SharedEntries [] (g ++ ['}'])
  | cons {g ls dt k ke ks b v e s tr es t} : Gap true g → DocLines ls dt → SharedKey k ke ks → Dotless k →
      Blanks b → b ≠ [] → SharedValue v e s → Trailing tr → SharedEntries es t → SharedFollows e (tr ++ t) →
      EntryEnd tr t → SharedEntries (.mk k v (docOf ls) :: es) (g ++ dt ++ ks ++ b ++ s ++ tr ++ t)
  | lone {g ls dt k ke ks tr es t} : Gap true g → DocLines ls dt → SharedKey k ke ks → Dotless k →
      Trailing tr → SharedEntries es t → SharedFollows ke (tr ++ t) → LoneEnd tr t →
      SharedEntries (.mk k (.mk none none none) (docOf ls) :: es) (g ++ dt ++ ks ++ tr ++ t)

/-- Runs of attributes. -/
inductive SharedAttrs : List Entry → Tail → List Char → Prop
  | one {k v e s} : BareText k → SharedValue v e s → e.notAttrs →
      SharedAttrs [.mk (scalarValue k .bare) v none] e (k ++ '>' :: s)
  | cons {k v e s b es e' t} : BareText k → SharedValue v e s → e.notAttrs → Blanks b →
      SharedAttrs es e' t → SharedFollows e (b ++ t) →
      SharedAttrs (.mk (scalarValue k .bare) v none :: es) e' (k ++ '>' :: s ++ b ++ t)
end

/-- Keys at the root. -/
inductive SharedRootKey : List Value → List (List Char) → Tail → List Char → Prop
  | path {segs} : segs ≠ [] → (∀ seg ∈ segs, seg ≠ [] ∧ '.' ∉ seg) → BareText (dotted segs) →
      SharedRootKey (segs.map fun s => scalarValue s .bare) segs .word (dotted segs)
  | other {k e s} : SharedKey k e s → (∀ v, k ≠ scalarValue v .bare) →
      (∀ t p, k ≠ .mk (some t) (some p) none) → '.' ∉ keyName k → SharedRootKey [k] [keyName k] e s

/-- Documents without braces around the root. -/
inductive SharedRoot : List RootEntry → List Char → Prop
  | nil {g} : Gap true g → SharedRoot [] g
  | cons {g ls dt ks path ke kt b v e s tr es t} : Gap true g → DocLines ls dt → SharedRootKey ks path ke kt →
      Blanks b → b ≠ [] → SharedValue v e s → Trailing tr → SharedRoot es t → SharedFollows e (tr ++ t) →
      EntryEnd tr t → SharedRoot (⟨ks, path, v, docOf ls⟩ :: es) (g ++ dt ++ kt ++ b ++ s ++ tr ++ t)
  | lone {g ls dt ks seg ke kt tr es t} : Gap true g → DocLines ls dt → SharedRootKey ks [seg] ke kt →
      Trailing tr → SharedRoot es t → SharedFollows ke (tr ++ t) → LoneEnd tr t →
      SharedRoot (⟨ks, [seg], .mk none none none, docOf ls⟩ :: es) (g ++ dt ++ kt ++ tr ++ t)

/-- The paths of the root entries are in order.  Of two paths the later one is not the earlier one or a part of it,
and only goes on from the earlier one if that was given an object.  And paths with a common beginning stand together:
whatever stands between two of them has that beginning too. -/
def PathsInOrder (h : History) : Prop :=
  (∀ x y, [x, y].Sublist h → ¬ y.1 <+: x.1 ∧ (x.1 <+: y.1 → x.2 = .object)) ∧
  ∀ x y z q, [x, y, z].Sublist h → q ≠ [] → q <+: x.1 → q <+: z.1 → q <+: y.1

/-- The kind of value a path is given for the other implementations: an object, with a tag or without, or something
else. -/
def objectKind : Value → PathValueKind
  | .mk _ (some (.object _ _)) _ => .object
  | _ => .terminal

/-- The path of a root entry that the other implementations look at: none for the key `@`, and in Go none for an empty
key. -/
def watchedPath (go : Bool) (keys : List Value) (path : List (List Char)) : Option (List (List Char)) :=
  match keys with
  | [.mk none none _] => none
  | _ => if go = true ∧ path = [[]] then none else some path

/-- The paths of root entries that the other implementations look at, with what they are given. -/
def watched (go : Bool) (es : List RootEntry) : History :=
  es.filterMap fun e => (watchedPath go e.keys e.path).map fun p => (p, objectKind e.value)

mutual
/-- The value without spans and doc comments. -/
def shed : Value → Value
  | .mk t p _ => .mk (t.map fun t => ⟨t.name, none⟩) (shedPayload p) none
/-- The payload without spans and doc comments. -/
def shedPayload : Option Payload → Option Payload
  | none => none
  | some (.scalar text k _) => some (.scalar text k none)
  | some (.sequence items _) => some (.sequence (shedAll items) none)
  | some (.object es _) => some (.object (shedEntries es) none)
/-- The items without spans and doc comments. -/
def shedAll : List Value → List Value
  | [] => []
  | v :: vs => shed v :: shedAll vs
/-- The entries without spans and doc comments. -/
def shedEntries : List Entry → List Entry
  | [] => []
  | .mk k v _ :: es => .mk (shed k) (shed v) none :: shedEntries es
end

end Styx.Spec
