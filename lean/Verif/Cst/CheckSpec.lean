import Verif.Cst.Check
import Verif.Text.Grammar

/-! # Specification: which keys are given twice

A part of a concrete syntax tree is given with the number of bytes before it.  Only the trees and the record of a
diagnostic are taken from the model. -/

namespace Styx.Spec

open Styx Styx.Cst

/-- `Placed root n g`: the node or token `g` is a part of the tree `root`, and `n` bytes of text come before it. -/
inductive Placed (root : Green) : Nat → Green → Prop
  | root : Placed root 0 root
  | child {n k pre g post} : Placed root n (.node k (pre ++ g :: post)) →
      Placed root (n + utf8Len (Green.texts pre)) g

/-- `Spelled raw v`: the text `raw` between quotes stands for `v` if only the escapes of one letter are resolved and
anything else is left as it is. -/
inductive Spelled : List Char → List Char → Prop
  | nil : Spelled [] []
  | plain {c raw v} : c ≠ '\\' → Spelled raw v → Spelled (c :: raw) (c :: v)
  | simple {e d raw v} :
      (e, d) ∈ [('\\', '\\'), ('"', '"'), ('n', '\n'), ('r', '\r'), ('t', '\t')] →
      Spelled raw v → Spelled ('\\' :: e :: raw) (d :: v)
  | other {e raw v} : e ∉ ['\\', '"', 'n', 'r', 't'] → Spelled raw v → Spelled ('\\' :: e :: raw) ('\\' :: e :: v)
  | last : Spelled ['\\'] ['\\']

/-- `TokenSpells k t v`: a scalar token of kind `k` and text `t` stands for `v`: bare words and raw strings for
their text (with the quotes of the raw string), quoted strings for what is between the quotes. -/
inductive TokenSpells : SyntaxKind → List Char → List Char → Prop
  | bare {t} : TokenSpells .BARE_SCALAR t t
  | raw {t} : TokenSpells .RAW_SCALAR t t
  | quoted {body v} : Spelled body v → TokenSpells .QUOTED_SCALAR ('"' :: body ++ ['"']) v
  | broken {t v} : (∀ body, t ≠ '"' :: body ++ ['"']) → Spelled t v → TokenSpells .QUOTED_SCALAR t v

/-- The kinds of scalar tokens. -/
def scalarKinds : List SyntaxKind := [.BARE_SCALAR, .QUOTED_SCALAR, .RAW_SCALAR]

/-- The element is neither a scalar nor a scalar token. -/
def NotScalar : Green → Prop
  | .token k _ => k ∉ scalarKinds
  | .node k _ => k ≠ .SCALAR

/-- `KeySpells cs v`: the first scalar among the elements `cs` of a key stands for `v`.  (The parser puts at most
one element into a key.) -/
inductive KeySpells : List Green → List Char → Prop
  | token {pre k t post v} : (∀ g ∈ pre, NotScalar g) → TokenSpells k t v →
      KeySpells (pre ++ .token k t :: post) v
  | node {pre pre' k t post' post v} : (∀ g ∈ pre, NotScalar g) →
      (∀ g ∈ pre', ∀ k t, g = .token k t → k ∉ scalarKinds) → TokenSpells k t v →
      KeySpells (pre ++ .node .SCALAR (pre' ++ .token k t :: post') :: post) v

/-- `EntryKey n cs m key`: in an entry with the elements `cs` that has `n` bytes before it, the key has the elements
`key` and `m` bytes before it. -/
def EntryKey (n : Nat) (cs : List Green) (m : Nat) (key : List Green) : Prop :=
  ∃ pre post, cs = pre ++ .node .KEY key :: post ∧ (∀ x ∈ pre, ∀ ds, x ≠ .node .KEY ds) ∧
    m = n + utf8Len (Green.texts pre)

/-- The warning for the key `v` at the bytes from `a` to `b`. -/
def duplicateWarning (a b : Nat) (v : List Char) : Diagnostic :=
  ⟨a, b, .warning, chars! "duplicate key: `" ++ v ++ ['`']⟩

/-- The warning for an object at the bytes from `a` to `b`. -/
def mixedWarning (a b : Nat) : Diagnostic :=
  ⟨a, b, .warning, chars! "object uses mixed separators (both commas and newlines)"⟩

/-- `GivenTwice root a b v`: in the tree `root` there is a document or object with two entries whose keys stand for
`v`, which is not empty, and the second of these keys is at the bytes from `a` to `b`. -/
def GivenTwice (root : Green) (a b : Nat) (v : List Char) : Prop :=
  ∃ n k pre e1 mid e2 post, Placed root n (.node k (pre ++ .node .ENTRY e1 :: mid ++ .node .ENTRY e2 :: post)) ∧
    (k = .DOCUMENT ∨ k = .OBJECT) ∧ v ≠ [] ∧
    (∃ n' m' key', EntryKey n' e1 m' key' ∧ KeySpells key' v) ∧
    ∃ key, EntryKey (n + utf8Len (Green.texts (pre ++ .node .ENTRY e1 :: mid))) e2 a key ∧ KeySpells key v ∧
      b = a + utf8Len (Green.texts key)

/-- `MixedObject root a b`: in the tree `root` there is an object at the bytes from `a` to `b` with both a comma and a
line break among its elements. -/
def MixedObject (root : Green) (a b : Nat) : Prop :=
  ∃ cs t t', Placed root a (.node .OBJECT cs) ∧ .token .COMMA t ∈ cs ∧ .token .NEWLINE t' ∈ cs ∧
    b = a + utf8Len (Green.texts cs)

/-! ## Documents -/

/-- Nowhere in the text is a backslash followed by `u`. -/
def NoUnicodeEscape (t : List Char) : Prop := ∀ a b, t ≠ a ++ '\\' :: 'u' :: b

/-- The key is not a raw string. -/
def NotRawKey : Value → Prop
  | .mk none (some (.scalar _ k _)) _ => k ≠ .raw
  | _ => True

mutual
/-- No key of an object in the value is a raw string. -/
def NoRawKeys : Value → Prop
  | .mk _ (some (.sequence items _)) _ => NoRawKeysItems items
  | .mk _ (some (.object es _)) _ => NoRawKeysEntries es
  | _ => True
/-- … in all items. -/
def NoRawKeysItems : List Value → Prop
  | [] => True
  | v :: vs => NoRawKeys v ∧ NoRawKeysItems vs
/-- … and the keys of all entries are not raw strings. -/
def NoRawKeysEntries : List Entry → Prop
  | [] => True
  | .mk k v _ :: es => NotRawKey k ∧ NoRawKeys v ∧ NoRawKeysEntries es
end

/-- A root key that is a bare word (perhaps with dots) or a quoted string without dots. -/
def WordKey (e : RootEntry) : Prop :=
  (∀ k ∈ e.keys, ∃ v, k = scalarValue v .bare) ∨ ∃ v, e.keys = [scalarValue v .quoted] ∧ '.' ∉ v

end Styx.Spec
