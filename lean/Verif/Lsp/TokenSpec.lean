import Verif.Lsp.Tokens
import Verif.Lsp.Spec
import Verif.Cst.Spec

/-!
# Specification: semantic tokens of the protocol, and coloured text (C40, C45)
-/

namespace Styx.Spec

open Styx Styx.Lsp Styx.Cst

/-- A token as an editor sees it: where it is, how long it is, its type and its modifiers. -/
structure EdToken where
  line : Nat
  column : Nat
  length : Nat
  type : Nat
  modifiers : Nat
  deriving DecidableEq, Repr

/-- How an editor decodes the tokens (protocol, section "Semantic Tokens"): the line is relative to the
token before; the column too when that is on the same line; the first token is relative to the start of the
document. -/
def decodeFrom (line column : Nat) : List SemToken → List EdToken
  | [] => []
  | t :: ts =>
    let l := line + t.deltaLine
    let c := if t.deltaLine = 0 then column + t.deltaStart else t.deltaStart
    ⟨l, c, t.length, t.type, t.modifiers⟩ :: decodeFrom l c ts

/-- See `decodeFrom`. -/
def decode (ts : List SemToken) : List EdToken := decodeFrom 0 0 ts

/-- The first of two tokens does not start after the second. -/
def NotAfter (a b : RawToken) : Prop :=
  a.line < b.line ∨ (a.line = b.line ∧ a.startChar ≤ b.startChar)

/-- The types that the tokens of the source may get: comments are comments, doc comments with
the modifier; scalars are strings or property names; tags are types or property names; `>` and the
delimiters of heredocs are operators; nothing else is reported. -/
def typeOf : SyntaxKind → List (Nat × Nat)
  | .LINE_COMMENT => [(0, 0)]
  | .DOC_COMMENT => [(0, 1)]
  | .BARE_SCALAR | .QUOTED_SCALAR | .RAW_SCALAR => [(1, 0), (6, 0)]
  | .TAG_TOKEN => [(4, 0), (6, 0)]
  | .AT => [(4, 0)]
  | .GT | .HEREDOC_START | .HEREDOC_END => [(7, 0)]
  | _ => []

/-- The line and the column (in characters) after a text. -/
def lineColumn (before : List Char) : Nat × Nat :=
  (before.count '\n', (before.reverse.takeWhile (· != '\n')).length)

/-- Some of the leaves of a tree, in order, as tokens for the editor: each is where the leaf is, as long in
bytes as the leaf, and of a type for its kind.  `before` is the text before the leaves. -/
inductive Picked : List Char → List (SyntaxKind × List Char) → List EdToken → Prop
  | nil {before} : Picked before [] []
  | skip {before l ls ts} : Picked (before ++ l.2) ls ts → Picked before (l :: ls) ts
  | take {before l ls ts ty m} : (ty, m) ∈ typeOf l.1 → Picked (before ++ l.2) ls ts →
      Picked before (l :: ls) (⟨(lineColumn before).1, (lineColumn before).2, utf8Len l.2, ty, m⟩ :: ts)

/-- The colours: an escape sequence each. -/
def colours : List (List Char) :=
  [chars! "38;5;243", chars! "38;5;71", chars! "38;5;214", chars! "38;5;141", chars! "38;5;203",
    chars! "38;5;80", chars! "38;5;75"].map fun n => Char.ofNat 27 :: '[' :: n ++ ['m']

/-- The second text is the first with some of its parts in colour. -/
inductive Coloured : List Char → List Char → Prop
  | nil : Coloured [] []
  | plain {s o} (c : Char) : Coloured s o → Coloured (c :: s) (c :: o)
  | colour {s o} (k t : List Char) : k ∈ colours → Coloured s o →
      Coloured (t ++ s) (k ++ t ++ [Char.ofNat 27, '[', '0', 'm'] ++ o)

/-- What a terminal shows: the text without escape sequences `ESC [ … m`. -/
def shownFrom (inside : Bool) : List Char → List Char
  | [] => []
  | c :: cs =>
    if inside then shownFrom (c != 'm') cs
    else if c = Char.ofNat 27 then shownFrom true cs
    else c :: shownFrom false cs

/-- See `shownFrom`. -/
def shown (s : List Char) : List Char := shownFrom false s

end Styx.Spec
