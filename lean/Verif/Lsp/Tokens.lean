import Verif.Lsp.Model

/-!
# Model of the semantic tokens and of the highlighting in the terminal

Source: crates/styx-lsp/src/semantic_tokens.rs and crates/styx-cli/src/main.rs.

Simplifications: offsets, lines, columns and lengths are natural numbers, so the model is of documents below
4 GiB.  The functions that walk over the tree are one function over a table: the table says for every way of
visiting a node and every kind of child whether the child is passed over, reported, or visited in turn and how.
-/

namespace Styx.Lsp

open Styx Styx.Cst

/-- crates/styx-lsp/src/semantic_tokens.rs:7-26 `TokenType`. -/
inductive TokenType where
  | comment | string | number | keyword | type | enumMember | property | operator
  deriving DecidableEq, Repr

/-- The discriminants, crates/styx-lsp/src/semantic_tokens.rs:9-26. -/
def TokenType.code : TokenType → Nat
  | .comment => 0
  | .string => 1
  | .number => 2
  | .keyword => 3
  | .type => 4
  | .enumMember => 5
  | .property => 6
  | .operator => 7

/-- crates/styx-lsp/src/semantic_tokens.rs:98-109 `HighlightSpan`; for the tokens of the editor `doc`
is the bit of the modifier `Documentation` (0 or 1, lines 48-53, 451-452). -/
structure HlSpan where
  start : Nat
  stop : Nat
  type : TokenType
  doc : Bool
  deriving DecidableEq, Repr

/-- The ways of visiting a node: `walk` is `walk_node` / `walk_node_for_spans` with the flag
`in_sequence` (semantic_tokens.rs:346-469, 148-248); the others are the loops over the children of
nodes inside a KEY (251-323, 473-554). -/
inductive Mode where
  | walk (inSeq : Bool)
  | scalars (inSeq : Bool)
  | tagKey
  | tagValue
  | units
  deriving DecidableEq, Repr

/-- What happens with a child. -/
inductive Act where
  | skip
  | emit (ty : TokenType) (doc : Bool)
  | visit (mode : Mode)
  deriving DecidableEq, Repr

/-- What a child is: a token or a node, with its kind. -/
inductive Head where
  | tok (k : SyntaxKind)
  | nod (k : SyntaxKind)
  deriving DecidableEq, Repr

/-- crates/styx-lsp/src/semantic_tokens.rs:557-562 `is_scalar_token`. -/
def isScalarToken : SyntaxKind → Bool
  | .BARE_SCALAR | .QUOTED_SCALAR | .RAW_SCALAR => true
  | _ => false

/-- The branch `_` of both walks: crates/styx-lsp/src/semantic_tokens.rs:229-246, 442-467. -/
def otherChild (inSeq : Bool) : Head → Act
  | .tok .LINE_COMMENT => .emit .comment false
  | .tok .DOC_COMMENT => .emit .comment true
  | .tok _ => .skip
  | .nod _ => .visit (.walk inSeq)

/-- Children of the nodes that both functions treat alike: TAG, SEQUENCE, UNIT, SCALAR
(crates/styx-lsp/src/semantic_tokens.rs:158-193, 358-401). -/
def commonChild (inSeq : Bool) (parent : SyntaxKind) (h : Head) : Act :=
  match parent, h with
  | .TAG, .tok .TAG_TOKEN => .emit .type false
  | .TAG, .nod .TAG_PAYLOAD => .visit (.walk inSeq)
  | .SEQUENCE, .nod _ => .visit (.walk true)
  | .UNIT, .tok .TAG_TOKEN | .UNIT, .tok .AT => .emit .type false
  | .SCALAR, .tok k => if isScalarToken k then .emit .string false else .skip
  | _, _ => .skip

/-- The loops over the children of a SCALAR, a TAG or a UNIT inside a KEY
(crates/styx-lsp/src/semantic_tokens.rs:256-283, 294-314, 484-503, 519-539). -/
def innerChild : Mode → Head → Act
  | .scalars inSeq, .tok k =>
    if isScalarToken k then .emit (if inSeq then .string else .property) false else .skip
  | .tagKey, .tok .TAG_TOKEN => .emit .property false
  | .tagValue, .tok .TAG_TOKEN => .emit .type false
  | .tagValue, .nod .TAG_PAYLOAD => .visit (.walk false)
  | .units, .tok .TAG_TOKEN | .units, .tok .AT => .emit .type false
  | _, _ => .skip

/-- crates/styx-lsp/src/semantic_tokens.rs:345-469 `walk_node` with `collect_key_tokens` (473-506) and
`collect_key_tokens_as_values` (510-554): what happens with a child of a node of kind `parent`. -/
def tokenChild (mode : Mode) (parent : SyntaxKind) (h : Head) : Act :=
  match mode with
  | .walk inSeq =>
    match parent, h with
    | .KEY, .tok k =>
      if isScalarToken k then .emit (if inSeq then .string else .property) false else .skip
    | .KEY, .nod .SCALAR => .visit (.scalars inSeq)
    | .KEY, .nod .TAG => .visit (if inSeq then .tagValue else .tagKey)
    | .KEY, .nod .SEQUENCE => if inSeq then .visit (.walk true) else .skip
    | .KEY, .nod .OBJECT => if inSeq then .visit (.walk false) else .skip
    | .KEY, _ => .skip
    | .TAG, _ | .SEQUENCE, _ | .UNIT, _ | .SCALAR, _ => commonChild inSeq parent h
    | .HEREDOC, .tok .HEREDOC_START | .HEREDOC, .tok .HEREDOC_END => .emit .operator false
    | .HEREDOC, _ => .skip
    | .ATTRIBUTE, .tok .GT => .emit .operator false
    | .ATTRIBUTE, .tok k => if isScalarToken k then .emit .property false else .skip
    | .ATTRIBUTE, .nod _ => .visit (.walk inSeq)
    | _, _ => otherChild inSeq h
  | m => innerChild m h

/-- crates/styx-lsp/src/semantic_tokens.rs:148-248 `walk_node_for_spans` with `collect_key_spans`
(251-287) and `collect_key_spans_as_values` (290-323).  In an ATTRIBUTE a KEY is visited outside of
sequences (218-224). -/
def spanChild (mode : Mode) (parent : SyntaxKind) (h : Head) : Act :=
  match mode with
  | .walk inSeq =>
    match parent, h with
    | .KEY, .nod .SCALAR => .visit (.scalars inSeq)
    | .KEY, .nod .TAG => .visit (if inSeq then .walk true else .tagKey)
    | .KEY, .nod .UNIT => .visit .units
    | .KEY, .nod .SEQUENCE => if inSeq then .visit (.walk true) else .skip
    | .KEY, .nod .OBJECT => if inSeq then .visit (.walk false) else .skip
    | .KEY, _ => .skip
    | .TAG, _ | .SEQUENCE, _ | .UNIT, _ | .SCALAR, _ => commonChild inSeq parent h
    | .HEREDOC, .tok .HEREDOC_START | .HEREDOC, .tok .HEREDOC_END => .emit .operator false
    | .HEREDOC, .tok .HEREDOC_CONTENT => .emit .string false
    | .HEREDOC, _ => .skip
    | .ATTRIBUTE, .tok .GT => .emit .operator false
    | .ATTRIBUTE, .tok _ => .skip
    | .ATTRIBUTE, .nod .KEY => .visit (.walk false)
    | .ATTRIBUTE, .nod _ => .visit (.walk inSeq)
    | _, _ => otherChild inSeq h
  | m => innerChild m h

mutual
/-- The walk over a node in a mode, by a table; `off` is the byte offset of the element
(crates/styx-lsp/src/semantic_tokens.rs:148-342, 345-584). -/
def collect (act : Mode → SyntaxKind → Head → Act) (mode : Mode) (off : Nat) : Green → List HlSpan
  | .token _ _ => []
  | .node k cs => collectL act mode k off cs
/-- The loop over the children of a node. -/
def collectL (act : Mode → SyntaxKind → Head → Act) (mode : Mode) (parent : SyntaxKind) (off : Nat) :
    List Green → List HlSpan
  | [] => []
  | .token k t :: gs =>
    (match act mode parent (.tok k) with
      | .emit ty doc => [⟨off, off + utf8Len t, ty, doc⟩]
      | _ => []) ++ collectL act mode parent (off + utf8Len t) gs
  | .node k cs :: gs =>
    (match act mode parent (.nod k) with
      | .visit m => collect act m off (.node k cs)
      | _ => []) ++ collectL act mode parent (off + utf8Len (Green.texts cs)) gs
end

/-- Inserting an element before the first that is not less. -/
def insertBy {α : Type} (le : α → α → Bool) (a : α) : List α → List α
  | [] => [a]
  | b :: bs => if le a b then a :: b :: bs else b :: insertBy le a bs

/-- A stable sort, for `slice::sort_by` and `slice::sort_by_key`
(crates/styx-lsp/src/semantic_tokens.rs:132, 144). -/
def sortBy {α : Type} (le : α → α → Bool) : List α → List α
  | [] => []
  | a :: as => insertBy le a (sortBy le as)

/-- crates/styx-lsp/src/semantic_tokens.rs:88-96 `RawToken`; `modifiers` is a bit set. -/
structure RawToken where
  line : Nat
  startChar : Nat
  length : Nat
  type : Nat
  modifiers : Nat
  deriving DecidableEq, Repr

/-- crates/styx-lsp/src/semantic_tokens.rs:565-586 `add_token_from_syntax`. -/
def rawToken (content : List Char) (h : HlSpan) : RawToken :=
  let p := offsetToPosition content h.start
  ⟨p.line, p.character, h.stop - h.start, h.type.code, if h.doc then 1 else 0⟩

/-- The order of crates/styx-lsp/src/semantic_tokens.rs:132. -/
def RawToken.le (a b : RawToken) : Bool :=
  decide (a.line < b.line) || (a.line == b.line && decide (a.startChar ≤ b.startChar))

/-- `lsp_types::SemanticToken`. -/
structure SemToken where
  deltaLine : Nat
  deltaStart : Nat
  length : Nat
  type : Nat
  modifiers : Nat
  deriving DecidableEq, Repr

/-- `a - b` of unsigned numbers: a panic, here `none`, when it underflows. -/
def checkedSub (a b : Nat) : Option Nat := if b ≤ a then some (a - b) else none

/-- crates/styx-lsp/src/semantic_tokens.rs:609-635 `encode_tokens`; `none` is a panic. -/
def encodeLoop : Nat → Nat → List RawToken → Option (List SemToken)
  | _, _, [] => some []
  | prevLine, prevStart, t :: ts => do
    let deltaLine ← checkedSub t.line prevLine
    let deltaStart ← if deltaLine = 0 then checkedSub t.startChar prevStart else some t.startChar
    let rest ← encodeLoop t.line t.startChar ts
    some (⟨deltaLine, deltaStart, t.length, t.type, t.modifiers⟩ :: rest)

/-- crates/styx-lsp/src/semantic_tokens.rs:609-635 `encode_tokens`. -/
def encodeTokens (ts : List RawToken) : Option (List SemToken) := encodeLoop 0 0 ts

/-- The raw tokens of a document in the order of the walk
(crates/styx-lsp/src/semantic_tokens.rs:119-129). -/
def rawTokens (g : Green) : List RawToken :=
  (collect tokenChild (.walk false) 0 g).map (rawToken g.text)

/-- crates/styx-lsp/src/semantic_tokens.rs:119-136 `compute_semantic_tokens`. -/
def computeSemanticTokens (g : Green) : Option (List SemToken) :=
  encodeTokens (sortBy RawToken.le (rawTokens g))

/-- crates/styx-lsp/src/semantic_tokens.rs:139-146 `compute_highlight_spans`. -/
def computeHighlightSpans (g : Green) : List HlSpan :=
  sortBy (fun a b => decide (a.start ≤ b.start)) (collect spanChild (.walk false) 0 g)

/-- crates/styx-cli/src/main.rs:1010-1021: the colours; the escape character is `\x1b`. -/
def esc (s : List Char) : List Char := Char.ofNat 0x1b :: '[' :: s ++ ['m']

/-- crates/styx-cli/src/main.rs:1011 `RESET`. -/
def reset : List Char := esc ['0']

/-- crates/styx-cli/src/main.rs:1024-1038 `ansi_color_for_token`. -/
def ansiColor (ty : TokenType) (doc : Bool) : List Char :=
  if doc then esc (chars! "38;5;71")
  else match ty with
    | .comment => esc (chars! "38;5;243")
    | .string => esc (chars! "38;5;214")
    | .number => esc (chars! "38;5;141")
    | .keyword => esc (chars! "38;5;203")
    | .type => esc (chars! "38;5;80")
    | .enumMember => esc (chars! "38;5;80")
    | .property => esc (chars! "38;5;75")
    | .operator => esc (chars! "38;5;203")

/-- crates/styx-cli/src/main.rs:1049-1073: the loop of `highlight_styx`, and what follows it; `none` is
a panic. -/
def highlightLoop (source : List Char) : Nat → List HlSpan → Option (List Char)
  | lastEnd, [] =>
    if lastEnd < utf8Len source then dropBytes lastEnd source else some []
  | lastEnd, sp :: sps => do
    let plain ← (if sp.start > lastEnd then sliceBytes source lastEnd sp.start else some [])
    let text ← sliceBytes source sp.start sp.stop
    let rest ← highlightLoop source sp.stop sps
    some (plain ++ ansiColor sp.type sp.doc ++ text ++ reset ++ rest)

/-- crates/styx-cli/src/main.rs:1041-1074 `highlight_styx`; `none` is a panic. -/
def highlightStyx (source : List Char) : Option (List Char) :=
  let spans := computeHighlightSpans (Cst.parse source).green
  if spans.isEmpty then some source else highlightLoop source 0 spans

end Styx.Lsp
