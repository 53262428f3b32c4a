import Verif.Tokenizer.Model
import Verif.Parse.Escapes

/-!
# Model of the parser for concrete syntax trees

Source: crates/styx-cst/src/{parser.rs, syntax_kind.rs}.

Simplifications, common to all definitions of this file:
* `rowan::GreenNodeBuilder` is not modelled as a stack of open nodes: a function that adds elements to
  the current node returns the list of these elements, and a function that opens and closes a node
  returns the node with the elements added in between.
* The token iterator (parser.rs:82-101) with its `Peekable` is the list of the tokens that it will
  still yield, the end-of-file token included.
* `u32` offsets are `Nat`s; the messages of errors are constructors of a type.
* Recursion and loops that call each other take fuel, `none` when it runs out; that it never does is
  part of `C27_cst_terminates`.  Depth of the native stack is not modelled.
-/

namespace Styx.Cst

open Styx

/-- crates/styx-cst/src/syntax_kind.rs:17-100 `SyntaxKind`, without the marker `__LAST_TOKEN`.  The
kinds of tokens come first. -/
inductive SyntaxKind where
  | L_BRACE | R_BRACE | L_PAREN | R_PAREN | COMMA | GT | AT | TAG_TOKEN | SLASH
  | BARE_SCALAR | QUOTED_SCALAR | RAW_SCALAR | HEREDOC_START | HEREDOC_CONTENT | HEREDOC_END
  | LINE_COMMENT | DOC_COMMENT | WHITESPACE | NEWLINE | EOF | ERROR
  | DOCUMENT | ENTRY | OBJECT | SEQUENCE | SCALAR | UNIT | TAG | TAG_NAME | TAG_PAYLOAD
  | KEY | VALUE | HEREDOC | ATTRIBUTES | ATTRIBUTE
  deriving DecidableEq, Repr

/-- crates/styx-cst/src/syntax_kind.rs:123-148 `From<TokenKind> for SyntaxKind`. -/
def SyntaxKind.ofToken : TokenKind → SyntaxKind
  | .lbrace => .L_BRACE
  | .rbrace => .R_BRACE
  | .lparen => .L_PAREN
  | .rparen => .R_PAREN
  | .comma => .COMMA
  | .gt => .GT
  | .at => .AT
  | .tag => .TAG_TOKEN
  | .bareScalar => .BARE_SCALAR
  | .quotedScalar => .QUOTED_SCALAR
  | .rawScalar => .RAW_SCALAR
  | .heredocStart => .HEREDOC_START
  | .heredocContent => .HEREDOC_CONTENT
  | .heredocEnd => .HEREDOC_END
  | .lineComment => .LINE_COMMENT
  | .docComment => .DOC_COMMENT
  | .whitespace => .WHITESPACE
  | .newline => .NEWLINE
  | .eof => .EOF
  | .error => .ERROR

/-- An element of a green tree: `rowan::NodeOrToken` of `GreenNode` and `GreenToken`
(crates/styx-cst/src/syntax_kind.rs:218-225 for the typed views). -/
inductive Green where
  | token (kind : SyntaxKind) (text : List Char)
  | node (kind : SyntaxKind) (children : List Green)
  deriving Repr

mutual
/-- `SyntaxNode::to_string`, `SyntaxToken::text`: the text below an element
(used as `AstNode::text`, crates/styx-cst/src/ast.rs:17-19). -/
def Green.text : Green → List Char
  | .token _ t => t
  | .node _ cs => Green.texts cs
/-- The texts of a list of elements, in order (crates/styx-cst/src/ast.rs:17-19). -/
def Green.texts : List Green → List Char
  | [] => []
  | g :: gs => g.text ++ Green.texts gs
end

/-- The messages of `ParseError` (crates/styx-cst/src/parser.rs:49-64); the comment gives the line
of the message. -/
inductive Msg where
  /-- parser.rs:292 -/
  | tooManyAtoms
  /-- parser.rs:340 -/
  | expectedGt
  /-- parser.rs:349 -/
  | spaceAfterGt
  /-- parser.rs:379 -/
  | unexpected (kind : TokenKind)
  /-- parser.rs:404 -/
  | unclosedObject
  /-- parser.rs:424 -/
  | unclosedSequence
  /-- parser.rs:522 -/
  | unterminatedHeredoc
  deriving DecidableEq, Repr

/-- crates/styx-cst/src/parser.rs:49-55 `ParseError`. -/
structure PErr where
  offset : Nat
  msg : Msg
  deriving DecidableEq, Repr

/-- crates/styx-cst/src/parser.rs:72-80 `CstParser`: the tokens to come and the errors so far.  The
`source` is passed to the functions that look at it. -/
structure St where
  toks : List Token
  errors : List PErr
  deriving DecidableEq, Repr

/-- crates/styx-cst/src/parser.rs:125-128 `peek`. -/
def St.peek (st : St) : TokenKind := (st.toks.head?.map (·.kind)).getD .eof

/-- crates/styx-cst/src/parser.rs:135-138 `current_pos`. -/
def St.pos (st : St) : Nat := (st.toks.head?.map (·.start)).getD 0

/-- `self.errors.push(ParseError::new(pos, msg))` with the current position
(e.g. crates/styx-cst/src/parser.rs:337-341). -/
def St.err (st : St) (m : Msg) : St := { st with errors := st.errors ++ [⟨st.pos, m⟩] }

/-- crates/styx-cst/src/parser.rs:140-146 `bump`. -/
def St.bump (st : St) : List Green × St :=
  match st.toks with
  | [] => ([], st)
  | t :: ts => ([.token (SyntaxKind.ofToken t.kind) t.text], { st with toks := ts })

/-- A loop `while p(self.peek()) { self.bump() }`. -/
def bumpWhile (p : TokenKind → Bool) : List Token → List Green × List Token
  | [] => ([], [])
  | t :: ts =>
    if p t.kind then
      let (g, ts') := bumpWhile p ts
      (.token (SyntaxKind.ofToken t.kind) t.text :: g, ts')
    else ([], t :: ts)

/-- See `bumpWhile`. -/
def St.bumpWhile (st : St) (p : TokenKind → Bool) : List Green × St :=
  let (g, ts) := Cst.bumpWhile p st.toks
  (g, { st with toks := ts })

/-- crates/styx-cst/src/parser.rs:150-153, the tokens of `skip_trivia`. -/
def isTrivia : TokenKind → Bool
  | .whitespace | .newline | .lineComment => true
  | _ => false

/-- crates/styx-cst/src/parser.rs:148-156 `skip_trivia`. -/
def St.skipTrivia (st : St) : List Green × St := st.bumpWhile isTrivia

/-- crates/styx-cst/src/parser.rs:158-163 `skip_whitespace`. -/
def St.skipWs (st : St) : List Green × St := st.bumpWhile (· == .whitespace)

/-- crates/styx-cst/src/parser.rs:165-168 `at_eof`. -/
def St.atEof (st : St) : Bool := st.peek == .eof

/-- crates/styx-cst/src/parser.rs:170-178 `at_entry_end`. -/
def St.atEntryEnd (st : St) (closing : Option TokenKind) : Bool :=
  st.peek == .eof || st.peek == .newline || st.peek == .lineComment || st.peek == .comma ||
    closing == some st.peek

/-- crates/styx-cst/src/parser.rs:180-193 `at_atom_start`. -/
def St.atAtomStart (st : St) : Bool :=
  match st.peek with
  | .lbrace | .lparen | .at | .tag | .bareScalar | .quotedScalar | .rawScalar | .heredocStart => true
  | _ => false

/-- crates/styx-cst/src/parser.rs:209-216: the loop over the characters after the scalar. -/
def gtFollows : List Char → Bool
  | [] => false
  | c :: cs => if c == ' ' || c == '\t' then gtFollows cs else c == '>'

/-- crates/styx-cst/src/parser.rs:195-217 `at_attribute`.  The slice `&self.source[after_scalar..]`
panics when the end of the token is not a character boundary; here it is then `false`.  The ends of
tokens always are (`C02_spans_exact`). -/
def St.atAttribute (source : List Char) (st : St) : Bool :=
  match st.toks with
  | [] => false
  | t :: _ =>
    t.kind == .bareScalar && (match dropBytes t.stop source with
      | some rest => gtFollows rest
      | none => false)

/-- `str::split("/@")` (crates/styx-cst/src/parser.rs:464). -/
def splitSlashAt : List Char → List (List Char)
  | [] => [[]]
  | [c] => [[c]]
  | c :: d :: cs =>
    if c = '/' ∧ d = '@' then [] :: splitSlashAt cs
    else match splitSlashAt (d :: cs) with
      | [] => [[c]]
      | s :: ss => (c :: s) :: ss

/-- crates/styx-cst/src/parser.rs:471-475: the text of the tag token of a segment. -/
def segmentText (seg : List Char) : List Char :=
  if seg.head? = some '@' then seg else '@' :: seg

/-- crates/styx-cst/src/parser.rs:469-502 `parse_tag_segments`, the tree that is built: `payload` is
what the payload of the last segment adds (see `St.payloadFollows`).  Slicing an empty list of
segments would panic; `split` never returns one. -/
def tagTree : List (List Char) → List Green → Green
  | [], payload => .node .TAG payload
  | [seg], payload => .node .TAG (.token .TAG_TOKEN (segmentText seg) :: payload)
  | seg :: seg' :: segs, payload =>
    .node .TAG [.token .TAG_TOKEN (segmentText seg),
      .node .TAG_PAYLOAD [.token .SLASH ['/'], tagTree (seg' :: segs) payload]]

/-- crates/styx-cst/src/parser.rs:483-495: a payload follows the tag immediately. -/
def St.payloadFollows (st : St) (tagEnd : Nat) : Bool :=
  match st.toks with
  | [] => false
  | t :: _ => t.start == tagEnd &&
    (match t.kind with
    | .lbrace | .lparen | .quotedScalar | .rawScalar | .heredocStart | .at | .tag => true
    | _ => false)

/-- crates/styx-cst/src/parser.rs:225-231: doc comments with the blanks and line ends after each.
The two nested loops are one pass: `after` says that a doc comment came before. -/
def bumpDocs (after : Bool) : List Token → List Green × List Token
  | [] => ([], [])
  | t :: ts =>
    if t.kind = .docComment ∨ (after ∧ (t.kind = .whitespace ∨ t.kind = .newline)) then
      let (g, ts') := bumpDocs true ts
      (.token (SyntaxKind.ofToken t.kind) t.text :: g, ts')
    else ([], t :: ts)

/-- crates/styx-cst/src/parser.rs:504-526 `parse_heredoc`. -/
def St.heredoc (st : St) : List Green × St :=
  let (g1, st) := st.bump
  let (g2, st) := if st.peek = .heredocContent then st.bump else ([], st)
  let (g3, st) := if st.peek = .heredocEnd then st.bump else ([], st.err .unterminatedHeredoc)
  ([.node .HEREDOC (g1 ++ g2 ++ g3)], st)

mutual

/-- crates/styx-cst/src/parser.rs:219-250 `parse_entries`. -/
def parseEntries (source : List Char) : Nat → Option TokenKind → St → Option (List Green × St)
  | 0, _, _ => none
  | n + 1, closing, st => do
    let (g1, st) := st.skipTrivia
    let (g2, ts) := bumpDocs false st.toks
    let st := { st with toks := ts }
    if st.atEof || closing == some st.peek then some (g1 ++ g2, st)
    else
      let (g3, st) ← parseEntry source n closing st
      let (g4, st) := st.skipWs
      let (g5, st) := if st.peek = .comma ∨ st.peek = .newline then st.bump else ([], st)
      let (g6, st) ← parseEntries source n closing st
      some (g1 ++ g2 ++ [g3] ++ g4 ++ g5 ++ g6, st)

/-- crates/styx-cst/src/parser.rs:252-305 `parse_entry`. -/
def parseEntry (source : List Char) : Nat → Option TokenKind → St → Option (Green × St)
  | 0, _, _ => none
  | n + 1, closing, st => do
    if st.atAttribute source then
      let (g, st) ← parseAttributes source n closing st
      some (.node .ENTRY [.node .ATTRIBUTES g], st)
    else
      let key : Option (List Green × St) :=
        if st.atEntryEnd closing then some ([], st)
        else do
          let (g, st) ← parseAtom source n st
          some ([.node .KEY g], st)
      let (g1, st) ← key
      let (g2, st) := st.skipWs
      let (g3, st) ← parseValues source n closing 0 st
      some (.node .ENTRY (g1 ++ g2 ++ g3), st)

/-- crates/styx-cst/src/parser.rs:276-301: the loop over the values of an entry. -/
def parseValues (source : List Char) :
    Nat → Option TokenKind → Nat → St → Option (List Green × St)
  | 0, _, _, _ => none
  | n + 1, closing, count, st => do
    if st.atEntryEnd closing then some ([], st)
    else
      let value : Option (List Green × St) :=
        if st.atAttribute source then do
          let (g, st) ← parseAttributes source n closing st
          some ([.node .VALUE [.node .ATTRIBUTES g]], st)
        else do
          let st := if closing = some .rbrace ∧ count > 0 ∧ st.atAtomStart then st.err .tooManyAtoms
            else st
          let (g, st) ← parseAtom source n st
          some ([.node .VALUE g], st)
      let (g1, st) ← value
      let (g2, st) := st.skipWs
      let (g3, st) ← parseValues source n closing (count + 1) st
      some (g1 ++ g2 ++ g3, st)

/-- crates/styx-cst/src/parser.rs:307-322 `parse_attributes`: the elements of the node. -/
def parseAttributes (source : List Char) :
    Nat → Option TokenKind → St → Option (List Green × St)
  | 0, _, _ => none
  | n + 1, closing, st => do
    if st.atAttribute source then
      let (g1, st) ← parseAttribute source n st
      let (g2, st) := st.skipWs
      if st.atEntryEnd closing then some (g1 :: g2, st)
      else
        let (g3, st) ← parseAttributes source n closing st
        some (g1 :: g2 ++ g3, st)
    else some ([], st)

/-- crates/styx-cst/src/parser.rs:324-358 `parse_attribute`. -/
def parseAttribute (source : List Char) : Nat → St → Option (Green × St)
  | 0, _ => none
  | n + 1, st => do
    let (g1, st) := st.bump
    let (g2, st) := if st.peek = .gt then st.bump else ([], st.err .expectedGt)
    let (g3, st) := if st.peek = .whitespace ∨ st.peek = .newline
      then (st.err .spaceAfterGt).skipWs else ([], st)
    let (g4, st) ← parseAtom source n st
    some (.node .ATTRIBUTE (g1 ++ g2 ++ g3 ++ g4), st)

/-- crates/styx-cst/src/parser.rs:360-385 `parse_atom`, with `parse_object` (387-408),
`parse_sequence` (410-448), `parse_unit` (450-455) and `parse_tag` (457-502) in place. -/
def parseAtom (source : List Char) : Nat → St → Option (List Green × St)
  | 0, _ => none
  | n + 1, st =>
    match st.peek with
    | .lbrace => do
      let (g1, st) := st.bump
      let (g2, st) ← parseEntries source n (some .rbrace) st
      let (g3, st) := st.skipTrivia
      let (g4, st) := if st.peek = .rbrace then st.bump else ([], st.err .unclosedObject)
      some ([.node .OBJECT (g1 ++ g2 ++ g3 ++ g4)], st)
    | .lparen => do
      let (g1, st) := st.bump
      let (g2, st) ← parseItems source n st
      let (g3, st) := if st.peek = .rparen then st.bump else ([], st)
      some ([.node .SEQUENCE (g1 ++ g2 ++ g3)], st)
    | .at =>
      let (g, st) := st.bump
      some ([.node .UNIT g], st)
    | .tag => do
      match st.toks with
      | [] => some ([], st)
      | t :: ts =>
        let st := { st with toks := ts }
        let payload : Option (List Green × St) :=
          if st.payloadFollows t.stop then do
            let (g, st) ← parseAtom source n st
            some ([.node .TAG_PAYLOAD g], st)
          else some ([], st)
        let (g, st) ← payload
        some ([tagTree (splitSlashAt t.text) g], st)
    | .bareScalar | .quotedScalar | .rawScalar =>
      let (g, st) := st.bump
      some ([.node .SCALAR g], st)
    | .heredocStart => some st.heredoc
    | k =>
      let (g, st) := (st.err (.unexpected k)).bump
      some (g, st)

/-- crates/styx-cst/src/parser.rs:417-442: the loop over the items of a sequence. -/
def parseItems (source : List Char) : Nat → St → Option (List Green × St)
  | 0, _ => none
  | n + 1, st => do
    let (g1, st) := st.skipTrivia
    if st.atEof then some (g1, st.err .unclosedSequence)
    else if st.peek = .rparen then some (g1, st)
    else
      let (g2, st) ← parseAtom source n st
      let (g3, st) := st.skipWs
      let (g4, st) ← parseItems source n st
      some (g1 ++ [.node .ENTRY [.node .KEY g2]] ++ g3 ++ g4, st)

end

/-- crates/styx-cst/src/parser.rs:82-101: all the tokens that `TokenIter` yields. -/
def tokenIter (source : List Char) : List Token :=
  tokenize source ++ [⟨.eof, utf8Len source, utf8Len source, []⟩]

/-- crates/styx-cst/src/parser.rs:9-46 `Parse`. -/
structure Parse where
  green : Green
  errors : List PErr
  deriving Repr

/-- crates/styx-cst/src/parser.rs:29-32 `is_ok`. -/
def Parse.isOk (p : Parse) : Bool := p.errors.isEmpty

/-- crates/styx-cst/src/parser.rs:114-123 `CstParser::parse`, with fuel. -/
def parseFuel (n : Nat) (source : List Char) : Option Parse := do
  let (g, st) ← parseEntries source n none ⟨tokenIter source, []⟩
  some ⟨.node .DOCUMENT g, st.errors⟩

/-- crates/styx-cst/src/parser.rs:66-70 `parse`.  The fuel is always enough
(`C27_cst_terminates`). -/
def parse (source : List Char) : Parse :=
  (parseFuel (8 * source.length + 32) source).getD ⟨.node .DOCUMENT [], []⟩

end Styx.Cst
