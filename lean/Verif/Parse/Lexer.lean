import Verif.Parse.Escapes

/-!
# Model of the lexer

Source: crates/styx-parse/src/lexer.rs.

Simplifications:
* The lexer's one-token `peeked` cache (lexer.rs:104-130) is not stored: peeking is looking at
  `t.next.1` without adopting `t.next.2`.  The tokenizer is deterministic, and the only place that
  looks at the tokenizer behind the cache (`heredoc_closing_indent`, lexer.rs:309) runs with an
  empty cache, so this is the same function.
* `Cow` borrowing is ignored; texts are values.
-/

namespace Styx

/-- crates/styx-tokenizer/src/span.rs `Span` (`end` is called `stop`). -/
structure Span where
  start : Nat
  stop : Nat
  deriving DecidableEq, Repr

/-- crates/styx-parse/src/events.rs:95-108 `ScalarKind`. -/
inductive ScalarKind where
  | bare | quoted | raw | heredoc
  deriving DecidableEq, Repr

/-- lexer.rs:15-75 `Lexeme`.  `panic` is not a Rust variant: it marks that producing this lexeme
panics. -/
inductive Lexeme where
  | scalar (span : Span) (value : List Char) (kind : ScalarKind)
  | unit (span : Span)
  | tag (span : Span) (name : List Char) (hasPayload : Bool)
  | objectStart (span : Span)
  | objectEnd (span : Span)
  | seqStart (span : Span)
  | seqEnd (span : Span)
  | attrKey (span keySpan : Span) (key : List Char)
  | comma (span : Span)
  | newline (span : Span)
  | comment (span : Span) (text : List Char)
  | docComment (span : Span) (text : List Char)
  | eof
  | error (span : Span) (message : Msg)
  | panic (span : Span)
  deriving DecidableEq, Repr

/-- lexer.rs:80-97 `Lexeme::span`. -/
def Lexeme.span : Lexeme → Span
  | .scalar s _ _ | .unit s | .tag s _ _ | .objectStart s | .objectEnd s | .seqStart s | .seqEnd s
  | .attrKey s _ _ | .comma s | .newline s | .comment s _ | .docComment s _ | .error s _
  | .panic s => s
  | .eof => ⟨0, 0⟩

/-- The span of a token. -/
def Token.span (t : Token) : Span := ⟨t.start, t.stop⟩

/-- lexer.rs:384-411 `dedent_heredoc`: `split('\n')`, strip each line, join with `\n`.
`left` is how many blanks may still be stripped on the current line. -/
def dedentAux (indent : Nat) : Nat → List Char → List Char
  | _, [] => []
  | left, c :: cs =>
    if c = '\n' then '\n' :: dedentAux indent indent cs
    else
      match left with
      | 0 => c :: dedentAux indent 0 cs
      | k + 1 =>
        if isBlank c then dedentAux indent k cs else c :: dedentAux indent 0 cs

/-- lexer.rs:384-411 `dedent_heredoc`. -/
def dedentHeredoc (content : List Char) (indent : Nat) : List Char := dedentAux indent indent content

/-- lexer.rs:282-297 content of a raw scalar token: `text[1 + h + 1 .. len - h - 1]` with `h` the
number of leading hashes; `none` is the panic of that slice (or of the subtraction). -/
def rawContent (text : List Char) : Option (List Char) :=
  let h := ((text.drop 1).takeWhile (· == '#')).length
  if utf8Len text < h + 1 then none
  else sliceBytes text (1 + h + 1) (utf8Len text - h - 1)

/-- lexer.rs:268 contents of a quoted token: `text[1..len-1]`. -/
def quotedInner (text : List Char) : List Char := (text.drop 1).dropLast

/-- lexer.rs:306-335: the loop collecting heredoc tokens after `HeredocStart`.
`ok (content, closing_indent, end_span)` or the error lexeme.  The loop body runs at most twice
(content, then end); running out of fuel is reported as `panic`, which the theorems exclude. -/
def lexHeredocLoop : Nat → Span → Tok → List Char → Nat →
    Except Lexeme (List Char × Nat × Span) × Tok
  | 0, start, t, _, _ => (.error (.panic start), t)
  | n + 1, start, t, content, indent =>
    let indent := t.closingIndent.getD indent
    let (tok, t') := t.next
    match tok.kind with
    | .heredocContent => lexHeredocLoop n start t' (content ++ tok.text) indent
    | .heredocEnd => (.ok (content, indent, tok.span), t')
    | .eof => (.error (.error start .unterminatedHeredoc), t')
    | _ => (.error (.error tok.span .tokenInHeredoc), t')

/-- lexer.rs:299-347 the `HeredocStart` case. -/
def lexHeredoc (start : Span) (t : Tok) : Lexeme × Tok :=
  match lexHeredocLoop 2 start t [] 0 with
  | (.error l, t') => (l, t')
  | (.ok (content, indent, stop), t') =>
    let content := if 0 < indent then dedentHeredoc content indent else content
    (.scalar ⟨start.start, stop.stop⟩ content .heredoc, t')

/-- lexer.rs:198-206 token kinds that can be the immediate payload of a tag. -/
def TokenKind.isPayload : TokenKind → Bool
  | .lbrace | .lparen | .quotedScalar | .rawScalar | .at | .tag => true
  | _ => false

/-- `name.contains("/@")` (lexer.rs:192). -/
def containsSlashAt : List Char → Bool
  | '/' :: '@' :: _ => true
  | _ :: cs => containsSlashAt cs
  | [] => false

/-- lexer.rs:134-142: skip whitespace tokens.  Whitespace tokens are maximal, so one step is the
whole loop (`skipWs_done`). -/
def Tok.skipWs (t : Tok) : Tok := if t.next.1.kind = .whitespace then t.next.2 else t

/-- lexer.rs:144-366: the lexeme for the (non-whitespace) token `tok`; `t` is the tokenizer after
it. -/
def lexToken (tok : Token) (t : Tok) : Lexeme × Tok :=
  match tok.kind with
  | .eof => (.eof, t)
  | .lbrace => (.objectStart tok.span, t)
  | .rbrace => (.objectEnd tok.span, t)
  | .lparen => (.seqStart tok.span, t)
  | .rparen => (.seqEnd tok.span, t)
  | .comma => (.comma tok.span, t)
  | .gt => (.error tok.span .gtSpace, t)
  | .newline => (.newline tok.span, t)
  | .lineComment => (.comment tok.span tok.text, t)
  | .docComment => (.docComment tok.span tok.text, t)
  | .at =>
    let nxt := t.next.1
    if nxt.start = tok.stop ∧ nxt.kind = .bareScalar then
      (.error ⟨tok.start, nxt.stop⟩ .invalidTagName, t.next.2)
    else (.unit tok.span, t)
  | .tag =>
    let name := tok.text.drop 1
    let nxt := t.next.1
    let adjacent := nxt.start = tok.stop
    if adjacent ∧ nxt.kind.isPayload = false ∧ nxt.kind = .bareScalar then
      (.error ⟨tok.start, nxt.stop⟩ .invalidTagName, t.next.2)
    else
      (.tag tok.span name (containsSlashAt name || (decide adjacent && nxt.kind.isPayload)), t)
  | .bareScalar =>
    let nxt := t.next.1
    if nxt.kind = .gt ∧ nxt.start = tok.stop then
      let t' := t.next.2
      let val := t'.next.1
      let gtSpan : Span := ⟨nxt.stop - 1, nxt.stop⟩
      if val.kind = .newline ∨ val.kind = .eof then (.error gtSpan .expectedValue, t')
      else if val.kind = .whitespace then (.error gtSpan .wsAfterGt, t')
      else (.attrKey ⟨tok.start, nxt.stop⟩ tok.span tok.text, t')
    else (.scalar tok.span tok.text .bare, t)
  | .quotedScalar =>
    match processEscapes (quotedInner tok.text) with
    | .ok v => (.scalar tok.span v .quoted, t)
    | .error m => (.error tok.span m, t)
  | .rawScalar =>
    match rawContent tok.text with
    | some v => (.scalar tok.span v .raw, t)
    | none => (.panic tok.span, t)
  | .heredocStart => lexHeredoc tok.span t
  | .heredocContent => (.error tok.span .heredocToken, t)
  | .heredocEnd => (.error tok.span .heredocToken, t)
  | .whitespace => (.panic tok.span, t)
  | .error => (.error tok.span .tokenizer, t)

/-- lexer.rs:133-367 `next_lexeme`. -/
def nextLexeme (t : Tok) : Lexeme × Tok :=
  let t := t.skipWs
  lexToken t.next.1 t.next.2

/-- lexer.rs:370-381 the iterator driven to its end (without the final `Eof`). -/
def lexRun : Nat → Tok → List Lexeme
  | 0, _ => []
  | n + 1, t =>
    let (l, t') := nextLexeme t
    if l = .eof then [] else l :: lexRun n t'

/-- All lexemes of a source before `Eof`.  Fuel sufficiency: `lexRun_chain`. -/
def lex (source : List Char) : List Lexeme := lexRun (source.length + 2) (Tok.new source)

end Styx
