import Verif.Parse.PathState

/-!
# Model of the event parser

Source: crates/styx-parse/src/parser/mod.rs and events.rs.

Simplifications:
* The lexer does not depend on the parser, so the parser is modelled over the list of all lexemes
  before `Eof`; `source.next()` on the empty list is `Eof`.  `stash` (parser/mod.rs:37-40) puts the
  lexeme back at the front.  Every `stash` in the code follows a `next` on the same path, which
  empties the slot, so the double-stash assertion cannot fire.
* Recursive descent and loops carry fuel; `none` means out of fuel.  `parseEvents` passes enough
  (theorem `C10_terminates`).
* Pushing to `event_queue` is modelled by returning the list of pushed events.
* `HashMap`s are association lists.  `seen_keys` of `DocumentRoot` is only ever written and is left
  out.
* A panic inside an emission function is an event of kind `panic`; a panic in the lexer arrives as
  `Lexeme.panic` and becomes such an event, too.
-/

namespace Styx

/-- events.rs:110-157 `ParseErrorKind`. -/
inductive ParseErrorKind where
  | unexpectedToken | unclosedObject | unclosedSequence
  | invalidEscape (seq : List Char)
  | expectedKey | expectedValue | unexpectedEof
  | duplicateKey (original : Span)
  | invalidTagName | invalidKey | danglingDocComment | tooManyAtoms
  | reopenedPath (closedPath : List (List Char))
  | nestIntoTerminal (terminalPath : List (List Char))
  | commaInSequence | missingWhitespaceBeforeBlock | trailingContent
  deriving DecidableEq, Repr

/-- events.rs:16-93 `EventKind`; `panic` marks a panic of the real code. -/
inductive EventKind where
  | documentStart | documentEnd | objectStart | objectEnd | sequenceStart | sequenceEnd
  | entryStart
  | key (tag : Option (List Char)) (payload : Option (List Char)) (kind : ScalarKind)
  | entryEnd
  | scalar (value : List Char) (kind : ScalarKind)
  | unit
  | tagStart (name : List Char)
  | tagEnd
  | comment (text : List Char)
  | docComment (lines : List (List Char))
  | error (kind : ParseErrorKind)
  | panic
  deriving DecidableEq, Repr

/-- events.rs:7-14 `Event`. -/
structure Event where
  span : Span
  kind : EventKind
  deriving DecidableEq, Repr

mutual
/-- parser/mod.rs:1525-1567 `Atom` and `AtomContent`. -/
inductive Atom where
  | scalar (span : Span) (value : List Char) (kind : ScalarKind)
  | unit (span : Span)
  | tag (span : Span) (name : List Char) (payload : Option Atom) (invalidName : Bool)
      (errorSpan : Option Span)
  | object (span : Span) (entries : List ObjEntry) (dups : List (Span × Span))
      (dangling : List Span) (unclosed : Bool)
  | sequence (span : Span) (elements : List Atom) (unclosed : Bool) (commas : List Span)
  | attributes (span : Span) (attrs : List AttrEntry)
  | invalidEscapeScalar (span : Span) (rawInner : List Char)
  | error (span : Span) (message : Msg)
  | panic (span : Span)
/-- parser/mod.rs:1569-1575 `ObjectEntry`. -/
inductive ObjEntry where
  | mk (key value : Atom) (doc : Option (Span × List (List Char))) (tooMany : Option Span)
/-- parser/mod.rs:1577-1582 `AttributeEntry`. -/
inductive AttrEntry where
  | mk (key : List Char) (keySpan : Span) (value : Atom)
end

/-- `Atom::span`. -/
def Atom.span : Atom → Span
  | .scalar s _ _ | .unit s | .tag s _ _ _ _ | .object s _ _ _ _ | .sequence s _ _ _
  | .attributes s _ | .invalidEscapeScalar s _ | .error s _ | .panic s => s

/-- parser/mod.rs:1588-1596 `KeyValue`. -/
inductive KeyValue where
  | scalar (text : List Char)
  | unit
  | tagged (name : List Char) (payload : Option KeyValue)

/-- Decidable equality of keys (`derive(PartialEq)` at parser/mod.rs:1588). -/
def KeyValue.beq : KeyValue → KeyValue → Bool
  | .scalar a, .scalar b => a == b
  | .unit, .unit => true
  | .tagged a none, .tagged b none => a == b
  | .tagged a (some p), .tagged b (some q) => a == b && KeyValue.beq p q
  | _, _ => false

mutual
/-- parser/mod.rs:1599-1616 `KeyValue::from_atom`. -/
def KeyValue.fromAtom : Atom → KeyValue
  | .scalar _ v _ => .scalar v
  | .unit _ => .unit
  | .tag _ name payload _ _ => .tagged name (KeyValue.fromAtomOpt payload)
  | .object .. => .scalar ['{', '}']
  | .sequence .. => .scalar ['(', ')']
  | .attributes .. => .scalar ['{', '}']
  | .invalidEscapeScalar _ raw => .scalar raw
  | .error .. => .scalar (chars! "<error>")
  | .panic .. => .scalar (chars! "<error>")
/-- parser/mod.rs:1605 `payload.as_ref().map(..)`. -/
def KeyValue.fromAtomOpt : Option Atom → Option KeyValue
  | none => none
  | some a => some (KeyValue.fromAtom a)
end

/-- parser/mod.rs:1618-1624 `to_key_string`. -/
def KeyValue.toKeyString : KeyValue → List Char
  | .scalar s => s
  | .unit => ['@']
  | .tagged name _ => '@' :: name

/-- `HashMap<KeyValue, Span>::get`. -/
def lookupKey (k : KeyValue) : List (KeyValue × Span) → Option Span
  | [] => none
  | (k', s) :: rest => if KeyValue.beq k k' then some s else lookupKey k rest

/-- parser/mod.rs:272-276 and others: strip `/// ` or `///`. -/
def stripDoc (text : List Char) : List Char :=
  match stripPrefix (chars! "/// ") text with
  | some r => r
  | none =>
    match stripPrefix (chars! "///") text with
    | some r => r
    | none => text

/-- `str::split('.')`. -/
def splitDots : List Char → List (List Char)
  | [] => [[]]
  | c :: cs =>
    if c = '.' then [] :: splitDots cs
    else
      match splitDots cs with
      | [] => [[c]]
      | seg :: segs => (c :: seg) :: segs

/-- `str::split("/@")`. -/
def splitSlashAt : List Char → List (List Char)
  | [] => [[]]
  | '/' :: '@' :: cs => [] :: splitSlashAt cs
  | c :: cs =>
    match splitSlashAt cs with
    | [] => [[c]]
    | seg :: segs => (c :: seg) :: segs

/-- parser/mod.rs:1808-1812: attach spans to the segments of a chained tag. -/
def chainSpans : Nat → List (List Char) → List (List Char × Span)
  | _, [] => []
  | start, seg :: segs =>
    let stop := start + 1 + utf8Len seg
    (seg, ⟨start, stop⟩) :: chainSpans (stop + 1) segs

/-- parser/mod.rs:1804-1815 `split_chained_tag_name`. -/
def splitChainedTagName (name : List Char) (start : Nat) : List (List Char × Span) :=
  chainSpans start (splitSlashAt name)

/-- parser/mod.rs:1855-1862 `is_valid_tag_name`. -/
def isValidTagName : List Char → Bool
  | [] => false
  | c :: cs => isTagStart c && cs.all isTagChar

/-- parser/mod.rs:1817-1842 `build_tag_chain` (`segments` is never empty; the first clause is the
`debug_assert`). -/
def buildTagChain : List (List Char × Span) → Option Atom → Atom
  | [], _ => .panic ⟨0, 0⟩
  | [(name, sp)], trailing =>
    let stop := match trailing with
      | some p => p.span.stop
      | none => sp.stop
    .tag ⟨sp.start, stop⟩ name trailing (!isValidTagName name)
      (if isValidTagName name then none else some sp)
  | (name, sp) :: segs, trailing =>
    let inner := buildTagChain segs trailing
    .tag ⟨sp.start, inner.span.stop⟩ name (some inner) (!isValidTagName name)
      (if isValidTagName name then none else some sp)

/-- parser/mod.rs:1844-1853 `lexeme_can_be_tag_payload`. -/
def Lexeme.canBeTagPayload : Lexeme → Bool
  | .scalar .. | .unit _ | .tag .. | .objectStart _ | .seqStart _ => true
  | _ => false

/-- parser/mod.rs:31-35 `LexemeSource::next`. -/
def nextLex : List Lexeme → Lexeme × List Lexeme
  | [] => (.eof, [])
  | l :: ls => (l, ls)

/-- parser/mod.rs:37-40 `LexemeSource::stash` (stashing `Eof` at the end changes nothing). -/
def stashLex (l : Lexeme) (ls : List Lexeme) : List Lexeme :=
  match l with
  | .eof => ls
  | l => l :: ls

/-- Result of a parsing function: value, events pushed to the queue meanwhile, remaining lexemes. -/
abbrev PRes (α : Type) : Type := Option (α × List Event × List Lexeme)

/-- parser/mod.rs:774-781: text of an invalid-escape lexeme without its quotes.
A lone `"` would panic in the code; the text is a whole quoted token, which has two quotes. -/
def stripQuotes (raw : List Char) : List Char :=
  if raw.head? = some '"' ∧ raw.getLast? = some '"' then (raw.drop 1).dropLast else raw

/-- parser/mod.rs:852-870: combine pending doc comments. -/
def combineDocs : List (Span × List Char) → Option (Span × List (List Char))
  | [] => none
  | d :: ds => some (⟨d.1.start, ((d :: ds).getLastD d).1.stop⟩, (d :: ds).map (fun x => stripDoc x.2))

/-- parser/mod.rs:610-616: `first_is_bare`. -/
def Atom.isBare : Atom → Bool
  | .scalar _ _ .bare => true
  | _ => false

/-- parser/mod.rs:883-895: value and surplus span of an entry with atoms `key :: rest`. -/
def entryValue (key : Atom) : List Atom → Atom × Option Span
  | [] => (.unit key.span, none)
  | [v] => (v, none)
  | v :: x :: _ => (v, some x.span)

/-- parser/mod.rs:988-991: end of the last attribute value. -/
def attrsEnd : Nat → List AttrEntry → Nat
  | d, [] => d
  | _, [.mk _ _ v] => v.span.stop
  | d, _ :: a :: as => attrsEnd d (a :: as)

mutual

/-- parser/mod.rs:674-817 `parse_atom`. -/
def parseAtom (input : List Char) : Nat → Lexeme → List Lexeme → PRes Atom
  | 0, _, _ => none
  | n + 1, lexeme, ls =>
    match lexeme with
    | .scalar sp v k => some (.scalar sp v k, [], ls)
    | .unit sp =>
      let (nxt, ls') := nextLex ls
      match nxt with
      | .scalar sp' v .bare =>
        if sp'.start = sp.stop then
          some (.tag ⟨sp.start, sp'.stop⟩ [] (some (.scalar sp' v .bare)) true (some sp'), [], ls')
        else some (.unit sp, [], stashLex nxt ls')
      | _ => some (.unit sp, [], stashLex nxt ls')
    | .tag sp name hasPayload =>
      let chain := splitChainedTagName name sp.start
      if 1 < chain.length then
        let (nxt, ls') := nextLex ls
        if nxt.span.start = sp.stop ∧ nxt.canBeTagPayload = true then
          match parseAtom input n nxt ls' with
          | none => none
          | some (p, evs, ls'') =>
          some (buildTagChain chain (some p), evs, ls'')
        else some (buildTagChain chain none, [], stashLex nxt ls')
      else if hasPayload then
        let (nxt, ls') := nextLex ls
        match parseAtom input n nxt ls' with
        | none => none
        | some (p, evs, ls'') =>
        some (buildTagChain chain (some p), evs, ls'')
      else
        let (nxt, ls') := nextLex ls
        match nxt with
        | .scalar sp' v .bare =>
          if sp'.start = sp.stop ∧ v.head? = some '.' then
            some (.tag ⟨sp.start, sp'.stop⟩ name none true (some ⟨sp.start + 1, sp'.stop⟩), [], ls')
          else some (buildTagChain chain none, [], stashLex nxt ls')
        | _ => some (buildTagChain chain none, [], stashLex nxt ls')
    | .objectStart sp => parseObject input n sp [] [] [] [] ls
    | .seqStart sp => parseSequence input n sp [] [] ls
    | .attrKey _ keySpan key =>
      let (nxt, ls') := nextLex ls
      match parseAtom input n nxt ls' with
      | none => none
      | some (v, evs, ls'') =>
      match parseAttrs input n ls'' with
      | none => none
      | some (attrs, evs', ls''') =>
      let all := AttrEntry.mk key keySpan v :: attrs
      some (.attributes ⟨keySpan.start, (attrsEnd keySpan.stop all)⟩ all, evs ++ evs', ls''')
    | .error sp msg =>
      if msg.containsEscape then
        match sliceBytes input sp.start sp.stop with
        | some raw => some (.invalidEscapeScalar sp (stripQuotes raw), [], ls)
        | none => some (.panic sp, [], ls)
      else some (.error sp msg, [], ls)
    | .objectEnd sp => some (.error sp .unexpectedToken, [], ls)
    | .seqEnd sp => some (.error sp .unexpectedToken, [], ls)
    | .comma sp => some (.error sp .unexpectedToken, [], ls)
    | .newline sp => some (.error sp .unexpectedToken, [], ls)
    | .comment sp _ => some (.error sp .unexpectedToken, [], ls)
    | .docComment sp _ => some (.error sp .unexpectedToken, [], ls)
    | .eof => some (.error ⟨utf8Len input, utf8Len input⟩ .unexpectedEof, [], ls)
    | .panic sp => some (.panic sp, [], ls)

/-- parser/mod.rs:820-917 `parse_object_atom`: one round of the loop per lexeme.
`entries` and `dups` are accumulated in reverse; `docs` is `pending_doc_comments` in reverse. -/
def parseObject (input : List Char) : Nat → Span → List ObjEntry → List (KeyValue × Span) →
    List (Span × Span) → List (Span × List Char) → List Lexeme → PRes Atom
  | 0, _, _, _, _, _, _ => none
  | n + 1, start, entries, seen, dups, docs, ls =>
    let (lexeme, ls') := nextLex ls
    match lexeme with
    | .eof =>
      some (.object ⟨start.start, start.stop⟩ entries.reverse dups.reverse
        (docs.reverse.map (·.1)) true, [], ls')
    | .objectEnd sp =>
      some (.object ⟨start.start, sp.stop⟩ entries.reverse dups.reverse
        (docs.reverse.map (·.1)) false, [], ls')
    | .newline _ => parseObject input n start entries seen dups docs ls'
    | .comma _ => parseObject input n start entries seen dups docs ls'
    | .comment _ _ => parseObject input n start entries seen dups docs ls'
    | .docComment sp text => parseObject input n start entries seen dups ((sp, text) :: docs) ls'
    | lexeme =>
      match collectEntryAtoms input n lexeme ls' with
      | none => none
      | some (key, rest, evs, ls'') =>
      let kv := KeyValue.fromAtom key
      let (value, tooMany) := entryValue key rest
      let entry := ObjEntry.mk key value (combineDocs docs.reverse) tooMany
      let (seen', dups') := match lookupKey kv seen with
        | some original => (seen, (original, key.span) :: dups)
        | none => ((kv, key.span) :: seen, dups)
      match parseObject input n start (entry :: entries) seen' dups' [] ls'' with
      | none => none
      | some (obj, evs', ls''') =>
      some (obj, evs ++ evs', ls''')

/-- parser/mod.rs:920-958 `parse_sequence_atom`; accumulators reversed. -/
def parseSequence (input : List Char) : Nat → Span → List Atom → List Span → List Lexeme → PRes Atom
  | 0, _, _, _, _ => none
  | n + 1, start, elems, commas, ls =>
    let (lexeme, ls') := nextLex ls
    match lexeme with
    | .eof => some (.sequence ⟨start.start, start.stop⟩ elems.reverse true commas.reverse, [], ls')
    | .seqEnd sp =>
      some (.sequence ⟨start.start, sp.stop⟩ elems.reverse false commas.reverse, [], ls')
    | .newline _ => parseSequence input n start elems commas ls'
    | .comma sp => parseSequence input n start elems (sp :: commas) ls'
    | .comment _ _ => parseSequence input n start elems commas ls'
    | .docComment _ _ => parseSequence input n start elems commas ls'
    | lexeme =>
      match parseAtom input n lexeme ls' with
      | none => none
      | some (e, evs, ls'') =>
      match parseSequence input n start (e :: elems) commas ls'' with
      | none => none
      | some (s, evs', ls''') =>
      some (s, evs ++ evs', ls''')

/-- parser/mod.rs:970-986: the loop of `parse_attributes` after the first attribute. -/
def parseAttrs (input : List Char) : Nat → List Lexeme → PRes (List AttrEntry)
  | 0, _ => none
  | n + 1, ls =>
    let (lexeme, ls') := nextLex ls
    match lexeme with
    | .attrKey _ keySpan key =>
      let (nxt, ls'') := nextLex ls'
      match parseAtom input n nxt ls'' with
      | none => none
      | some (v, evs, ls3) =>
      match parseAttrs input n ls3 with
      | none => none
      | some (attrs, evs', ls4) =>
      some (AttrEntry.mk key keySpan v :: attrs, evs ++ evs', ls4)
    | other => some ([], [], stashLex other ls')

/-- parser/mod.rs:606-671 `collect_entry_atoms`: first atom and the further atoms. -/
def collectEntryAtoms (input : List Char) : Nat → Lexeme → List Lexeme →
    Option (Atom × List Atom × List Event × List Lexeme)
  | 0, _, _ => none
  | n + 1, lexeme, ls =>
    match parseAtom input n lexeme ls with
    | none => none
    | some (a, evs, ls') =>
    match collectRest input n a true ls' with
    | none => none
    | some (rest, evs', ls'') =>
    some (a, rest, evs ++ evs', ls'')

/-- parser/mod.rs:619-668: the loop of `collect_entry_atoms`; `only` says that `atoms.len() == 1`. -/
def collectRest (input : List Char) : Nat → Atom → Bool → List Lexeme → PRes (List Atom)
  | 0, _, _, _ => none
  | n + 1, first, only, ls =>
    let (lexeme, ls') := nextLex ls
    match lexeme with
    | .eof => some ([], [], stashLex lexeme ls')
    | .newline _ => some ([], [], stashLex lexeme ls')
    | .comma _ => some ([], [], stashLex lexeme ls')
    | .objectEnd _ => some ([], [], stashLex lexeme ls')
    | .seqEnd _ => some ([], [], stashLex lexeme ls')
    | .comment sp text => some ([], [⟨sp, .comment text⟩], ls')
    | .docComment sp text => some ([], [⟨sp, .docComment [stripDoc text]⟩], ls')
    | lexeme =>
      let warn : List Event :=
        match lexeme with
        | .objectStart sp | .seqStart sp =>
          if only = true ∧ first.isBare = true ∧ first.span.stop = sp.start then
            [⟨sp, .error .missingWhitespaceBeforeBlock⟩]
          else []
        | _ => []
      match parseAtom input n lexeme ls' with
      | none => none
      | some (a, evs, ls'') =>
      match collectRest input n first false ls'' with
      | none => none
      | some (rest, evs', ls''') =>
      some (a :: rest, warn ++ evs ++ evs', ls''')

end

end Styx
