import Verif.Parse.Parser

/-!
# Model of the event parser: emission and the top-level state machine

Source: crates/styx-parse/src/parser/mod.rs (see `Verif.Parse.Parser` for conventions).
-/

namespace Styx

/-- An error event. -/
def errEv (sp : Span) (k : ParseErrorKind) : Event := ⟨sp, .error k⟩

/-- parser/mod.rs:1507-1518, 1234-1244, 1470-1480: events for the escape errors of `text`, whose
first byte is at `base`. -/
def escErrEvents (base : Nat) (text : List Char) : List Event :=
  (validateEscapes text).map fun
    | .bad off seq => errEv ⟨base + off, base + off + utf8Len seq⟩ (.invalidEscape seq)
    | .panic => ⟨⟨base, base⟩, .panic⟩

/-- parser/mod.rs:1149-1275 `emit_atom_as_key`. -/
def emitKey : Atom → List Event
  | .scalar sp v k => [⟨sp, .key none (some v) k⟩]
  | .unit sp => [⟨sp, .key none none .bare⟩]
  | .tag sp name payload invalid errSpan =>
    (if invalid then [errEv (errSpan.getD sp) .invalidTagName] else []) ++
    match payload with
    | none => [⟨sp, .key (some name) none .bare⟩]
    | some (.scalar sp' v k) =>
      (if k = .quoted then escErrEvents sp'.start v else []) ++ [⟨sp, .key (some name) (some v) k⟩]
    | some (.unit _) => [⟨sp, .key (some name) none .bare⟩]
    | some (.panic sp') => [⟨sp', .panic⟩]
    | some other => [errEv other.span .invalidKey]
  | .invalidEscapeScalar sp raw =>
    escErrEvents (sp.start + 1) raw ++ [⟨sp, .key none (some (unescapeQuoted raw)) .quoted⟩]
  | .error sp msg =>
    [errEv sp (if msg = .invalidTagName then .invalidTagName else .invalidKey)]
  | .panic sp => [⟨sp, .panic⟩]
  | .object sp .. => [errEv sp .invalidKey]
  | .sequence sp .. => [errEv sp .invalidKey]
  | .attributes sp _ => [errEv sp .invalidKey]

/-- parser/mod.rs:1490-1502: classification of lexer error messages in value position. -/
def Msg.valueError : Msg → ParseErrorKind
  | .invalidTagName => .invalidTagName
  | .expectedValue => .expectedValue
  | _ => .unexpectedToken

mutual
/-- parser/mod.rs:1278-1504 `emit_atom_as_value`. -/
def emitValue : Atom → List Event
  | .scalar sp v k => [⟨sp, .scalar v k⟩]
  | .unit sp => [⟨sp, .unit⟩]
  | .tag sp name payload invalid errSpan =>
    (if invalid then [errEv (errSpan.getD sp) .invalidTagName] else []) ++
      ⟨sp, .tagStart name⟩ :: emitPayload payload ++ [⟨sp, .tagEnd⟩]
  | .object sp entries dups dangling unclosed =>
    ⟨sp, .objectStart⟩ ::
      (if unclosed then [errEv sp .unclosedObject] else []) ++
      dups.map (fun d => errEv d.2 (.duplicateKey d.1)) ++
      dangling.map (fun d => errEv d .danglingDocComment) ++
      emitEntries entries ++ [⟨sp, .objectEnd⟩]
  | .sequence sp elems unclosed commas =>
    ⟨sp, .sequenceStart⟩ ::
      (if unclosed then [errEv sp .unclosedSequence] else []) ++
      commas.map (fun d => errEv d .commaInSequence) ++
      emitElems elems ++ [⟨sp, .sequenceEnd⟩]
  | .attributes sp attrs => ⟨sp, .objectStart⟩ :: emitAttrs attrs ++ [⟨sp, .objectEnd⟩]
  | .invalidEscapeScalar sp raw =>
    escErrEvents (sp.start + 1) raw ++ [⟨sp, .scalar (unescapeQuoted raw) .quoted⟩]
  | .error sp msg => [errEv sp msg.valueError]
  | .panic sp => [⟨sp, .panic⟩]

/-- parser/mod.rs:1314-1316: the payload of a tag. -/
def emitPayload : Option Atom → List Event
  | none => []
  | some a => emitValue a

/-- parser/mod.rs:1362-1392: the entries of an object. -/
def emitEntries : List ObjEntry → List Event
  | [] => []
  | .mk key value doc tooMany :: rest =>
    (match doc with
      | some (sp, lines) => [⟨sp, .docComment lines⟩]
      | none => []) ++
    ⟨key.span, .entryStart⟩ :: emitKey key ++ emitValue value ++
    (match tooMany with
      | some sp => [errEv sp .tooManyAtoms, ⟨sp, .entryEnd⟩]
      | none => [⟨value.span, .entryEnd⟩]) ++
    emitEntries rest

/-- parser/mod.rs:1427-1429: the elements of a sequence. -/
def emitElems : List Atom → List Event
  | [] => []
  | a :: rest => emitValue a ++ emitElems rest

/-- parser/mod.rs:1442-1460: the attributes of an attribute object. -/
def emitAttrs : List AttrEntry → List Event
  | [] => []
  | .mk key ksp value :: rest =>
    ⟨ksp, .entryStart⟩ :: ⟨ksp, .key none (some key) .bare⟩ :: emitValue value ++
      ⟨value.span, .entryEnd⟩ :: emitAttrs rest
end

/-- parser/mod.rs:590-597 and 1101-1108: the error for surplus atoms; `rest` are the atoms after the key. -/
def tooManyEvents : List Atom → List Event
  | _ :: x :: _ => [errEv x.span .tooManyAtoms]
  | _ => []

/-- parser/mod.rs:581-588 and 1091-1099: the value of an entry (unit when absent). -/
def entryValueEvents (sp : Span) : List Atom → List Event
  | [] => [⟨sp, .unit⟩]
  | v :: _ => emitValue v

/-- parser/mod.rs:572-603 `emit_simple_entry`. -/
def emitSimpleEntry (key : Atom) (rest : List Atom) : List Event :=
  ⟨key.span, .entryStart⟩ :: emitKey key ++ entryValueEvents key.span rest ++ tooManyEvents rest ++
    [⟨((key :: rest).getLastD key).span, .entryEnd⟩]

/-- parser/mod.rs:1060-1089: opening events of a dotted path. -/
def dottedOpen : Nat → List (List Char) → List Event
  | _, [] => []
  | off, seg :: segs =>
    let sp : Span := ⟨off, off + utf8Len seg⟩
    ⟨sp, .entryStart⟩ :: ⟨sp, .key none (some seg) .bare⟩ ::
      (if segs = [] then [] else [⟨sp, .objectStart⟩]) ++ dottedOpen (off + utf8Len seg + 1) segs

/-- parser/mod.rs:1110-1122: closing events of a dotted path with `n` segments. -/
def dottedClose (sp : Span) : Nat → List Event
  | 0 => []
  | 1 => [⟨sp, .entryEnd⟩]
  | n + 2 => ⟨sp, .entryEnd⟩ :: ⟨sp, .objectEnd⟩ :: dottedClose sp (n + 1)

/-- parser/mod.rs:498-507 and 1044-1053: does the value count as an object for the path tracker? -/
def pathValueKind : List Atom → PathValueKind
  | .object .. :: _ => .object
  | .attributes .. :: _ => .object
  | _ => .terminal

/-- parser/mod.rs:1126-1138 `emit_path_error`. -/
def pathErrEvents (sp : Span) : Option PathError → List Event
  | none => []
  | some (.duplicate o) => [errEv sp (.duplicateKey o)]
  | some (.reopened p) => [errEv sp (.reopenedPath p)]
  | some (.nestIntoTerminal p) => [errEv sp (.nestIntoTerminal p)]

/-- parser/mod.rs:1005-1123 `emit_dotted_path_entry`; `path` is the path state when
`check_path_state` is set and the parser is at the document root. -/
def emitDotted (text : List Char) (sp : Span) (rest : List Atom) (path : Option PathState) :
    List Event × Option PathState :=
  let segs := splitDots text
  if [] ∈ segs then
    ([errEv sp .invalidKey, ⟨sp, .entryStart⟩, ⟨sp, .entryEnd⟩], path)
  else
    let (pathEvs, path') := match path with
      | none => ([], none)
      | some st =>
        let (st', e) := st.checkAndUpdate segs sp (pathValueKind rest)
        (pathErrEvents sp e, some st')
    (pathEvs ++ dottedOpen sp.start segs ++ entryValueEvents sp rest ++ tooManyEvents rest ++
      dottedClose sp segs.length, path')

/-- parser/mod.rs:1141-1146 `heredoc_start_span`: up to and including the first newline of the
heredoc's text. -/
def heredocStartSpan (input : List Char) (sp : Span) : Option Span :=
  (sliceBytes input sp.start sp.stop).map fun text =>
    let pre := text.takeWhile (· != '\n')
    ⟨sp.start, sp.start + (if pre.length < text.length then utf8Len pre + 1 else utf8Len text)⟩

/-- parser/mod.rs:456-515 `emit_entry_at_root`. -/
def emitEntryAtRoot (input : List Char) (key : Atom) (rest : List Atom) (path : PathState) :
    List Event × PathState :=
  let pre : List Event := match key with
    | .scalar sp _ .heredoc =>
      match heredocStartSpan input sp with
      | some sp' => [errEv sp' .invalidKey]
      | none => [⟨sp, .panic⟩]
    | _ => []
  match key with
  | .scalar sp v .bare =>
    if '.' ∈ v then
      let (evs, path') := emitDotted v sp rest (some path)
      (evs, path'.getD path)
    else
      let (path', e) := path.checkAndUpdate [v] sp (pathValueKind rest)
      (pathErrEvents sp e ++ emitSimpleEntry key rest, path')
  | _ =>
    let (path', e) :=
      path.checkAndUpdate [(KeyValue.fromAtom key).toKeyString] key.span (pathValueKind rest)
    (pre ++ pathErrEvents key.span e ++ emitSimpleEntry key rest, path')

/-- parser/mod.rs:518-569 `emit_entry_in_object`. -/
def emitEntryInObject (key : Atom) (rest : List Atom) (seen : List (KeyValue × Span)) :
    List Event × List (KeyValue × Span) :=
  let pre : List Event := match key with
    | .scalar sp _ .heredoc => [errEv sp .invalidKey]
    | _ => []
  let simple : List Event × List (KeyValue × Span) :=
    let kv := KeyValue.fromAtom key
    match lookupKey kv seen with
    | some original =>
      (pre ++ errEv key.span (.duplicateKey original) :: emitSimpleEntry key rest, seen)
    | none => (pre ++ emitSimpleEntry key rest, (kv, key.span) :: seen)
  match key with
  | .scalar sp v .bare =>
    if '.' ∈ v then ((emitDotted v sp rest none).1, seen) else simple
  | _ => simple

/-- parser/mod.rs:53-84 `ParserState`.  `InObject` is only ever created with parent
`AfterDocument` (parser/mod.rs:285-290), so the parent is left out and `pop_state`
(parser/mod.rs:445-453) always goes to `afterDocument`.  The `seen_keys` of `DocumentRoot` is written
(parser/mod.rs:1041) but never read, so it is left out. -/
inductive PState where
  | beforeDocument
  | beforeExpression
  | documentRoot (doc : Option Span) (path : PathState) (started : Bool)
  | inObject (start : Span) (seen : List (KeyValue × Span)) (doc : Option Span)
  | afterDocument
  | afterExpression

/-- Enough fuel for parsing one entry from `ls`. -/
def parseFuel (ls : List Lexeme) : Nat := 4 * ls.length + 8

/-- Result of `advance`: the events handed out (the returned one first, then those left in the
queue; empty means `None`), new state, remaining lexemes.  `none` is out of fuel. -/
abbrev ARes := Option (List Event × PState × List Lexeme)

/-- parser/mod.rs:161-180 `advance_expression`. -/
def advanceExpression (input : List Char) : List Lexeme → ARes
  | [] => some ([], .afterExpression, [])
  | .newline _ :: ls => advanceExpression input ls
  | .comment _ _ :: ls => advanceExpression input ls
  | l :: ls =>
    match parseAtom input (parseFuel ls) l ls with
    | none => none
    | some (a, evs, ls') => some (evs ++ emitValue a, .afterExpression, ls')

/-- parser/mod.rs:194-201: end of the last remaining lexeme. -/
def lastStop : Nat → List Lexeme → Nat
  | d, [] => d
  | _, l :: ls => lastStop l.span.stop ls

/-- parser/mod.rs:184-211 `check_trailing_content`. -/
def checkTrailing : List Lexeme → ARes
  | [] => some ([], .afterDocument, [])
  | .newline _ :: ls => checkTrailing ls
  | .comment _ _ :: ls => checkTrailing ls
  | .panic sp :: _ => some ([⟨sp, .panic⟩], .afterDocument, [])
  | l :: ls =>
    some ([errEv ⟨l.span.start, lastStop l.span.stop ls⟩ .trailingContent] ++
      (if ls.any (fun | .panic _ => true | _ => false) then [⟨l.span, .panic⟩] else []),
      .afterDocument, [])

/-- parser/mod.rs:214-321 `advance_document_root`. -/
def advanceRoot (input : List Char) (doc : Option Span) (path : PathState) (started : Bool) :
    List Lexeme → ARes
  | [] =>
    some ((match doc with | some sp => [errEv sp .danglingDocComment] | none => []) ++
      (if started then [⟨⟨0, 0⟩, .objectEnd⟩] else []) ++
      [⟨⟨utf8Len input, utf8Len input⟩, .documentEnd⟩], .afterDocument, [])
  | .newline _ :: ls => advanceRoot input doc path started ls
  | .comma _ :: ls => advanceRoot input doc path started ls
  | .comment sp text :: ls => some ([⟨sp, .comment text⟩], .documentRoot doc path started, ls)
  | .docComment sp text :: ls =>
    some ((if started then [] else [⟨⟨0, 0⟩, .objectStart⟩]) ++
      [⟨sp, .docComment [stripDoc text]⟩], .documentRoot (some sp) path true, ls)
  | .objectStart sp :: ls => some ([⟨sp, .objectStart⟩], .inObject sp [] none, ls)
  | l :: ls =>
    match collectEntryAtoms input (parseFuel ls) l ls with
    | none => none
    | some (key, rest, evs, ls') =>
      let (evs', path') := emitEntryAtRoot input key rest path
      some ((if started then [] else [⟨⟨0, 0⟩, .objectStart⟩]) ++ evs ++ evs',
        .documentRoot none path' true, ls')

/-- parser/mod.rs:324-442 `advance_in_object` (the parent is always `AfterDocument`). -/
def advanceInObject (input : List Char) (start : Span) (seen : List (KeyValue × Span))
    (doc : Option Span) : List Lexeme → ARes
  | [] =>
    some ((match doc with | some sp => [errEv sp .danglingDocComment] | none => []) ++
      [errEv start .unclosedObject, ⟨start, .objectEnd⟩,
        ⟨⟨utf8Len input, utf8Len input⟩, .documentEnd⟩], .afterDocument, [])
  | .objectEnd sp :: ls =>
    some (⟨sp, .objectEnd⟩ ::
      (match doc with | some dsp => [errEv dsp .danglingDocComment] | none => []) ++
      [⟨⟨utf8Len input, utf8Len input⟩, .documentEnd⟩], .afterDocument, ls)
  | .newline _ :: ls => advanceInObject input start seen doc ls
  | .comma _ :: ls => advanceInObject input start seen doc ls
  | .comment sp text :: ls => some ([⟨sp, .comment text⟩], .inObject start seen doc, ls)
  | .docComment sp text :: ls =>
    some ([⟨sp, .docComment [stripDoc text]⟩], .inObject start seen (some sp), ls)
  | l :: ls =>
    match collectEntryAtoms input (parseFuel ls) l ls with
    | none => none
    | some (key, rest, evs, ls') =>
      let (evs', seen') := emitEntryInObject key rest seen
      some (evs ++ evs', .inObject start seen' none, ls')

/-- parser/mod.rs:138-158 `advance`. -/
def advance (input : List Char) : PState → List Lexeme → ARes
  | .beforeDocument, ls => some ([⟨⟨0, 0⟩, .documentStart⟩], .documentRoot none [] false, ls)
  | .beforeExpression, ls => advanceExpression input ls
  | .afterExpression, ls => some ([], .afterExpression, ls)
  | .afterDocument, ls => checkTrailing ls
  | .documentRoot doc path started, ls => advanceRoot input doc path started ls
  | .inObject start seen doc, ls => advanceInObject input start seen doc ls

/-- parser/mod.rs:129-135 `parse_to_vec`: `next_event` until `None`.  `next_event`
(parser/mod.rs:111-126) drains the queue before it calls `advance`, so the events of one `advance`
come out in order before the next `advance`.  `none` is out of fuel. -/
def runParser (input : List Char) : Nat → PState → List Lexeme → Option (List Event)
  | 0, _, _ => none
  | n + 1, st, ls =>
    match advance input st ls with
    | none => none
    | some ([], _, _) => some []
    | some (evs, st', ls') =>
      match runParser input n st' ls' with
      | none => none
      | some more => some (evs ++ more)

/-- `Parser::new(source).parse_to_vec()`. -/
def parseEvents (source : List Char) : Option (List Event) :=
  let ls := lex source
  runParser source (ls.length + 5) .beforeDocument ls

/-- `Parser::new_expr(source).parse_to_vec()`. -/
def parseExprEvents (source : List Char) : Option (List Event) :=
  let ls := lex source
  runParser source (ls.length + 5) .beforeExpression ls

/-- Event kinds only, for tests. -/
def eventKinds (source : List Char) : Option (List EventKind) :=
  (parseEvents source).map (·.map (·.kind))

end Styx
