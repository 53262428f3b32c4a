import Verif.Impl.Lexer
import Verif.Parse.PathState

/-!
# Model of the parsers of the Python, JavaScript and Go implementations

Source: implementations/styx-py/styx/parser.py, implementations/styx-js/src/parser.ts with the path state of
types.ts, and implementations/styx-go/parser.go.  Loops and recursive calls use up fuel; a run that has used up its
fuel has no answer yet.  Spans are left out; so are doc comments, which the three implementations do not keep.
-/

namespace Styx.Impl

/-- parser.py:82-88, parser.ts:17-26, parser.go:105-111: the fields of a parser.  `err` is only used by Go, which keeps
an error of the lexer and goes on with an end-of-file token; as nothing is read behind such a token, the rest of
the text is dropped then. -/
structure St where
  cur : Tok
  peeked : Option Tok
  rest : List Char
  err : Option Err
  deriving DecidableEq, Repr

/-- What a run gives: a value, an error (an exception; in Go the state at an error matters), or no answer with
this fuel. -/
inductive Out (α : Type) where
  | ok (a : α) (st : St)
  | fail (e : Err) (st : St)
  | fuel

/-- Programs over the state of a parser. -/
def P (α : Type) : Type := St → Out α

/-- Sequencing: an error ends the run. -/
def P.bind {α β : Type} (p : P α) (f : α → P β) : P β := fun st =>
  match p st with
  | .ok a st' => f a st'
  | .fail e st' => .fail e st'
  | .fuel => .fuel

instance : Monad P where
  pure a := fun st => .ok a st
  bind := P.bind

/-- An error. -/
def fail {α : Type} (e : Err) : P α := fun st => .fail e st

/-- No answer. -/
def outOfFuel {α : Type} : P α := fun _ => .fuel

/-- The current token. -/
def cur : P Tok := fun st => .ok st.cur st

/-- parser.go:118, 134, 147: the token after an error of the lexer. -/
def errorTok : Tok := ⟨.eof, [], false, false⟩

/-- parser.py:90-98 `_advance`, parser.ts:28-37 `advance`, parser.go:125-140 `advance`. -/
def advance (d : Dialect) : P Unit := fun st =>
  match st.peeked with
  | some t => .ok () { st with cur := t, peeked := none }
  | none =>
    match nextToken d st.rest with
    | .ok (t, r) => .ok () { st with cur := t, rest := r }
    | .error e =>
      match d with
      | .go => .ok () { st with cur := errorTok, rest := [], err := some e }
      | _ => .fail e st

/-- parser.py:100-104 `_peek`, parser.ts:39-44 `peek`, parser.go:142-153 `peek`. -/
def peek (d : Dialect) : P Tok := fun st =>
  match st.peeked with
  | some t => .ok t st
  | none =>
    match nextToken d st.rest with
    | .ok (t, r) => .ok t { st with peeked := some t, rest := r }
    | .error e =>
      match d with
      | .go => .ok errorTok { st with peeked := some errorTok, rest := [], err := some e }
      | _ => .fail e st

/-- parser.go:227-229, 250-252, 262-264, 552-554: Go looks for a kept error (the others never keep one). -/
def checkErr : P Unit := fun st =>
  match st.err with
  | some e => .fail e st
  | none => .ok () st

/-- A value without tag and payload. -/
def unitValue : Value := .mk none none none

/-- A bare scalar. -/
def bareValue (t : List Char) : Value := .mk none (some (.scalar t .bare none)) none

/-- An object. -/
def objectValue (es : List Entry) : Value := .mk none (some (.object es none)) none

/-- The loops over commas (parser.py:126-127, 172-173, 228-229, parser.ts:64-66, 116-118, 243-245, parser.go:184-186,
246-248, 321-323). -/
def skipCommas (d : Dialect) : Nat → P Unit
  | 0 => outOfFuel
  | n + 1 => do
    let t ← cur
    if t.kind = .comma then
      advance d
      skipCommas d n
    else pure ()

/-- parser.py:552-569 `_parse_scalar`, parser.ts:624-652 `parseScalar`, parser.go:690-712 `parseScalar`. -/
def parseScalar (d : Dialect) : P Payload := do
  let t ← cur
  match t.kind with
  | .scalar => advance d; pure (.scalar t.text .bare none)
  | .quoted => advance d; pure (.scalar t.text .quoted none)
  | .raw => advance d; pure (.scalar t.text .raw none)
  | .heredoc => advance d; pure (.scalar t.text .heredoc none)
  | _ => fail .expectedScalar

/-- parser.py:275-281 `_get_key_text`, parser.ts:304-312 `getKeyText`, parser.go:375-383 `getKeyText`: the text that
identifies a key; Go does not distinguish "no text" from the empty text. -/
def keyText (d : Dialect) : Value → Option (List Char)
  | .mk _ (some (.scalar t _ _)) _ => if d = .go ∧ t = [] then none else some t
  | .mk (some t) none _ => some ('@' :: t.name)
  | _ => none

/-- parser.py:283-291 `_validate_key`, parser.ts:314-327 `validateKey`, parser.go:385-395 `validateKey`. -/
def validKey : Value → Bool
  | .mk _ (some (.sequence _ _)) _ => false
  | .mk _ (some (.scalar _ .heredoc _)) _ => false
  | _ => true

/-- The payload is an object. -/
def isObject : Value → Bool
  | .mk _ (some (.object _ _)) _ => true
  | _ => false

/-- The text of an untagged or tagged bare scalar (parser.py:194-199, parser.ts:142-143, parser.go:276-277). -/
def bareText : Value → Option (List Char)
  | .mk _ (some (.scalar t .bare _)) _ => some t
  | _ => none

/-- Pieces between dots (`split(".")`). -/
def splitDots : List Char → List (List Char)
  | [] => [[]]
  | c :: cs =>
    if c == '.' then [] :: splitDots cs
    else
      match splitDots cs with
      | [] => [[c]]
      | l :: ls => (c :: l) :: ls

/-- Pieces joined with dots. -/
def joinDots : List (List Char) → List Char
  | [] => []
  | [l] => l
  | l :: ls => l ++ '.' :: joinDots ls

/-- The entry for a dotted key (parser.py:329-356, 379-400, parser.ts:200-239, 362-396, parser.go:442-473). -/
def nestPath (v : Value) : List (List Char) → Entry
  | [] => .mk unitValue v none
  | [s] => .mk (bareValue s) v none
  | s :: ss => .mk (bareValue s) (objectValue [nestPath v ss]) none

/-- A key is not followed by a value (parser.py:209, 269, parser.ts:156, 292, parser.go:291, 364). -/
def endsKey (t : Tok) : Bool := t.nl || t.kind == .eof || t.kind == .rbrace

/-- What cannot follow `>`: parser.ts:495, parser.go:594, 657.  (Python asks before it consumes the `>`.) -/
def badAfterGt (d : Dialect) (t : Tok) : Bool :=
  match d with
  | .go => t.nl || t.ws || t.kind == .eof || t.kind == .rbrace || t.kind == .rparen || t.kind == .comma
  | .javascript => t.nl || t.kind == .eof || t.kind == .rbrace || t.kind == .rparen
  | .python => t.nl || t.kind == .eof

/-- parser.py:189 `_parse_value`, parser.ts:135 `parseValue`, parser.go:269 `parseValue`: the value is dropped, and in Go
an error too. -/
def dropResult (d : Dialect) (p : P Value) : P Unit := fun st =>
  match p st with
  | .ok _ st' => .ok () st'
  | .fail e st' => if d = .go then .ok () st' else .fail e st'
  | .fuel => .fuel

mutual

/-- parser.py:449-502 `_parse_value`, parser.ts:454-516 `parseValue`, parser.go:551-621 `parseValue`. -/
def parseValue (d : Dialect) : Nat → P Value
  | 0 => outOfFuel
  | n + 1 => do
    checkErr
    let t ← cur
    match t.kind with
    | .at =>
      advance d
      let c ← cur
      if c.ws || c.kind == .eof || c.kind == .rbrace || c.kind == .rparen || c.kind == .comma || c.kind == .lbrace ||
          c.kind == .lparen then pure unitValue
      else fail .invalidTagName
    | .tag => parseTag d n
    | .lbrace => do
      let es ← parseObject d n
      pure (objectValue es)
    | .lparen => do
      let vs ← parseSequence d n
      pure (.mk none (some (.sequence vs none)) none)
    | .scalar =>
      advance d
      let g ← cur
      if g.kind = .gt ∧ g.ws = false then
        match d with
        | .python =>
          let c ← peek d
          if badAfterGt d c then pure (bareValue t.text)
          else
            advance d
            let es ← parseAttrs d n t.text
            pure (objectValue es)
        | _ =>
          advance d
          let c ← cur
          if badAfterGt d c then fail .expectedValue
          else
            let es ← parseAttrs d n t.text
            pure (objectValue es)
      else pure (bareValue t.text)
    | _ => do
      let p ← parseScalar d
      pure (.mk none (some p) none)

/-- parser.py:418-447 `_parse_tag_value`, parser.ts:419-452 `parseTagValue`, parser.go:505-549 `parseTagValue`. -/
def parseTag (d : Dialect) : Nat → P Value
  | 0 => outOfFuel
  | n + 1 => do
    let t ← cur
    advance d
    let c ← cur
    if c.ws then pure (.mk (some ⟨t.text, none⟩) none none)
    else
      match c.kind with
      | .lbrace => do
        let es ← parseObject d n
        pure (.mk (some ⟨t.text, none⟩) (some (.object es none)) none)
      | .lparen => do
        let vs ← parseSequence d n
        pure (.mk (some ⟨t.text, none⟩) (some (.sequence vs none)) none)
      | .quoted | .raw | .heredoc => do
        let p ← parseScalar d
        pure (.mk (some ⟨t.text, none⟩) (some p) none)
      | .at => do
        advance d
        pure (.mk (some ⟨t.text, none⟩) none none)
      | .scalar => fail .invalidTagName
      | .tag | .gt =>
        if d = .python then fail .invalidTagName else pure (.mk (some ⟨t.text, none⟩) none none)
      | _ => pure (.mk (some ⟨t.text, none⟩) none none)

/-- parser.py:402-416 `_parse_attribute_value`, parser.ts:399-417 `parseAttributeValue`, parser.go:476-503
`parseAttributeValue`. -/
def parseAttributeValue (d : Dialect) : Nat → P Value
  | 0 => outOfFuel
  | n + 1 => do
    let t ← cur
    match t.kind with
    | .lbrace => do
      let es ← parseObject d n
      pure (objectValue es)
    | .lparen => do
      let vs ← parseSequence d n
      pure (.mk none (some (.sequence vs none)) none)
    | .tag => parseTag d n
    | .at => do
      advance d
      pure unitValue
    | _ => do
      let p ← parseScalar d
      pure (.mk none (some p) none)

/-- parser.py:504-550 `_parse_attributes_starting_with`, parser.ts:571-622 `parseAttributesAfterGT`, parser.go:623-688
`parseAttributesAfterGT`, behind the `>`; the loop is a recursive call. -/
def parseAttrs (d : Dialect) : Nat → List Char → P (List Entry)
  | 0, _ => outOfFuel
  | n + 1, key => do
    let v ← parseAttributeValue d n
    let t ← cur
    if t.kind = .scalar ∧ t.nl = false then
      let g ← peek d
      if g.kind = .gt ∧ g.ws = false then
        advance d
        advance d
        let c ← cur
        if d = .go ∧ badAfterGt d c then fail .expectedValue
        else
          let es ← parseAttrs d n t.text
          pure (.mk (bareValue key) v none :: es)
      else pure [.mk (bareValue key) v none]
    else pure [.mk (bareValue key) v none]

/-- parser.py:571-591 `_parse_object`, parser.ts:654-682 `parseObject`, parser.go:714-750 `parseObject`. -/
def parseObject (d : Dialect) : Nat → P (List Entry)
  | 0 => outOfFuel
  | n + 1 => do
    advance d
    let es ← parseEntries d n []
    let t ← cur
    if t.kind = .eof then fail .unclosedObject
    else
      advance d
      pure es

/-- The loop of `parseObject` (parser.py:578-585, parser.ts:660-670, parser.go:723-736). -/
def parseEntries (d : Dialect) : Nat → List (List Char) → P (List Entry)
  | 0, _ => outOfFuel
  | n + 1, seen => do
    let t ← cur
    if t.kind = .rbrace ∨ t.kind = .eof then pure []
    else
      let (e, seen') ← parseEntry d n seen
      let c ← cur
      if c.kind = .comma then advance d
      let es ← parseEntries d n seen'
      pure (e.toList ++ es)

/-- parser.py:226-273 `_parse_entry_with_dup_check` with 358-400 `_expand_dotted_path`, parser.ts:242-302
`parseEntryWithDupCheck` with 337-397 `expandDottedPath`, parser.go:320-373 `parseEntryWithDupCheck`, which does not
expand dotted keys.  `seen`: the texts of the keys of the object so far. -/
def parseEntry (d : Dialect) : Nat → List (List Char) → P (Option Entry × List (List Char))
  | 0, _ => outOfFuel
  | n + 1, seen => do
    skipCommas d n
    checkErr
    let t ← cur
    if t.kind = .gt ∧ d ≠ .go then fail .expectedValue
    else if t.kind = .eof ∨ t.kind = .rbrace then pure (none, seen)
    else
      let key ← parseValue d n
      checkErr
      let c ← cur
      if isObject key then
        if c.nl || c.kind == .eof || c.kind == .rbrace || c.kind == .comma then pure (some (.mk unitValue key none), seen)
        else
          dropResult d (parseValue d n)
          pure (some (.mk unitValue key none), seen)
      else if d ≠ .go ∧ ((bareText key).getD []).contains '.' then
        let segs := splitDots ((bareText key).getD [])
        if segs.contains [] then fail .invalidKey
        else if seen.contains (segs.headD []) then fail .duplicateKey
        else
          let v ← parseValue d n
          pure (some (nestPath v segs), segs.headD [] :: seen)
      else
        let kt := keyText d key
        if (kt.map seen.contains).getD false then fail .duplicateKey
        else if !validKey key then fail .invalidKey
        else if endsKey c then pure (some (.mk key unitValue none), kt.toList ++ seen)
        else
          let v ← parseValue d n
          pure (some (.mk key v none), kt.toList ++ seen)

/-- parser.py:593-612 `_parse_sequence`, parser.ts:684-710 `parseSequence`, parser.go:752-787 `parseSequence`. -/
def parseSequence (d : Dialect) : Nat → P (List Value)
  | 0 => outOfFuel
  | n + 1 => do
    advance d
    let vs ← parseItems d n
    let t ← cur
    if t.kind = .eof then fail .unclosedSequence
    else
      advance d
      pure vs

/-- The loop of `parseSequence` (parser.py:599-606, parser.ts:689-698, parser.go:760-773). -/
def parseItems (d : Dialect) : Nat → P (List Value)
  | 0 => outOfFuel
  | n + 1 => do
    let t ← cur
    if t.kind = .rparen ∨ t.kind = .eof then pure []
    else if t.kind = .comma then fail .commaInSequence
    else
      let v ← parseValue d n
      let vs ← parseItems d n
      pure (v :: vs)

end

/-! ## Paths at the root -/

/-- parser.py:26-29, types.ts:15-17, parser.go:16-23: the fields of the path state; paths in the sets are joined with
dots. -/
structure Paths where
  current : List (List Char)
  closed : List (List Char)
  assigned : List (List Char × PathValueKind)
  deriving DecidableEq, Repr

/-- The length of the common prefix of two paths (parser.py:55-61). -/
def commonLen : List (List Char) → List (List Char) → Nat
  | a :: as, b :: bs => if a = b then commonLen as bs + 1 else 0
  | _, _ => 0

/-- The joined prefixes of a path with lengths from `i` to one less than `j`. -/
def joinedPrefixes (path : List (List Char)) (i j : Nat) : List (List Char) :=
  (List.range' i (j - i)).map fun k => joinDots (path.take k)

/-- parser.py:43-53, types.ts:32-42, parser.go:49-65: what is wrong with a prefix of the path. -/
def prefixError (ps : Paths) (p : List Char) : Option Err :=
  if p ∈ ps.closed then some .reopened
  else if ps.assigned.lookup p = some .terminal then some .nestIntoTerminal
  else none

/-- parser.py:31-76 `check_and_update`, types.ts:19-71 `checkAndUpdate`, parser.go:41-103 `checkAndUpdate`. -/
def checkPath (d : Dialect) (ps : Paths) (path : List (List Char)) (kind : PathValueKind) : Except Err Paths :=
  match ps.assigned.lookup (joinDots path) with
  | some .terminal => .error .duplicateKey
  | some .object => .error (if d = .go then .duplicateKey else .reopened)
  | none =>
    match (joinedPrefixes path 1 path.length).findSome? (prefixError ps) with
    | some e => .error e
    | none =>
      .ok {
        current := path
        closed := joinedPrefixes ps.current (commonLen path ps.current + 1) (ps.current.length + 1) ++ ps.closed
        assigned := (joinDots path, kind) ::
          ((joinedPrefixes path 1 path.length).filter fun p => (ps.assigned.lookup p).isNone).map (·, .object) ++
          ps.assigned }

/-- The path check of an entry, if its key is tracked. -/
def track (d : Dialect) (ps : Paths) (key : Option (List (List Char))) (kind : PathValueKind) : P Paths :=
  match key with
  | none => pure ps
  | some path =>
    match checkPath d ps path kind with
    | .ok ps' => pure ps'
    | .error e => fail e

/-- parser.py:218-221, 321-324, parser.ts:169, 195, parser.go:308-311, 432-435. -/
def valueKind (v : Value) : PathValueKind := if isObject v then .object else .terminal

/-- parser.py:170-224 `_parse_entry_with_path_check` with 300-356 `_expand_dotted_path_with_state`, parser.ts:115-174
`parseEntryWithPathCheck` with 176-240 `expandDottedPathWithState`, parser.go:245-318 `parseEntryWithPathCheck` with
408-474 `expandDottedPathWithState`. -/
def parseRootEntry (d : Dialect) (n : Nat) (ps : Paths) : P (Option Entry × Paths) := do
  skipCommas d n
  checkErr
  let t ← cur
  if t.kind = .gt ∧ d ≠ .go then fail .expectedValue
  else if t.kind = .eof ∨ t.kind = .rbrace then pure (none, ps)
  else
    let key ← parseValue d n
    checkErr
    let c ← cur
    if isObject key then
      if c.nl || c.kind == .eof || c.kind == .rbrace || c.kind == .comma then pure (some (.mk unitValue key none), ps)
      else
        dropResult d (parseValue d n)
        pure (some (.mk unitValue key none), ps)
    else if ((bareText key).getD []).contains '.' then
      let segs := splitDots ((bareText key).getD [])
      if segs.contains [] then fail .invalidKey
      else
        let v ← parseValue d n
        let ps' ← track d ps (some segs) (valueKind v)
        pure (some (nestPath v segs), ps')
    else if !validKey key then fail .invalidKey
    else
      let path := (keyText d key).map fun k => [k]
      if endsKey c then
        let ps' ← track d ps path .terminal
        pure (some (.mk key unitValue none), ps')
      else
        let v ← parseValue d n
        let ps' ← track d ps path (valueKind v)
        pure (some (.mk key v none), ps')

/-- The loop over the root entries (parser.py:160-163, parser.ts:102-107, parser.go:226-237). -/
def parseRootEntries (d : Dialect) : Nat → Paths → P (List Entry)
  | 0, _ => outOfFuel
  | n + 1, ps => do
    let t ← cur
    if t.kind = .eof then pure []
    else
      checkErr
      let (e, ps') ← parseRootEntry d n ps
      let es ← parseRootEntries d n ps'
      pure (e.toList ++ es)

/-- The loop to the end of the text (parser.py:147-148, parser.ts:86-88, parser.go:210-212). -/
def skipToEnd (d : Dialect) : Nat → P Unit
  | 0 => outOfFuel
  | n + 1 => do
    let t ← cur
    if t.kind = .eof then pure ()
    else
      advance d
      skipToEnd d n

/-- parser.py:119-168 `parse`, parser.ts:57-113 `parse`, parser.go:174-243 `parse`. -/
def parseDocument (d : Dialect) (n : Nat) : P (List Entry) := do
  skipCommas d n
  let t ← cur
  if t.kind = .lbrace then
    let es ← parseObject d n
    skipCommas d n
    let c ← cur
    if c.kind = .eof then pure [.mk unitValue (objectValue es) none]
    else
      skipToEnd d n
      fail .trailingContent
  else parseRootEntries d n ⟨[], [], []⟩

/-- parser.py:615-617 `parse`, parser.ts:713-716 `parse`, styx.go:110-113 `Parse`: with the fuel `n`, the entries of the document,
an error, or (`none`) no answer. -/
def parse (d : Dialect) (n : Nat) (s : List Char) : Option (Except Err (List Entry)) :=
  match nextToken d s with
  | .error e => some (.error e)
  | .ok (t, r) =>
    match parseDocument d n ⟨t, none, r, none⟩ with
    | .ok es _ => some (.ok es)
    | .fail e _ => some (.error e)
    | .fuel => none

end Styx.Impl
