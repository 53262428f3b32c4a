import Verif.Swift.Lexer
import Verif.Impl.Parser

/-!
# Model of the parser of the Swift implementation

Source: implementations/styx-swift/Sources/Styx/Parser.swift.  Loops and recursive calls use up fuel; a run that has
used up its fuel has no answer yet.  Spans are left out.  The parser keeps the current token; here the state is the
text from the end of the token before, and the current token is read from it when it is asked for.
-/

namespace Styx.Swift

/-- The messages of `ParseError` in Parser.swift. -/
inductive Err where
  | lexer (e : LexErr) | invalidKey | emptySegment | duplicateKey | reopened | nestIntoTerminal | expectedTagName
  | invalidTagName | expectedValue | unclosedObject | unclosedSequence | commaInSequence | trailingContent
  deriving DecidableEq, Repr

/-- What a run gives: a value, an error that is thrown, or no answer with this fuel. -/
inductive Out (α : Type) where
  | ok (a : α) (st : St)
  | fail (e : Err)
  | fuel

/-- Programs over the state of a parser. -/
def P (α : Type) : Type := St → Out α

/-- Sequencing: an error ends the run. -/
def P.bind {α β : Type} (p : P α) (f : α → P β) : P β := fun st =>
  match p st with
  | .ok a st' => f a st'
  | .fail e => .fail e
  | .fuel => .fuel

instance : Monad P where
  pure a := fun st => .ok a st
  bind := P.bind

/-- An error. -/
def fail {α : Type} (e : Err) : P α := fun _ => .fail e

/-- No answer. -/
def outOfFuel {α : Type} : P α := fun _ => .fuel

/-- Parser.swift:80 `current`. -/
def cur (U : Classes) : P Tok := fun st => .ok (nextToken U st).1 st

/-- Parser.swift:138-142 `advance`: the token that was current. -/
def advance (U : Classes) : P Tok := fun st => .ok (nextToken U st).1 (nextToken U st).2

/-- Parser.swift:616-626 `tokenToScalar`. -/
def tokenScalar (t : Tok) : Payload :=
  .scalar t.text (match t.kind with
    | .quoted => .quoted
    | .raw => .raw
    | .heredoc => .heredoc
    | _ => .bare) none

/-- The token is a scalar (Parser.swift:373, 445, 539). -/
def isScalar (k : Kind) : Bool := k == .bare || k == .quoted || k == .raw || k == .heredoc

/-- What cannot follow the `>` of an attribute (Parser.swift:481-482, 502-503). -/
def badAfterGt (t : Tok) : Bool :=
  t.nl || t.ws || t.kind == .eof || t.kind == .rBrace || t.kind == .rParen || t.kind == .comma

/-- The tag name in a bare word behind `@` (Parser.swift:394-406): up to the first `@`. -/
def tagPart (s : List Char) : List Char := s.takeWhile (· != '@')

/-- Parser.swift:410-424: what is wrong with a tag name. -/
def tagError (U : Classes) (n : List Char) : Option Err :=
  if n.isEmpty then some .expectedTagName
  else if (n.head?.map fun c => U.isNumber c || c == '-').getD false then some .invalidTagName
  else if n.all fun c => U.isLetter c || U.isNumber c || c == '-' || c == '_' then none
  else some .invalidTagName

mutual

/-- Parser.swift:352-379 `parseValue`. -/
def parseValue (U : Classes) : Nat → P Value
  | 0 => outOfFuel
  | n + 1 => do
    let t ← cur U
    match t.kind with
    | .error e => fail (.lexer e)
    | .at => parseTagged U n
    | .lBrace => do
      let es ← parseObject U n
      pure (.mk none (some (.object es none)) none)
    | .lParen => do
      let vs ← parseSequence U n
      pure (.mk none (some (.sequence vs none)) none)
    | .bare | .quoted | .raw | .heredoc => do
      let p ← parseScalar U n
      pure (.mk none (some p) none)
    | _ => pure (.mk none none none)

/-- Parser.swift:381-459 `parseTaggedValue`. -/
def parseTagged (U : Classes) : Nat → P Value
  | 0 => outOfFuel
  | n + 1 => do
    let _ ← advance U
    let c ← cur U
    if c.kind = .bare ∧ c.ws = false then
      let name ← advance U
      let tag := tagPart name.text
      match tagError U tag with
      | some e => fail e
      | none =>
        if '@' ∈ name.text then pure (.mk (some ⟨tag, none⟩) none none)
        else
          let p ← cur U
          if p.kind = .lBrace ∧ p.ws = false then
            let es ← parseObject U n
            pure (.mk (some ⟨tag, none⟩) (some (.object es none)) none)
          else if p.kind = .lParen ∧ p.ws = false then
            let vs ← parseSequence U n
            pure (.mk (some ⟨tag, none⟩) (some (.sequence vs none)) none)
          else if isScalar p.kind = true ∧ p.ws = false ∧ p.nl = false then
            let p ← parseScalar U n
            pure (.mk (some ⟨tag, none⟩) (some p) none)
          else if p.kind = .at ∧ p.ws = false then
            let _ ← advance U
            pure (.mk (some ⟨tag, none⟩) none none)
          else pure (.mk (some ⟨tag, none⟩) none none)
    else pure (.mk none none none)

/-- Parser.swift:461-471 `parseScalarOrAttributes`, with the beginning of 473-527 `parseAttributesStartingWith`. -/
def parseScalar (U : Classes) : Nat → P Payload
  | 0 => outOfFuel
  | n + 1 => do
    let t ← advance U
    let g ← cur U
    if g.kind = .gt ∧ g.ws = false then
      let _ ← advance U
      let c ← cur U
      if badAfterGt c then fail .expectedValue
      else
        let v ← parseAttributeValue U n
        let es ← parseAttrs U n
        pure (.object (.mk (.mk none (some (tokenScalar t)) none) v none :: es) none)
    else pure (tokenScalar t)

/-- The loop of Parser.swift:490-518: a bare word that is not followed by `>` is consumed and lost. -/
def parseAttrs (U : Classes) : Nat → P (List Entry)
  | 0 => outOfFuel
  | n + 1 => do
    let t ← cur U
    if t.ws = true ∧ t.nl = false ∧ t.kind = .bare then
      let key ← advance U
      let g ← cur U
      if g.kind = .gt ∧ g.ws = false then
        let _ ← advance U
        let c ← cur U
        if badAfterGt c then fail .expectedValue
        else
          let v ← parseAttributeValue U n
          let es ← parseAttrs U n
          pure (.mk (.mk none (some (tokenScalar key)) none) v none :: es)
      else pure []
    else pure []

/-- Parser.swift:529-546 `parseAttributeValue`. -/
def parseAttributeValue (U : Classes) : Nat → P Value
  | 0 => outOfFuel
  | n + 1 => do
    let t ← cur U
    match t.kind with
    | .at => parseTagged U n
    | .lBrace => do
      let es ← parseObject U n
      pure (.mk none (some (.object es none)) none)
    | .lParen => do
      let vs ← parseSequence U n
      pure (.mk none (some (.sequence vs none)) none)
    | .bare | .quoted | .raw | .heredoc => do
      let t ← advance U
      pure (.mk none (some (tokenScalar t)) none)
    | _ => fail .expectedValue

/-- Parser.swift:553-579 `parseObjectInternal`. -/
def parseObject (U : Classes) : Nat → P (List Entry)
  | 0 => outOfFuel
  | n + 1 => do
    let _ ← advance U
    let es ← parseEntries U n
    let t ← cur U
    if t.kind = .rBrace then
      let _ ← advance U
      pure es
    else fail .unclosedObject

/-- The loop of Parser.swift:559-568. -/
def parseEntries (U : Classes) : Nat → P (List Entry)
  | 0 => outOfFuel
  | n + 1 => do
    let t ← cur U
    if t.kind = .rBrace ∨ t.kind = .eof then pure []
    else
      let k ← parseValue U n
      let v ← parseValue U n
      let c ← cur U
      if c.kind = .comma then
        let _ ← advance U
        let es ← parseEntries U n
        pure (.mk k v none :: es)
      else
        let es ← parseEntries U n
        pure (.mk k v none :: es)

/-- Parser.swift:586-614 `parseSequenceInternal`. -/
def parseSequence (U : Classes) : Nat → P (List Value)
  | 0 => outOfFuel
  | n + 1 => do
    let _ ← advance U
    let vs ← parseItems U n
    let t ← cur U
    if t.kind = .rParen then
      let _ ← advance U
      pure vs
    else fail .unclosedSequence

/-- The loop of Parser.swift:592-603. -/
def parseItems (U : Classes) : Nat → P (List Value)
  | 0 => outOfFuel
  | n + 1 => do
    let t ← cur U
    if t.kind = .rParen ∨ t.kind = .eof then pure []
    else if t.kind = .comma then fail .commaInSequence
    else
      let v ← parseValue U n
      let vs ← parseItems U n
      pure (v :: vs)

end

/-! ## Paths at the root -/

/-- Parser.swift:17-23 `PathState`, without the spans. -/
structure Paths where
  current : List (List Char)
  closed : List (List (List Char))
  assigned : List (List (List Char) × PathValueKind)
  deriving DecidableEq, Repr

/-- The prefixes of a path with lengths from `i` to one less than `j`. -/
def prefixes (path : List (List Char)) (i j : Nat) : List (List (List Char)) :=
  (List.range' i (j - i)).map fun k => path.take k

/-- Parser.swift:36-41: what is wrong with a prefix of the path. -/
def prefixError (ps : Paths) (p : List (List Char)) : Option Err :=
  if p ∈ ps.closed then some .reopened
  else if ps.assigned.lookup p = some .terminal then some .nestIntoTerminal
  else none

/-- Parser.swift:26-73 `checkAndUpdate`. -/
def checkPath (ps : Paths) (path : List (List Char)) (kind : PathValueKind) : Except Err Paths :=
  match ps.assigned.lookup path with
  | some _ => .error .duplicateKey
  | none =>
    match (prefixes path 1 path.length).findSome? (prefixError ps) with
    | some e => .error e
    | none =>
      .ok {
        current := path
        closed := prefixes ps.current (Impl.commonLen path ps.current + 1) (ps.current.length + 1) ++ ps.closed
        assigned := (path, kind) ::
          ((prefixes path 1 path.length).filter fun p => (ps.assigned.lookup p).isNone).map (·, .object) ++
          ps.assigned }

/-- The path check of an entry (Parser.swift:181-185, 201-205, 311-315). -/
def track (ps : Paths) (path : List (List Char)) (kind : PathValueKind) : P Paths :=
  match checkPath ps path kind with
  | .ok ps' => pure ps'
  | .error e => fail e

/-- Parser.swift:211-226 `getKeyText`. -/
def keyText : Value → List Char
  | .mk (some t) (some (.scalar s _ _)) _ => '@' :: t.name ++ s
  | .mk (some t) _ _ => '@' :: t.name
  | .mk none (some (.scalar s _ _)) _ => s
  | .mk none none _ => ['@']
  | .mk none _ _ => []

/-- The text of a dotted key (Parser.swift:168-170): an untagged bare scalar with a dot in it. -/
def dottedKey : Value → Option (List Char)
  | .mk none (some (.scalar s .bare _)) _ => if '.' ∈ s then some s else none
  | _ => none

/-- Parser.swift:153-208 `parseEntry` with 280-350 `parseDottedPathEntry`.  The key of an object at key position is the
unit (158-161); `Impl.validKey` is 246-266 `validateKey`, `Impl.valueKind` 191-198 and 302-308, `Impl.nestPath`
317-349. -/
def parseRootEntry (U : Classes) (n : Nat) (ps : Paths) : P (Entry × Paths) := do
  let key ← parseValue U n
  match key with
  | .mk none (some (.object es sp)) sp' =>
    pure (.mk (.mk none none none) (.mk none (some (.object es sp)) sp') none, ps)
  | _ =>
    if !Impl.validKey key then fail .invalidKey
    else
      match dottedKey key with
      | some s =>
        if (Impl.splitDots s).contains [] then fail .emptySegment
        else
          let c ← cur U
          if c.nl || c.kind == .eof || c.kind == .rBrace then
            let ps' ← track ps (Impl.splitDots s) .terminal
            pure (Impl.nestPath (.mk none none none) (Impl.splitDots s), ps')
          else
            let v ← parseValue U n
            let ps' ← track ps (Impl.splitDots s) (Impl.valueKind v)
            pure (Impl.nestPath v (Impl.splitDots s), ps')
      | none =>
        let c ← cur U
        if c.nl || c.kind == .eof || c.kind == .rBrace then
          let ps' ← track ps [keyText key] .terminal
          pure (.mk key (.mk none none none) none, ps')
        else
          let v ← parseValue U n
          let ps' ← track ps [keyText key] (Impl.valueKind v)
          pure (.mk key v none, ps')

/-- The loop over the root entries (Parser.swift:124-127). -/
def parseRootEntries (U : Classes) : Nat → Paths → P (List Entry)
  | 0, _ => outOfFuel
  | n + 1, ps => do
    let t ← cur U
    if t.kind = .eof then pure []
    else
      let (e, ps') ← parseRootEntry U n ps
      let es ← parseRootEntries U n ps'
      pure (e :: es)

/-- Parser.swift:92-130 `parse`.  (Simplified: without the loop 104-106 to the end of trailing content, which only finds
a span.) -/
def parseDocument (U : Classes) (n : Nat) : P (List Entry) := do
  let t ← cur U
  if t.kind = .lBrace then
    let es ← parseObject U n
    let c ← cur U
    if c.kind = .eof then pure [.mk (.mk none none none) (.mk none (some (.object es none)) none) none]
    else fail .trailingContent
  else parseRootEntries U n ⟨[], [], []⟩

/-- Parser.swift:83-130 `init` and `parse`: with the fuel `n`, the entries of the document, an error, or (`none`) no
answer. -/
def parse (U : Classes) (n : Nat) (s : List Char) : Option (Except Err (List Entry)) :=
  match parseDocument U n ⟨s, false⟩ with
  | .ok es _ => some (.ok es)
  | .fail e => some (.error e)
  | .fuel => none

end Styx.Swift
