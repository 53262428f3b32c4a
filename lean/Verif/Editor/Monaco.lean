import Verif.Basic

/-!
# The tokens provider of the Monaco editor

Models `editors/monaco-styx/src/tokenizer.ts`.  Texts are lists of characters where the code counts UTF-16 units: no pattern
looks at half a character.  The provider is modelled as built without `monacoEditor` (lines 112-120), so that heredocs have
one colour.
-/

namespace Styx.Monaco

/-- tokenizer.ts:4 `ContextType`. -/
inductive Ctx | object | sequence
  deriving DecidableEq, Repr

/-- tokenizer.ts:5 `EntryPhase`. -/
inductive Phase | key | value
  deriving DecidableEq, Repr

/-- tokenizer.ts:72-88 `TOKEN`. -/
inductive Scope
  | white | comment | commentDoc | key | stringKey | tagKey | value | tag | string | stringHeredoc | stringEscape
  | delimiterCurly | delimiterParen | delimiterComma | invalid
  deriving DecidableEq, Repr

/-- tokenizer.ts:13-26 `StyxState`.  The top of the stack comes first.  (Simplified: of a heredoc only the delimiter; its
language is for embedded languages, and its indentation is not used.) -/
structure St where
  stack : List Ctx
  phase : Phase
  heredoc : Option (List Char)
  raw : Option Nat
  inString : Bool
  stringIsKey : Bool
  deriving DecidableEq, Repr

/-- tokenizer.ts:28-61 `createInitialState`. -/
def initial : St := ⟨[.object], .key, none, none, false, false⟩

/-- tokenizer.ts:63-69 `currentContext`, `isInObjectContext`. -/
def inObject (st : St) : Bool := st.stack.head?.getD .object == .object

/-- tokenizer.ts:90-93 `Token`: where it starts in the line. -/
abbrev Token := Nat × Scope

/-- tokenizer.ts:136-146 `atomType`. -/
def atomType (st : St) (isTag : Bool) : Scope :=
  if !inObject st then if isTag then .tag else .value
  else if st.phase = .key then if isTag then .tagKey else .key
  else if isTag then .tag else .value

/-- tokenizer.ts:361 and 383: the atom that follows is a key. -/
def isKey (st : St) : Bool := inObject st && st.phase == .key

/-- tokenizer.ts:209, 247, 362 and 384. -/
def stringScope (key : Bool) : Scope := if key then .stringKey else .string

/-- tokenizer.ts:156-166 `afterAtom`. -/
def afterAtom (st : St) : St :=
  if inObject st then if st.phase = .key then { st with phase := .value } else { st with phase := .key } else st

/-- `[ \t]` -/
def blank (c : Char) : Bool := c == ' ' || c == '\t'

/-- `\s` -/
def space (c : Char) : Bool :=
  c == ' ' || c == '\t' || c == '\n' || c == '\r' || c == '\x0b' || c == '\x0c' || c == '\u00a0' || c == '\ufeff' ||
    c == '\u1680' || ('\u2000' ≤ c && c ≤ '\u200a') || c == '\u2028' || c == '\u2029' || c == '\u202f' || c == '\u205f' ||
    c == '\u3000'

/-- `.` -/
def dot (c : Char) : Bool := !(c == '\n' || c == '\r' || c == '\u2028' || c == '\u2029')

/-- `[A-Za-z_]` -/
def tagStart (c : Char) : Bool :=
  (65 ≤ c.toNat && c.toNat ≤ 90) || (97 ≤ c.toNat && c.toNat ≤ 122) || c == '_'

/-- `[A-Za-z0-9_-]` -/
def tagChar (c : Char) : Bool := tagStart c || (48 ≤ c.toNat && c.toNat ≤ 57) || c == '-'

/-- `[A-Z]` -/
def upper (c : Char) : Bool := 65 ≤ c.toNat && c.toNat ≤ 90

/-- `[A-Z0-9_]` -/
def delimChar (c : Char) : Bool := upper c || (48 ≤ c.toNat && c.toNat ≤ 57) || c == '_'

/-- `[a-z]` -/
def lower (c : Char) : Bool := 97 ≤ c.toNat && c.toNat ≤ 122

/-- `[a-z0-9_.-]` -/
def langChar (c : Char) : Bool := lower c || (48 ≤ c.toNat && c.toNat ≤ 57) || c == '_' || c == '.' || c == '-'

/-- tokenizer.ts:105 `BARE_CONT_CHAR`. -/
def bareCont (c : Char) : Bool :=
  !(space c || c == '{' || c == '}' || c == '(' || c == ')' || c == ',' || c == '"' || c == '>')

/-- tokenizer.ts:104 `BARE_FIRST_CHAR`. -/
def bareFirst (c : Char) : Bool := bareCont c && !(c == '=' || c == '@')

/-- tokenizer.ts:101 `HEREDOC_START`: the delimiter, and the length of the match. -/
def heredocStart : List Char → Option (List Char × Nat)
  | '<' :: '<' :: c :: cs =>
    if upper c then
      let d := c :: cs.takeWhile delimChar
      match cs.dropWhile delimChar with
      | ',' :: l :: ls =>
        if lower l then some (d, 2 + d.length + 2 + (ls.takeWhile langChar).length) else some (d, 2 + d.length)
      | _ => some (d, 2 + d.length)
    else none
  | _ => none

/-- tokenizer.ts:102 `RAW_STRING_START`: the number of hashes. -/
def rawStart : List Char → Option Nat
  | 'r' :: cs =>
    let n := (cs.takeWhile (· == '#')).length
    if n ≠ 0 ∧ (cs.drop n).head? = some '"' then some n else none
  | _ => none

/-- `'"' + '#'.repeat(hashes)`. -/
def closePattern (hashes : Nat) : List Char := '"' :: List.replicate hashes '#'

/-- `String.prototype.indexOf`. -/
def indexOf (pat : List Char) : List Char → Option Nat
  | [] => if pat.isPrefixOf [] then some 0 else none
  | c :: cs => if pat.isPrefixOf (c :: cs) then some 0 else (indexOf pat cs).map (· + 1)

/-- tokenizer.ts:389-406: the loop in a quoted string, from the character at `pos`: the tokens, what is behind, and whether
the string is closed. -/
def quotedLoop (scope : Scope) : Nat → List Char → List Token × List Char × Bool
  | _, [] => ([], [], false)
  | pos, '"' :: cs => ([(pos, scope)], cs, true)
  | pos, '\\' :: _ :: cs =>
    match quotedLoop scope (pos + 2) cs with
    | (ts, r) => ((pos, .stringEscape) ::
        ((if cs ≠ [] ∧ cs.head? ≠ some '"' then [(pos + 2, scope)] else []) ++ ts), r)
  | pos, _ :: cs => quotedLoop scope (pos + 1) cs

/-- One round of the main loop: the tokens it adds, counted from where it starts, the number of characters it takes, the
state behind it, and whether it ends the line. -/
structure Step where
  tokens : List Token
  used : Nat
  st : St
  stop : Bool
  deriving DecidableEq, Repr

/-- tokenizer.ts:305-310 and 326-330: behind a closing bracket. -/
def closed (st : St) : St :=
  let st := { st with stack := st.stack.tail }
  if inObject st && st.phase == .value then { st with phase := .key } else st

/-- tokenizer.ts:423-467: a tag with a name. -/
def tagStep (st : St) (name after : List Char) : Step :=
  let payload := after.head? = some '{' ∨ after.head? = some '(' ∨ after.head? = some '"' ∨
    (rawStart after).isSome ∨ (after.take 2 = ['<', '<'] ∧ (after.drop 2).head?.any upper)
  ⟨[(0, atomType st true)], 1 + name.length, if payload then st else afterAtom st, false⟩

/-- tokenizer.ts:359-379: a raw string. -/
def rawStep (st : St) (rest : List Char) (hashes : Nat) : Step :=
  let key := isKey st
  match indexOf (closePattern hashes) (rest.drop (hashes + 2)) with
  | some i => ⟨[(0, stringScope key)], hashes + 2 + i + (hashes + 1), afterAtom st, false⟩
  | none => ⟨[(0, stringScope key)], rest.length, { st with raw := some hashes, stringIsKey := key }, true⟩

/-- tokenizer.ts:382-413: a quoted string, behind its quote. -/
def quotedStep (st : St) (cs : List Char) : Step :=
  let key := isKey st
  match quotedLoop (stringScope key) 1 cs with
  | (ts, r, ended) =>
    let st := if ended then afterAtom st else st
    let st := if r = [] ∧ ('"' :: cs).getLast? ≠ some '"' then { st with inString := true, stringIsKey := key } else st
    ⟨(0, stringScope key) :: ts, 1 + cs.length - r.length, st, false⟩

/-- tokenizer.ts:267-487: one round of the main loop. -/
def step (st : St) : List Char → Step
  | [] => ⟨[], 0, st, true⟩
  | c :: cs =>
    if blank c then ⟨[(0, .white)], 1 + (cs.takeWhile blank).length, st, false⟩
    else if ['/', '/', '/'].isPrefixOf (c :: cs) then
      ⟨[(0, .commentDoc)], 3 + ((cs.drop 2).takeWhile dot).length, st, false⟩
    else if ['/', '/'].isPrefixOf (c :: cs) then
      ⟨[(0, .comment)], 2 + ((cs.drop 1).takeWhile dot).length, st, false⟩
    else if c = '{' then ⟨[(0, .delimiterCurly)], 1, { st with stack := .object :: st.stack, phase := .key }, false⟩
    else if c = '}' then ⟨[(0, .delimiterCurly)], 1, closed st, false⟩
    else if c = '(' then ⟨[(0, .delimiterParen)], 1, { st with stack := .sequence :: st.stack }, false⟩
    else if c = ')' then ⟨[(0, .delimiterParen)], 1, closed st, false⟩
    else if c = ',' then ⟨[(0, .delimiterComma)], 1, if inObject st then { st with phase := .key } else st, false⟩
    else match heredocStart (c :: cs) with
    | some (d, n) => ⟨[(0, .stringHeredoc)], n, { st with heredoc := some d }, true⟩
    | none =>
      match rawStart (c :: cs) with
      | some hashes => rawStep st (c :: cs) hashes
      | none =>
        if c = '"' then quotedStep st cs
        else if c = '@' then
          if cs.head?.any tagStart then tagStep st (cs.takeWhile tagChar) (cs.dropWhile tagChar)
          else ⟨[(0, atomType st true)], 1, afterAtom st, false⟩
        else if bareFirst c then
          ⟨[(0, atomType st false)], 1 + (cs.takeWhile bareCont).length, afterAtom st, false⟩
        else ⟨[(0, .invalid)], 1, st, false⟩

/-- tokenizer.ts:489-492: the end of the line. -/
def endLine (st : St) : St := if inObject st then { st with phase := .key } else st

/-- tokenizer.ts:267-494: the main loop, from position `pos` with the text `rest` of the line.  (Every round takes a
character, so the length of the line suffices as a number of rounds.) -/
def mainLoop : Nat → Nat → List Char → St → List Token × St
  | 0, _, _, st => ([], endLine st)
  | n + 1, pos, rest, st =>
    if rest = [] then ([], endLine st)
    else
      let s := step st rest
      let ts := s.tokens.map fun t => (pos + t.1, t.2)
      if s.stop then (ts, s.st)
      else
        match mainLoop n (pos + s.used) (rest.drop s.used) s.st with
        | (us, st') => (ts ++ us, st')

/-- tokenizer.ts:172: `^(\s*)(delim)\s*$`. -/
def closes (delim line : List Char) : Bool :=
  let r := line.dropWhile space
  delim.isPrefixOf r && (r.drop delim.length).all space

/-- tokenizer.ts:210-234: the loop in a quoted string continued from the line before: the tokens, the position, what is
behind, and whether the string is closed. -/
def continuedLoop (scope : Scope) (ts : List Token) : Nat → List Char → List Token × Nat × List Char × Bool
  | pos, [] => (ts, pos, [], false)
  | pos, '"' :: cs => (ts ++ [(pos, scope)], pos + 1, cs, true)
  | pos, '\\' :: _ :: cs =>
    let ts := if ts.getLast?.map (·.1) ≠ some pos then ts ++ [(pos, .stringEscape)] else ts
    continuedLoop scope (if cs ≠ [] then ts ++ [(pos + 2, scope)] else ts) (pos + 2) cs
  | pos, _ :: cs => continuedLoop scope (if ts = [] then [(pos, scope)] else ts) (pos + 1) cs

/-- tokenizer.ts:245-264 and the main loop: the rest of a line behind a continued quoted string, if there was one. -/
def tokenizeRaw (pos : Nat) (rest : List Char) (st : St) : List Token × St :=
  match st.raw with
  | some hashes =>
    if rest = [] then mainLoop rest.length pos rest st
    else
      match indexOf (closePattern hashes) rest with
      | some i =>
        let used := i + (hashes + 1)
        match mainLoop rest.length (pos + used) (rest.drop used) (afterAtom { st with raw := none }) with
        | (ts, st') => ((pos, stringScope st.stringIsKey) :: ts, st')
      | none => ([(pos, stringScope st.stringIsKey)], st)
  | none => mainLoop rest.length pos rest st

/-- tokenizer.ts:126-495 `tokenize`: the tokens of a line and the state behind it. -/
def tokenize (line : List Char) (st : St) : List Token × St :=
  match st.heredoc with
  | some delim =>
    if closes delim line then ([(0, .stringHeredoc)], afterAtom { st with heredoc := none })
    else ([(0, .stringHeredoc)], st)
  | none =>
    if st.inString then
      let scope := stringScope st.stringIsKey
      match continuedLoop scope [] 0 line with
      | (ts, _, _, false) => (if ts = [] then [(0, scope)] else ts, st)
      | (ts, pos, rest, true) =>
        match tokenizeRaw pos rest (afterAtom { st with inString := false }) with
        | (us, st') => (ts ++ us, st')
    else tokenizeRaw 0 line st

end Styx.Monaco
