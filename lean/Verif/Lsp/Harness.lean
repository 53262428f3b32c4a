import Verif.Lsp.Complete
import Verif.Lsp.Context
import Verif.Lsp.Hover

/-!
# Model: the requests an extension gets, from the server and from the test harness

Source: crates/styx-lsp/src/testing/harness.rs and the places of server.rs that build the parameters of
requests to extensions.  The transport (processes, channels, locks) is left out: a request is the record of its
parameters.  As in `Verif/Lsp/Model.lean`, casts to `u32` are left out.
-/

namespace Styx.Lsp

open Styx

/-- testing/harness.rs:55-61 `CursorInfo`. -/
structure CursorInfo where
  offset : Nat
  line : Nat
  character : Nat
  deriving DecidableEq, Repr

/-- testing/harness.rs:44-53 `TestDocument`, without the name of the document. -/
structure TestDocument where
  source : List Char
  cursor : Option CursorInfo
  deriving DecidableEq, Repr

/-- testing/harness.rs:71-72 `source.find('|')` and `source.remove(pos)`: the text before and after the first
bar. -/
def splitBar : List Char → Option (List Char × List Char)
  | [] => none
  | c :: cs => if c = '|' then some ([], cs) else (splitBar cs).map fun r => (c :: r.1, r.2)

/-- testing/harness.rs:63-97 `TestDocument::new`. -/
def testDocument (source : List Char) : TestDocument :=
  match splitBar source with
  | some (before, after) =>
    ⟨before ++ after, some ⟨utf8Len before, before.count '\n', utf8Len (lastLine before)⟩⟩
  | none => ⟨source, none⟩

/-- testing/harness.rs:521-527: the cursor is outside the place of the value; a value without a place is never
outside. -/
def outside (off : Nat) : Option Span → Bool
  | some sp => decide (off < sp.start) || decide (off > sp.stop)
  | none => false

/-- testing/harness.rs:533-543 and 560-566: the entry has no value, and the cursor is at most ten bytes behind
its key. -/
def afterKey (off : Nat) (k v : Value) : Bool :=
  v.payload.isNone && decide (off > (k.span.map (·.stop)).getD 0) &&
    decide (off ≤ (k.span.map (·.stop)).getD 0 + 10)

mutual
/-- testing/harness.rs:520-579, the inner function `recurse` of `find_path_at_offset`: `none` for `false`, else
what is added to the path.  Line 529 looks at the entries of every object, also of tagged ones, so the loop of
lines 557-574 goes over the same entries again. -/
def harnessPath (off : Nat) : Value → Option (List (List Char))
  | .mk t (some (.object es _)) sp =>
    if outside off sp then none
    else match harnessEntries off es with
      | some p => some p
      | none =>
        match t with
        | some tag => some (('@' :: tag.name) :: (harnessEntries off es).getD [])
        | none => some []
  | .mk _ _ sp => if outside off sp then none else some []
/-- testing/harness.rs:530-550: the loop over the entries. -/
def harnessEntries (off : Nat) : List Entry → Option (List (List Char))
  | [] => none
  | .mk k v _ :: es =>
    match k.asStr with
    | none => harnessEntries off es
    | some key =>
      if afterKey off k v then some [key]
      else match harnessPath off v with
        | some p => some (key :: p)
        | none => harnessEntries off es
end

/-- testing/harness.rs:593-597: the value has no place, or the cursor is in it or at one of its ends. -/
def maybeIn (off : Nat) (sp : Option Span) : Bool := sp.isNone || touches off sp

mutual
/-- testing/harness.rs:590-665, the inner function `find_obj` of `find_context_at_offset`.  The entries of an
object are looked at twice (600-623 and 626-648). -/
def harnessObject (off : Nat) (parent : Option Value) : Value → Option Value
  | .mk t (some (.object es o)) sp =>
    let self := .mk t (some (.object es o)) sp
    (((harnessObjectEntries off self es).or (if maybeIn off sp then some self else none)).or
      ((harnessObjectEntries off self es).or (if maybeIn off sp then some self else none))).or
      (if maybeIn off sp then parent else none)
  | .mk t (some (.sequence items o)) sp =>
    (harnessObjectItems off (.mk t (some (.sequence items o)) sp) items).or
      (if maybeIn off sp then parent else none)
  | .mk _ _ sp => if maybeIn off sp then parent else none
/-- testing/harness.rs:602-619: the loop over the entries. -/
def harnessObjectEntries (off : Nat) (self : Value) : List Entry → Option Value
  | [] => none
  | .mk k v _ :: es =>
    match harnessObject off (some self) v with
    | some nested => some nested
    | none =>
      if touches off k.span then some self
      else if touches off v.span then some self
      else harnessObjectEntries off self es
/-- testing/harness.rs:651-657: the loop over the items. -/
def harnessObjectItems (off : Nat) (self : Value) : List Value → Option Value
  | [] => none
  | v :: vs => (harnessObject off (some self) v).or (harnessObjectItems off self vs)
end

mutual
/-- testing/harness.rs:672-720, the inner function `find_tagged` of `find_tagged_context_at_offset`. -/
def harnessTagged (off : Nat) (current : Option Value) : Value → Option Value
  | .mk t p sp =>
    if maybeIn off sp = false then none
    else
      let new := if t.isSome then some (.mk t p sp) else current
      (harnessTaggedIn off new p).or new
/-- testing/harness.rs:691-716: the values of the payload; those of an object are looked at twice. -/
def harnessTaggedIn (off : Nat) (current : Option Value) : Option Payload → Option Value
  | some (.object es _) => (harnessTaggedEntries off current es).or (harnessTaggedEntries off current es)
  | some (.sequence items _) => harnessTaggedItems off current items
  | _ => none
/-- testing/harness.rs:693-697: the loop over the entries. -/
def harnessTaggedEntries (off : Nat) (current : Option Value) : List Entry → Option Value
  | [] => none
  | .mk _ v _ :: es =>
    match harnessTagged off current v with
    | some r => some r
    | none => harnessTaggedEntries off current es
/-- testing/harness.rs:711-715: the loop over the items. -/
def harnessTaggedItems (off : Nat) (current : Option Value) : List Value → Option Value
  | [] => none
  | v :: vs =>
    match harnessTagged off current v with
    | some r => some r
    | none => harnessTaggedItems off current vs
end

/-- testing/harness.rs:728: the characters that end a prefix. -/
def isPrefixBreak (c : Char) : Bool := isWhitespace c || c == '{' || c == '(' || c == ','

/-- `str::rfind` for a class of characters: the byte index of the last such character; `i` is the index of the
first character. -/
def rfindBy (p : Char → Bool) : Nat → List Char → Option Nat
  | _, [] => none
  | i, c :: cs =>
    match rfindBy p (i + c.utf8Size) cs with
    | some j => some j
    | none => if p c then some i else none

/-- testing/harness.rs:725-732 `get_prefix`: the text from one byte behind the character found. -/
def harnessPrefix (source : List Char) (offset : Nat) : Outcome (List Char) :=
  match takeBytes offset source with
  | none => .panics
  | some before =>
    match dropBytes (((rfindBy isPrefixBreak 0 before).map (· + 1)).getD 0) before with
    | none => .panics
    | some r => .done r

/-- The parameters of a request about a cursor: `CompletionParams`, `HoverParams` and `DefinitionParams` of
styx-lsp-ext, with an empty `prefix` for the last two. -/
structure ExtRequest where
  line : Nat
  character : Nat
  offset : Nat
  path : List (List Char)
  prefix_ : List Char
  context : Option Value
  tagged : Option Value

/-- server.rs:745-749, 867-871 and 1134-1138: the object around the cursor as a value. -/
def contextValue (c : ObjectContext) : Value := .mk none (some (.object c.entries c.span)) none

/-- server.rs:734-751 (definition) and 856-873 (hover): the request for a document with a tree. -/
def serverRequest (content : List Char) (tree : Value) (p : Position) : ExtRequest :=
  let off := positionToOffset content p
  { line := p.line, character := p.character, offset := off
    path := (pathAt tree off).getD []
    prefix_ := []
    context := (findObject off [] tree).map contextValue
    tagged := findTagged off none tree }

/-- server.rs:961-963, 1006-1007 and 1121-1141 (completion): the path is the one of the object around the
cursor. -/
def serverCompletion (content : List Char) (tree : Value) (p : Position) : Outcome ExtRequest :=
  let off := positionToOffset content p
  let ctx := findObject off [] tree
  (wordRange content p).bind fun word => .done
    { line := p.line, character := p.character, offset := off
      path := (ctx.map (·.path)).getD []
      prefix_ := (word.map (·.1)).getD []
      context := ctx.map contextValue
      tagged := findTagged off none tree }

/-- testing/harness.rs:262-293 (hover) and 372-411 (definition), for a document that was read. -/
def harnessRequest (tree : Value) (c : CursorInfo) : ExtRequest :=
  { line := c.line, character := c.character, offset := c.offset
    path := (harnessPath c.offset tree).getD []
    prefix_ := []
    context := harnessObject c.offset none tree
    tagged := harnessTagged c.offset none tree }

/-- testing/harness.rs:203-249 (completion), for a document that was read. -/
def harnessCompletion (content : List Char) (tree : Value) (c : CursorInfo) : Outcome ExtRequest :=
  (harnessPrefix content c.offset).bind fun word => .done { harnessRequest tree c with prefix_ := word }

end Styx.Lsp
