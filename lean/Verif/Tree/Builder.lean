import Verif.Tree.Value
import Verif.Parse.Events

/-!
# Model of the tree builder

Source: crates/styx-tree/src/builder.rs and lib.rs.
The stack is a list with the innermost frame first.  The `unwrap()`s of the code (builder.rs:130, 386,
420, 479) stand under the check that the key is present, and the `unreachable!()` at builder.rs:172
under a check that the frame is no tag; the pattern matches below make both structural.
A `panic` event marks a panic of the parser; it never reaches the builder in the real program, and
`parseTree` gives no result for it.
-/

namespace Styx

/-- builder.rs:10-20 `BuildError`. -/
inductive BuildError where
  | unexpectedEvent
  | unclosedStructure
  | emptyDocument
  | parse (kind : ParseErrorKind) (span : Span)
  deriving DecidableEq, Repr

/-- builder.rs:56-74 `BuilderFrame`. -/
inductive Frame where
  | object (entries : List Entry) (span : Span) (doc : Option (List Char))
  | sequence (items : List Value) (span : Span)
  | tag (name : List Char) (span : Span)
  | entry (key : Option Value) (doc : Option (List Char))

/-- builder.rs:49-54 `TreeBuilder`. -/
structure Builder where
  stack : List Frame := []
  root : List Entry := []
  pendingDoc : Option (List Char) := none
  errors : List (ParseErrorKind × Span) := []

/-- builder.rs:129-147, 389-406 and similar: add an entry to the innermost frame if that is an object,
to the root entries otherwise. -/
def addEntry (e : Entry) (b : Builder) : Builder :=
  match b.stack with
  | .object es sp d :: rest => { b with stack := .object (es ++ [e]) sp d :: rest }
  | _ => { b with root := b.root ++ [e] }

/-- builder.rs:106-196 `push_value`, for a builder whose stack is the first argument. -/
def pushOn : List Frame → Value → Builder → Builder
  | .tag name sp :: rest, v, b =>
    pushOn rest (.mk (some ⟨name, some sp⟩) v.payload v.span) b
  | .entry (some k) doc :: rest, v, b =>
    let b' := addEntry (.mk k v doc) { b with stack := rest }
    { b' with stack := .entry none none :: b'.stack }
  | .object es sp d :: rest, v, b =>
    { b with stack := .object (es ++ [.mk Value.unit v d]) sp none :: rest }
  | .sequence items sp :: rest, v, b => { b with stack := .sequence (items ++ [v]) sp :: rest }
  | .entry none doc :: rest, v, b => { b with stack := .entry (some v) doc :: rest }
  | [], v, b =>
    { b with stack := [], root := b.root ++ [.mk Value.unit v b.pendingDoc], pendingDoc := none }

/-- builder.rs:106-196 `push_value`. -/
def Builder.push (b : Builder) (v : Value) : Builder := pushOn b.stack v b

/-- builder.rs:541-551 `append_doc_comment`. -/
def appendDoc (target : Option (List Char)) (line : List Char) : List Char :=
  match target with
  | some existing => existing ++ '\n' :: line
  | none => line

/-- builder.rs:506 `lines.join("\n")`. -/
def joinLines : List (List Char) → List Char
  | [] => []
  | [l] => l
  | l :: ls => l ++ '\n' :: joinLines ls

/-- builder.rs:311-347 (inside `EntryEnd`): an entry that got a key but no value. -/
def closeEntry (k : Value) (doc : Option (List Char)) (es : List Entry) : List Entry :=
  match es.getLast? with
  | some (.mk k' v' d') =>
    if k'.isUnit && d'.isNone then es.dropLast ++ [.mk k v' doc]
    else es ++ [.mk k Value.unit doc]
  | none => es ++ [.mk k Value.unit doc]

/-- builder.rs:208-531 `event`.  The `Scalar`, `Unit` and `TagEnd` arms first handle an entry frame
with a key (builder.rs:381-406, 417-449, 476-501); that does exactly what `push_value` does in this
case (builder.rs:127-153), so only the call of `push_value` is written here. -/
def Builder.event (b : Builder) (e : Event) : Builder :=
  match e.kind with
  | .documentStart | .documentEnd | .comment _ | .panic => b
  | .objectStart => { b with stack := .object [] e.span none :: b.stack }
  | .objectEnd =>
    match b.stack with
    | .object es sp _ :: rest =>
      if rest.isEmpty then { b with stack := [], root := es }
      else
        let span : Span := ⟨sp.start, e.span.stop⟩
        { b with stack := rest }.push (.mk none (some (.object es (some span))) (some span))
    | _ => { b with stack := b.stack.drop 1 }
  | .sequenceStart => { b with stack := .sequence [] e.span :: b.stack }
  | .sequenceEnd =>
    match b.stack with
    | .sequence items sp :: rest =>
      let span : Span := ⟨sp.start, e.span.stop⟩
      { b with stack := rest }.push (.mk none (some (.sequence items (some span))) (some span))
    | _ => { b with stack := b.stack.drop 1 }
  | .entryStart =>
    match b.stack with
    | .object es sp d :: rest => { b with stack := .entry none d :: .object es sp none :: rest }
    | _ => { b with stack := .entry none b.pendingDoc :: b.stack, pendingDoc := none }
  | .entryEnd =>
    match b.stack with
    | .entry (some k) doc :: rest =>
      match rest with
      | .object es sp d :: rest' => { b with stack := .object (closeEntry k doc es) sp d :: rest' }
      | _ => { b with stack := rest, root := closeEntry k doc b.root }
    | _ => { b with stack := b.stack.drop 1 }
  | .key t p k =>
    match b.stack with
    | .entry _ doc :: rest =>
      { b with stack := .entry (some (.mk (t.map fun n => ⟨n, some e.span⟩)
          (p.map fun text => .scalar text k (some e.span)) (some e.span))) doc :: rest }
    | _ => b
  | .scalar v k => b.push (.mk none (some (.scalar v k (some e.span))) (some e.span))
  | .unit => b.push (.mk none none (some e.span))
  | .tagStart name => { b with stack := .tag name e.span :: b.stack }
  | .tagEnd =>
    match b.stack with
    | .tag name sp :: rest =>
      { b with stack := rest }.push (.mk (some ⟨name, some sp⟩) none (some sp))
    | _ => b
  | .docComment lines =>
    match b.stack with
    | .object es sp d :: rest =>
      { b with stack := .object es sp (some (appendDoc d (joinLines lines))) :: rest }
    | _ => { b with pendingDoc := some (appendDoc b.pendingDoc (joinLines lines)) }
  | .error kind => { b with errors := b.errors ++ [(kind, e.span)] }

/-- lib.rs:21-25: feeding all events. -/
def Builder.run (b : Builder) (evs : List Event) : Builder := evs.foldl Builder.event b

/-- builder.rs:87-103 `finish`. -/
def Builder.finish (b : Builder) : Except BuildError Value :=
  match b.errors with
  | (kind, span) :: _ => .error (.parse kind span)
  | [] =>
    if b.stack.isEmpty then .ok (.mk none (some (.object b.root none)) none)
    else .error .unclosedStructure

/-- The tree of an event sequence: lib.rs:20-26 with the events given. -/
def buildTree (evs : List Event) : Except BuildError Value := (Builder.run {} evs).finish

/-- lib.rs:18-26 `parse`; `none` is a panic (or, impossible by C10, running out of fuel). -/
def parseTree (source : List Char) : Option (Except BuildError Value) :=
  match parseEvents source with
  | none => none
  | some evs => if evs.any (fun e => e.kind == .panic) then none else some (buildTree evs)

end Styx
