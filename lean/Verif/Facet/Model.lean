import Verif.Parse.Events
import Verif.Schema.Model

/-!
# Model of the facet parser

Source: crates/facet-styx/src/parser.rs: `StyxParser`, the stream of `facet-format` events that
`facet_styx::from_str` and its relatives read.  The consumer of the stream (crate facet-format) is not
part of the repository and is not modelled; a consumer is any sequence of calls.

Simplifications:
* `styx_parse::Parser` does not depend on its consumer, so the inner parser is the list of the events
  it still has to give.  An event of kind `panic` is a panic of the inner parser.
* `usize` and `i32` counters are unbounded; `depth -= 1` at 0 is a panic (it is one when overflow checks
  are on, and wraps otherwise).
* `str::parse::<f64>` is not modelled: a float scalar keeps its text, and `floatOk` says which texts
  parse.
* `save` puts a clone without saved state into `saved_state`, so a saved state is a `Core`.
-/

namespace Styx.Facet

open Styx.Schema (parseI64 digitsVal)

/-- `facet_format::ScalarTypeHint`, as far as parser.rs:192-254 tells the hints apart: all signed, all
unsigned and all float hints are treated alike; `other` is any hint unknown to the code. -/
inductive Hint where
  | string | bool | signed | unsigned | float | char | bytes | other
  deriving DecidableEq, Repr

/-- `facet_format::ScalarValue`, as far as parser.rs creates it. -/
inductive FScalar where
  | str (text : List Char)
  | bool (b : Bool)
  | i64 (n : Int)
  | u64 (n : Nat)
  | f64 (text : List Char)
  | char (c : Char)
  | unit
  deriving DecidableEq, Repr

/-- `facet_format::ParseEventKind`, as far as parser.rs creates it; `key` is
`FieldKey::with_doc`, `tagged_with_doc`, `unit_with_doc` and `tagged_with_name_and_doc`
(parser.rs:337-354), the location hint is always `KeyValue`. -/
inductive FKind where
  | structStart | structEnd | seqStart | seqEnd
  | key (tag name : Option (List Char)) (doc : List (List Char))
  | scalar (v : FScalar)
  | variantTag (name : Option (List Char))
  deriving DecidableEq, Repr

/-- `facet_format::ParseEvent`: kind and span (start and length). -/
structure FEvent where
  kind : FKind
  start : Nat
  len : Nat
  deriving DecidableEq, Repr

/-- parser.rs:93-116 `StyxParser` without `saved_state`; `rest` is what the inner parser still gives. -/
structure Core where
  rest : List Event
  queue : List FEvent := []
  span : Option Span := none
  complete : Bool := false
  doc : List (List Char) := []
  atRoot : Bool := true
  depth : Nat := 0
  tags : List Bool := []
  hint : Option Hint := none
  deriving DecidableEq, Repr

/-- What a call returns: a value, an error of the inner parser, or it panics.  `stuck` is out of fuel
(impossible: `next_not_stuck`). -/
inductive Res (α : Type) where
  | ok (a : α) (st : Core)
  | err (kind : ParseErrorKind) (span : Span) (st : Core)
  | panic
  | stuck
  deriving DecidableEq, Repr

/-- The text of the source and which texts parse as `f64`. -/
structure Src where
  input : List Char
  floatOk : List Char → Bool

/-- parser.rs:154-174 `to_reflect_span`, `event_span` and `event`. -/
def Core.event (st : Core) (k : FKind) : FEvent :=
  match st.span with
  | some sp => ⟨k, sp.start, sp.stop - sp.start⟩
  | none => ⟨k, 0, 0⟩

/-- parser.rs:177-181 `mark_tag_has_payload`; the innermost tag is first. -/
def mark : List Bool → List Bool
  | [] => []
  | _ :: ts => true :: ts

/-- Rust core: `str::parse::<u64>()`, used at parser.rs:227. -/
def parseU64 (text : List Char) : Option Nat :=
  (match text with
    | [] => none
    | ['+'] => none
    | '+' :: ds => digitsVal ds 0
    | ds => digitsVal ds 0).bind fun n => if n < 2 ^ 64 then some n else none

/-- parser.rs:188-254 `parse_scalar`, without taking the hint (see `convert`). -/
def parseScalar (S : Src) (hint : Option Hint) (value : List Char) : FScalar :=
  match hint with
  | none | some .string | some .bytes | some .other => .str value
  | some .bool =>
    if value = chars! "true" then .bool true
    else if value = chars! "false" then .bool false
    else .str value
  | some .signed => match parseI64 value with | some n => .i64 n | none => .str value
  | some .unsigned => match parseU64 value with | some n => .u64 n | none => .str value
  | some .float => if S.floatOk value then .f64 value else .str value
  | some .char => match value with | [c] => .char c | _ => .str value

/-- What `skip_schema_value` leaves: the remaining events, or an error and the remaining events. -/
inductive Skipped where
  | ok (rest : List Event)
  | err (kind : ParseErrorKind) (span : Span) (rest : List Event)
  | panic
  deriving DecidableEq, Repr

/-- parser.rs:451-528 `skip_schema_value`, on the events the inner parser gives; parser.rs:65-77 turns an
error event into an `Err`. -/
def skipSchema : Int → List Event → Skipped
  | _, [] => .ok []
  | d, e :: es =>
    match e.kind with
    | .error k => .err k e.span es
    | .panic => .panic
    | .objectStart | .sequenceStart => skipSchema (d + 1) es
    | .objectEnd | .sequenceEnd => if d - 1 ≤ 0 then .ok es else skipSchema (d - 1) es
    | .scalar _ _ | .unit | .entryEnd => if d = 0 then .ok es else skipSchema d es
    | _ => skipSchema d es

/-- parser.rs:259-448 `convert_event`, for an event that is no error (parser.rs:65-77 filters those).  In
the `Scalar` arm the kind computed from the text of the span (parser.rs:364-376) is not used by
`parse_scalar`, but taking the text can panic. -/
def convert (S : Src) (e : Event) (st : Core) : Res (Option FEvent) :=
  let at_ : Core := { st with span := some e.span }
  match e.kind with
  | .documentStart | .documentEnd | .entryStart | .entryEnd | .comment _ => .ok none st
  | .objectStart =>
    let st' := { at_ with depth := st.depth + 1, tags := mark st.tags }
    .ok (some (st'.event .structStart)) st'
  | .objectEnd =>
    if st.depth = 0 then .panic
    else
      let st' := { at_ with depth := st.depth - 1, atRoot := st.atRoot && st.depth - 1 != 0 }
      .ok (some (st'.event .structEnd)) st'
  | .sequenceStart =>
    let st' := { at_ with depth := st.depth + 1, tags := mark st.tags }
    .ok (some (st'.event .seqStart)) st'
  | .sequenceEnd =>
    if st.depth = 0 then .panic
    else
      let st' := { at_ with depth := st.depth - 1 }
      .ok (some (st'.event .seqEnd)) st'
  | .key tag payload _ =>
    if st.atRoot = true ∧ st.depth = 1 ∧ tag = some (chars! "schema") then
      match skipSchema 0 st.rest with
      | .ok rest => .ok none { at_ with rest, doc := [] }
      | .err k sp rest => .err k sp { at_ with rest }
      | .panic => .panic
    else
      let st' := { at_ with doc := [] }
      .ok (some (st'.event (.key tag payload st.doc))) st'
  | .scalar value _ =>
    match sliceBytes S.input e.span.start e.span.stop with
    | none => .panic
    | some _ =>
      let st' := { at_ with hint := none, tags := mark st.tags }
      .ok (some (st'.event (.scalar (parseScalar S st.hint value)))) st'
  | .unit =>
    match sliceBytes S.input e.span.start e.span.stop with
    | none => .panic
    | some text =>
      let st' := { at_ with tags := mark st.tags }
      if text = ['@'] ∧ st.tags = [] then
        .ok (some (st'.event (.variantTag none)))
          { st' with queue := st'.queue ++ [st'.event (.scalar .unit)] }
      else .ok (some (st'.event (.scalar .unit))) st'
  | .tagStart name =>
    let st' := { at_ with tags := false :: mark st.tags }
    .ok (some (st'.event (.variantTag (if name = [] then none else some name)))) st'
  | .tagEnd =>
    match st.tags with
    | false :: ts => .ok (some (st.event (.scalar .unit))) { st with tags := ts }
    | _ => .ok none { st with tags := st.tags.drop 1 }
  | .docComment lines => .ok none { at_ with doc := st.doc ++ lines }
  | .error _ => .panic
  | .panic => .panic

/-- parser.rs:545-559: the loop of `next_event`, with parser.rs:65-77 for the inner parser. -/
def nextLoop (S : Src) : Nat → Core → Res (Option FEvent)
  | 0, _ => .stuck
  | n + 1, st =>
    match st.rest with
    | [] => .ok none { st with complete := true }
    | e :: es =>
      match e.kind with
      | .error k => .err k e.span { st with rest := es }
      | .panic => .panic
      | _ =>
        match convert S e { st with rest := es } with
        | .ok none st' => nextLoop S n st'
        | r => r

/-- parser.rs:532-560 `next_event`. -/
def next (S : Src) (st : Core) : Res (Option FEvent) :=
  match st.queue with
  | e :: es => .ok (some e) { st with queue := es }
  | [] => if st.complete then .ok none st else nextLoop S (st.rest.length + 1) st

/-- parser.rs:564-572 `peek_event`. -/
def peek (S : Src) (st : Core) : Res (Option FEvent) :=
  match st.queue with
  | e :: _ => .ok (some e) st
  | [] =>
    match next S st with
    | .ok (some e) st' => .ok (some e) { st' with queue := e :: st'.queue }
    | .ok none st' => .ok st'.queue.head? st'
    | r => r

/-- parser.rs:574-612 `skip_value`: the loop, with the depth reached. -/
def skipLoop (S : Src) : Nat → Nat → Core → Res Unit
  | 0, _, _ => .stuck
  | n + 1, d, st =>
    match next S st with
    | .ok none st' => .ok () st'
    | .ok (some e) st' =>
      match e.kind with
      | .structStart | .seqStart => skipLoop S n (d + 1) st'
      | .structEnd | .seqEnd => if d = 0 ∨ d - 1 = 0 then .ok () st' else skipLoop S n (d - 1) st'
      | .scalar _ => if d = 0 then .ok () st' else skipLoop S n d st'
      | .variantTag _ | .key .. => skipLoop S n d st'
    | .err k sp st' => .err k sp st'
    | .panic => .panic
    | .stuck => .stuck

/-- Enough fuel for reading everything that is left. -/
def fuel (st : Core) : Nat := st.queue.length + 2 * st.rest.length + 2

/-- parser.rs:574-612 `skip_value`. -/
def skipValue (S : Src) (st : Core) : Res Unit := skipLoop S (fuel st) 0 st

/-- parser.rs:641-643 `hint_scalar_type`. -/
def setHint (h : Hint) (st : Core) : Core := { st with hint := some h }

/-- parser.rs:93-116 `StyxParser`. -/
structure Parser where
  core : Core
  saved : Option Core := none
  deriving DecidableEq, Repr

/-- parser.rs:614-620 `save`. -/
def Parser.save (p : Parser) : Parser := { p with saved := some p.core }

/-- parser.rs:622-626 `restore`. -/
def Parser.restore (p : Parser) : Parser :=
  match p.saved with
  | some c => ⟨c, none⟩
  | none => p

/-- parser.rs:119-132 `new`. -/
def newCore (evs : List Event) : Core := { rest := evs }

/-- parser.rs:138-151 `new_expr`. -/
def newExprCore (evs : List Event) : Core := { rest := evs, atRoot := false }

/-- Calling `next_event` until it gives `None`: the events, or the first error. -/
def drain (S : Src) : Nat → Core → Option (Except (ParseErrorKind × Span) (List FEvent))
  | 0, _ => none
  | n + 1, st =>
    match next S st with
    | .ok none _ => some (.ok [])
    | .ok (some e) st' =>
      match drain S n st' with
      | some (.ok es) => some (.ok (e :: es))
      | r => r
    | .err k sp _ => some (.error (k, sp))
    | .panic => none
    | .stuck => none

/-- All events `StyxParser::new(source)` gives, or its first error; `none` is a panic. -/
def facetEvents (S : Src) : Option (Except (ParseErrorKind × Span) (List FEvent)) :=
  match parseEvents S.input with
  | none => none
  | some evs => drain S (fuel (newCore evs)) (newCore evs)

/-- All events `StyxParser::new_expr(source)` gives, or its first error; `none` is a panic. -/
def facetExprEvents (S : Src) : Option (Except (ParseErrorKind × Span) (List FEvent)) :=
  match parseExprEvents S.input with
  | none => none
  | some evs => drain S (fuel (newExprCore evs)) (newExprCore evs)

end Styx.Facet
