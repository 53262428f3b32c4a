import Verif.Lsp.Runner

/-!
# Model: the other checks of the test runner for extensions (styx-lsp/src/testing/runner.rs)

A test case as a whole: completions, hovers, diagnostics, hints, definitions and code actions.  An extension is the
functions from the document it gets to its answers, where `none` is a request that fails.  As in
`Verif/Lsp/Runner.lean` the reports are left out.
-/

namespace Styx.Lsp

open Styx

/-- styx-lsp-ext/src/lib.rs:234-247 `CompletionItem`, what a test looks at, and the kind. -/
structure TestItem where
  label : List Char
  detail : Option (List Char)
  documentation : Option (List Char)
  kind : Option (List Char)

/-- styx-lsp-test-schema/src/lib.rs:98-113 `CompletionItemExpectation`. -/
structure WantItem where
  label : List Char
  detail : Option (List Char)
  documentation : Option (List Char)
  kind : Option (List Char)

/-- styx-lsp-test-schema/src/lib.rs:82-94 `CompletionExpectations`. -/
structure WantCompletions where
  has : List (List Char)
  notHas : List (List Char)
  items : List WantItem

/-- testing/runner.rs:501-520: the item found against the item wanted. -/
def itemAsWanted (e : WantItem) (c : TestItem) : Bool :=
  (match e.detail with
    | some t => c.detail == some t
    | none => true) &&
  match e.documentation with
    | some t => (match c.documentation with
      | some u => Hints.contains t u
      | none => false)
    | none => true

/-- testing/runner.rs:466-524 `check_completions`: whether there is no error. -/
def checkCompletions (cs : List TestItem) (e : WantCompletions) : Bool :=
  (e.has.all fun l => (cs.map (·.label)).contains l) && (e.notHas.all fun l => !(cs.map (·.label)).contains l) &&
  e.items.all fun i =>
    match cs.find? (·.label == i.label) with
    | none => false
    | some c => itemAsWanted i c

/-- styx-lsp-test-schema/src/lib.rs:117-125 `HoverExpectations`. -/
structure WantHover where
  has : List (List Char)
  notHas : List (List Char)

/-- testing/runner.rs:526-556 `check_hover`. -/
def checkHover (hover : Option (List Char)) (e : WantHover) : Bool :=
  match hover with
  | none => e.has.isEmpty
  | some text => (e.has.all fun t => Hints.contains t text) && e.notHas.all fun t => !Hints.contains t text

/-- styx-lsp-ext/src/lib.rs: the label and the position of an `InlayHint`. -/
structure TestHint where
  label : List Char
  line : Nat
  character : Nat

/-- styx-lsp-test-schema/src/lib.rs:180-191 `InlayHintExpectation`. -/
structure WantHint where
  label : List Char
  line : Option Nat
  col : Option Nat

/-- styx-lsp-test-schema/src/lib.rs:168-176 `InlayHintExpectations`. -/
structure WantHints where
  count : Option Nat
  has : List WantHint

/-- `iter().any(…)` with a test that can panic. -/
def anyOutcome {α : Type} (f : α → Outcome Bool) : List α → Outcome Bool
  | [] => .done false
  | x :: xs =>
    match f x with
    | .done true => .done true
    | .done false => anyOutcome f xs
    | .panics => .panics
    | .runsOut => .runsOut

/-- A loop over expectations, each of which is an error if its test is false. -/
def allOutcome {α : Type} (f : α → Outcome Bool) : List α → Outcome Bool
  | [] => .done true
  | x :: xs => (f x).bind fun a => (allOutcome f xs).bind fun b => .done (a && b)

/-- testing/runner.rs:720-736: one hint against one wanted; the subtraction overflows for line 0. -/
def hintMatches (e : WantHint) (h : TestHint) : Outcome Bool :=
  if h.label ≠ e.label then .done false
  else if e.line = some 0 then .panics
  else .done (wants (e.line.map (· - 1)) h.line && wants e.col h.character)

/-- testing/runner.rs:702-766 `check_inlay_hints`. -/
def checkHints (hs : List TestHint) (e : WantHints) : Outcome Bool :=
  (allOutcome (fun x => anyOutcome (hintMatches x) hs) e.has).bind fun found =>
    .done (wants e.count hs.length && found)

/-- styx-lsp-ext/src/lib.rs:456-461 `Location`. -/
structure TestLocation where
  uri : List Char
  start : Nat
  stop : Nat

/-- styx-lsp-test-schema/src/lib.rs:211-219 `DefinitionExpectation`. -/
structure WantLocation where
  line : Option Nat
  uri : Option (List Char)

/-- styx-lsp-test-schema/src/lib.rs:195-207 `DefinitionExpectations`. -/
structure WantDefinition where
  count : Option Nat
  empty : Bool
  has : List WantLocation

/-- testing/runner.rs:794-811: one location against one wanted. -/
def locationMatches (content : List Char) (e : WantLocation) (l : TestLocation) : Outcome Bool :=
  match runnerPosition content l.start with
  | none => .panics
  | some (line, _) =>
    if e.line = some 0 then .panics
    else .done (wants (e.line.map (· - 1)) line &&
      match e.uri with
      | some u => Hints.contains u l.uri
      | none => true)

/-- testing/runner.rs:768-826 `check_definition`. -/
def checkDefinition (ls : List TestLocation) (e : WantDefinition) (content : List Char) : Outcome Bool :=
  if e.empty && !ls.isEmpty then .done false
  else (allOutcome (fun x => anyOutcome (locationMatches content x) ls) e.has).bind fun found =>
    .done (wants e.count ls.length && found)

/-- styx-lsp-ext/src/lib.rs:407-411 `CodeActionKind`. -/
inductive ActionKind where
  | quickFix | refactor | source
  deriving DecidableEq

/-- testing/runner.rs:859-864: the name of a kind in a test. -/
def ActionKind.name : ActionKind → List Char
  | .quickFix => chars! "quickfix"
  | .refactor => chars! "refactor"
  | .source => chars! "source"

/-- styx-lsp-ext/src/lib.rs:393-402 `CodeAction`, without its edit. -/
structure TestAction where
  title : List Char
  kind : Option ActionKind
  preferred : Bool

/-- styx-lsp-test-schema/src/lib.rs:243-254 `CodeActionExpectation`. -/
structure WantAction where
  title : List Char
  kind : Option (List Char)
  preferred : Option Bool

/-- styx-lsp-test-schema/src/lib.rs:223-239 `CodeActionExpectations`. -/
structure WantActions where
  count : Option Nat
  empty : Bool
  has : List WantAction
  notHas : List (List Char)

/-- testing/runner.rs:852-876: one action against one wanted. -/
def actionMatches (e : WantAction) (a : TestAction) : Bool :=
  Hints.contains e.title a.title &&
  (match e.kind with
    | some k => (match a.kind with
      | some x => k == x.name
      | none => false)
    | none => true) &&
  match e.preferred with
    | some p => a.preferred == p
    | none => true

/-- testing/runner.rs:828-896 `check_code_actions`. -/
def checkActions (as : List TestAction) (e : WantActions) : Bool :=
  if e.empty && !as.isEmpty then false
  else wants e.count as.length && (e.has.all fun x => as.any (actionMatches x)) &&
    e.notHas.all fun t => !as.any fun a => Hints.contains t a.title

/-- What an extension answers about a document; `none` is a failed request. -/
structure TestExtension where
  completions : TestDocument → Option (List TestItem)
  hover : TestDocument → Option (Option (List Char))
  diagnostics : TestDocument → Option (List ExtDiag)
  hints : TestDocument → Option (List TestHint)
  definition : TestDocument → Option (List TestLocation)
  actions : TestDocument → Option (List TestAction)

/-- styx-lsp-test-schema/src/lib.rs:37-78 `TestCase`, without its name and its schema. -/
structure TestCase where
  input : List Char
  expectFail : Bool := false
  completions : Option WantCompletions := none
  hover : Option WantHover := none
  diagnostics : Option DiagExpectations := none
  hints : Option WantHints := none
  definition : Option WantDefinition := none
  actions : Option WantActions := none

/-- testing/runner.rs:310-324 and the same for the other requests: if something is expected, the request is made and
the answer checked; a failed request is an error. -/
def checkAnswer {α β : Type} (expected : Option α) (answer : Option β) (check : β → α → Outcome Bool) : Outcome Bool :=
  match expected, answer with
  | none, _ => .done true
  | some _, none => .done false
  | some e, some a => check a e

/-- testing/runner.rs:311-312 and the same for other requests about the cursor: without a cursor it is an error. -/
def checkAtCursor {α β : Type} (doc : TestDocument) (expected : Option α) (answer : Option β)
    (check : β → α → Outcome Bool) : Outcome Bool :=
  if expected.isSome && doc.cursor.isNone then .done false else checkAnswer expected answer check

/-- testing/runner.rs:289-464 `run_test_case`: whether the test passes. -/
def runTest (t : TestCase) (x : TestExtension) : Outcome Bool :=
  let cleaned := parseSpanMarkers t.input
  let doc := testDocument cleaned.1
  (checkAtCursor doc t.completions (x.completions doc) fun a e => .done (checkCompletions a e)).bind fun c1 =>
  (checkAtCursor doc t.hover (x.hover doc) fun a e => .done (checkHover a e)).bind fun c2 =>
  (checkAnswer (buildExpectations t.diagnostics cleaned.2) (x.diagnostics doc)
    fun a e => checkDiagnostics a e cleaned.1).bind fun c3 =>
  (checkAnswer t.hints (x.hints doc) checkHints).bind fun c4 =>
  (checkAtCursor doc t.definition (x.definition doc) fun a e => checkDefinition a e cleaned.1).bind fun c5 =>
  (checkAtCursor doc t.actions (x.actions doc) fun a e => .done (checkActions a e)).bind fun c6 =>
  .done (testPasses t.expectFail (c1 && c2 && c3 && c4 && c5 && c6))

end Styx.Lsp
