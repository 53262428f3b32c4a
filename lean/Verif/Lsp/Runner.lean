import Verif.Lsp.Harness
import Verif.Lsp.Hints

/-!
# Model: the checks of the test runner for extensions (styx-lsp/src/testing/runner.rs)

A test is its input, what it expects of the diagnostics, and whether it is expected to fail; an extension is the
function from the document it gets to its diagnostics.  The reports are left out, only whether there is an error
is modelled.  As in `Verif/Lsp/Model.lean`, casts to `u32` are left out.
-/

namespace Styx.Lsp

open Styx

/-- testing/runner.rs:30-41 `SpanMarker`. -/
structure SpanMarker where
  line : Nat
  startCol : Nat
  endCol : Nat
  message : List Char
  deriving DecidableEq, Repr

/-- testing/runner.rs:85-89 `MarkerLineData`. -/
structure MarkerLine where
  startCol : Nat
  endCol : Nat
  message : List Char
  deriving DecidableEq, Repr

/-- testing/runner.rs:92-137 `try_parse_marker_line`.  The text from the first caret on starts with one, so the test
of lines 111-113 is never true and is left out. -/
def tryMarker (line : List Char) : Option MarkerLine :=
  let indent := line.takeWhile (· != '^')
  let rest := line.dropWhile (· != '^')
  if rest.isEmpty then none
  else if indent.all isWhitespace = false then none
  else
    let stop := utf8Len indent + utf8Len (rest.takeWhile (· == '^'))
    let after := trim (rest.dropWhile (· == '^'))
    if after.isEmpty then some ⟨utf8Len indent, stop, []⟩
    else if after.head? == some '"' && after.getLast? == some '"' && decide (1 < utf8Len after) then
      some ⟨utf8Len indent, stop, (after.drop 1).dropLast⟩
    else none

/-- testing/runner.rs:53-71: the loop over the lines. -/
def markerLoop : List (List Char) → List (List Char) → List SpanMarker → List (List Char) × List SpanMarker
  | [], cleaned, ms => (cleaned, ms)
  | l :: ls, cleaned, ms =>
    match tryMarker l with
    | some m =>
      markerLoop ls cleaned
        (if cleaned.isEmpty then ms else ms ++ [⟨cleaned.length - 1, m.startCol, m.endCol, m.message⟩])
    | none => markerLoop ls (cleaned ++ [l]) ms

/-- testing/runner.rs:47-82 `parse_span_markers`. -/
def parseSpanMarkers (input : List Char) : List Char × List SpanMarker :=
  let r := markerLoop (lines input) [] []
  (['\n'].intercalate r.1, r.2)

/-- testing/runner.rs:559-572 `offset_to_position`; `none` models the panic of a slice between characters. -/
def runnerPosition (content : List Char) (offset : Nat) : Option (Nat × Nat) :=
  if offset > utf8Len content then some (content.count '\n', utf8Len (lastLine content))
  else (takeBytes offset content).map fun before => (before.count '\n', utf8Len (lastLine before))

/-- styx-lsp-test-schema/src/lib.rs: `DiagnosticExpectation`. -/
structure DiagExpectation where
  message : List Char
  severity : Option (List Char)
  line : Option Nat
  startCol : Option Nat
  endCol : Option Nat

/-- styx-lsp-test-schema/src/lib.rs: `DiagnosticExpectations`. -/
structure DiagExpectations where
  count : Option Nat
  has : List DiagExpectation
  notHas : List (List Char)

/-- styx-lsp-ext/src/lib.rs: the severity, the place and the message of a `Diagnostic`. -/
structure ExtDiag where
  start : Nat
  stop : Nat
  severity : List Char
  message : List Char

/-- testing/runner.rs:139-168 `build_diagnostic_expectations`. -/
def buildExpectations (explicit : Option DiagExpectations) (markers : List SpanMarker) : Option DiagExpectations :=
  if explicit.isNone && markers.isEmpty then none
  else
    let e := explicit.getD ⟨none, [], []⟩
    some { e with has := e.has ++ markers.map fun m =>
      ⟨m.message, none, some (m.line + 1), some m.startCol, some m.endCol⟩ }

/-- testing/runner.rs:604-620: the test of one wanted number, if it is given. -/
def wants (expected : Option Nat) (actual : Nat) : Bool :=
  match expected with
  | some n => decide (actual = n)
  | none => true

/-- testing/runner.rs:593-623: one diagnostic against one expectation.  The subtraction of line 603 overflows for
line 0; that is a panic in a build with overflow checks, as tests are. -/
def matchOne (content : List Char) (exp : DiagExpectation) (d : ExtDiag) : Outcome Bool :=
  if !exp.message.isEmpty && !Hints.contains exp.message d.message then .done false
  else match runnerPosition content d.start, runnerPosition content d.stop with
    | some (line, col), some (_, endCol) =>
      if exp.line = some 0 then .panics
      else .done (wants (exp.line.map (· - 1)) line && wants exp.startCol col && wants exp.endCol endCol)
    | _, _ => .panics

/-- testing/runner.rs:593 `diagnostics.iter().any(…)`. -/
def anyMatch (content : List Char) (exp : DiagExpectation) : List ExtDiag → Outcome Bool
  | [] => .done false
  | d :: ds =>
    match matchOne content exp d with
    | .done true => .done true
    | .done false => anyMatch content exp ds
    | .panics => .panics
    | .runsOut => .runsOut

/-- testing/runner.rs:592-688: the loop over the diagnostics that must be present; whether none is missing. -/
def allFound (content : List Char) (ds : List ExtDiag) : List DiagExpectation → Outcome Bool
  | [] => .done true
  | e :: es => (anyMatch content e ds).bind fun found => (allFound content ds es).bind fun rest => .done (found && rest)

/-- testing/runner.rs:574-700 `check_diagnostics`: whether there is no error. -/
def checkDiagnostics (ds : List ExtDiag) (e : DiagExpectations) (content : List Char) : Outcome Bool :=
  (allFound content ds e.has).bind fun found => .done
    (wants e.count ds.length && found && e.notHas.all fun t => !ds.any fun d => Hints.contains t d.message)

/-- testing/runner.rs:289-392, the part about diagnostics: the extension gets the document without the bar, and
its answer is checked against the text with the bar. -/
def runDiagnostics (input : List Char) (explicit : Option DiagExpectations) (ext : List Char → List ExtDiag) :
    Outcome Bool :=
  let cleaned := parseSpanMarkers input
  match buildExpectations explicit cleaned.2 with
  | none => .done true
  | some e => checkDiagnostics (ext (testDocument cleaned.1).source) e cleaned.1

/-- testing/runner.rs:435-458: whether the test passes. -/
def testPasses (expectFail noErrors : Bool) : Bool := if expectFail then !noErrors else noErrors

end Styx.Lsp
