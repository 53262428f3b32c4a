import Verif.Lsp.Fill

/-!
# Model: assertions on annotated sources (styx-testhelpers/src/lib.rs)

A test writes the errors it expects below the lines they are on: carets below the columns, then the kind.  The
assertion returns (`true`) or panics (`false`).  What it reports when it panics is left out, as are
`line_col_to_offset` and `safe_range`, which only serve the report.
-/

namespace Styx.Testing

open Styx Styx.Lsp

/-- crates/styx-testhelpers/src/lib.rs:6-11 `ExpectedError`. -/
structure ExpectedError where
  line : Nat
  start : Nat
  stop : Nat
  kind : List Char
  deriving DecidableEq, Repr

/-- crates/styx-testhelpers/src/lib.rs:14-17 `ActualError`. -/
structure ActualError where
  start : Nat
  stop : Nat
  kind : List Char
  deriving DecidableEq, Repr

/-- crates/styx-testhelpers/src/lib.rs:185 and 198: whether a line is an annotation. -/
def isCaretLine (line : List Char) : Bool := (trimStart line).head? = some '^'

/-- crates/styx-testhelpers/src/lib.rs:210-225 `parse_annotation_line`: what it pushes.  The text after the carets
is trimmed, so that its first word is what comes before its first white space. -/
def annotationLine (line : List Char) (index : Nat) : List ExpectedError :=
  let trimmed := trimStart line
  let caretStart := utf8Len line - utf8Len trimmed
  let carets := (trimmed.takeWhile (· == '^')).length
  let afterCarets := trimStart (trimmed.drop carets)
  let kind := afterCarets.takeWhile fun c => !isWhitespace c
  if kind ≠ [] ∧ 0 < carets then [⟨index, caretStart, caretStart + carets, kind⟩] else []

/-- crates/styx-testhelpers/src/lib.rs:175-208 `parse_annotated_source`: the loop over the lines.  The inner loop
over the annotations below a line does what the outer one would do with them, since there is a source line then; it
is not modelled separately. -/
def annotatedLoop : List (List Char) → List (List Char) → List ExpectedError →
    List (List Char) × List ExpectedError
  | [], sourceLines, expected => (sourceLines, expected)
  | line :: rest, sourceLines, expected =>
    if isCaretLine line then
      annotatedLoop rest sourceLines (expected ++ annotationLine line (sourceLines.length - 1))
    else annotatedLoop rest (sourceLines ++ [line]) expected

/-- `[&str]::join("\n")`. -/
def joinNl : List (List Char) → List Char
  | [] => []
  | [l] => l
  | l :: m :: ls => l ++ '\n' :: joinNl (m :: ls)

/-- crates/styx-testhelpers/src/lib.rs:175-208 `parse_annotated_source`. -/
def parseAnnotated (text : List Char) : List Char × List ExpectedError :=
  let r := annotatedLoop (lines text) [] []
  (joinNl r.1, r.2)

/-- crates/styx-testhelpers/src/lib.rs:19-22 `source_without_annotations`. -/
def sourceWithoutAnnotations (text : List Char) : List Char := (parseAnnotated text).1

/-- crates/styx-testhelpers/src/lib.rs:227-247 `span_to_line_col`: the loop over the lines.  The outer `none` is the
panic when the end of the span is before the line (`span_end - line_start` underflows), the inner one is `None`. -/
def spanLoop (e : ActualError) : List (List Char) → Nat → Nat → Option (Option (Nat × Nat × Nat))
  | [], _, _ => some none
  | line :: rest, index, lineStart =>
    if lineStart ≤ e.start ∧ e.start < lineStart + utf8Len line + 1 then
      if e.stop < lineStart then none
      else some (some (index, e.start - lineStart, min (e.stop - lineStart) (utf8Len line + 1)))
    else spanLoop e rest (index + 1) (lineStart + utf8Len line + 1)

/-- crates/styx-testhelpers/src/lib.rs:227-247 `span_to_line_col`. -/
def spanToLineCol (source : List Char) (e : ActualError) : Option (Option (Nat × Nat × Nat)) :=
  spanLoop e (lines source) 0 0

/-- crates/styx-testhelpers/src/lib.rs:28-40 `assert_annotated_errors_with_filename`: `actual_error_positions`, the
index of an error together with what it is compared by; `none` is a panic. -/
def candidates (source : List Char) : Nat → List ActualError → Option (List (Nat × ExpectedError))
  | _, [] => some []
  | i, e :: es =>
    match spanToLineCol source e with
    | none => none
    | some none => candidates source (i + 1) es
    | some (some (line, start, stop)) =>
      (candidates source (i + 1) es).map fun cs => (i, ⟨line, start, stop, e.kind⟩) :: cs

/-- crates/styx-testhelpers/src/lib.rs:48-61: the first error that is not matched yet and is the expected one. -/
def findMatch (expected : ExpectedError) (matched : List Bool) : List (Nat × ExpectedError) → Option Nat
  | [] => none
  | (i, a) :: cs =>
    if matched[i]? = some true then findMatch expected matched cs
    else if a.line = expected.line ∧ a.start = expected.start ∧ a.stop = expected.stop ∧ a.kind = expected.kind then
      some i
    else findMatch expected matched cs

/-- crates/styx-testhelpers/src/lib.rs:42-66: the expected errors that are not matched, and `matched_actual`. -/
def matchAll (cs : List (Nat × ExpectedError)) : List ExpectedError → List Bool →
    List ExpectedError × List Bool
  | [], matched => ([], matched)
  | x :: xs, matched =>
    match findMatch x matched cs with
    | some i => matchAll cs xs (matched.set i true)
    | none =>
      let r := matchAll cs xs matched
      (x :: r.1, r.2)

/-- crates/styx-testhelpers/src/lib.rs:24-141 `assert_annotated_errors`, `assert_annotated_errors_with_filename`:
whether it returns. -/
def assertAnnotated (text : List Char) (actual : List ActualError) : Bool :=
  let p := parseAnnotated text
  match candidates p.1 0 actual with
  | none => false
  | some cs =>
    let r := matchAll cs p.2 (List.replicate actual.length false)
    r.1.isEmpty && r.2.all id

end Styx.Testing
