import Verif.Cli.Report
import Verif.Schema.Model

/-!
# The reports of validation on the terminal

`facet-styx/src/schema_error.rs` builds a report for each error and warning with the crate `ariadne`, of which the model
has what `Verif.Cli.Report` says.
-/

namespace Styx.Cli

open Styx

/-- The report of an error or a warning: the range of its label, its title and its help.  (Simplified: without the text of
the label, the note, and colours.) -/
structure ShortReport where
  range : Span
  title : List Char
  help : Option (List Char)
  deriving DecidableEq, Repr

/-- schema_error.rs:178-181, 427-430: the range of the label. -/
def labelRange (span : Option Span) : Span := span.getD ⟨0, 1⟩

/-- schema_error.rs:183-187: the path in a title. -/
def pathInfo (path : List Char) : List Char :=
  if path = [] then [] else (chars! " at '") ++ path ++ ['\'']

/-- schema_error.rs:174-341 `build_report`. -/
def errorReport (e : Schema.Err) : ShortReport :=
  match e.kind with
  | .missingField f => ⟨labelRange e.span, (chars! "missing required field '") ++ f ++ ['\''], some (f ++ chars! " <value>")⟩
  | .unknownField f _ s => ⟨labelRange e.span, (chars! "unknown field '") ++ f ++ ['\''],
      s.map fun s => (chars! "did you mean '") ++ s ++ chars! "'?"⟩
  | .typeMismatch _ _ => ⟨labelRange e.span, (chars! "type mismatch") ++ pathInfo e.path, none⟩
  | .invalidValue _ => ⟨labelRange e.span, (chars! "invalid value") ++ pathInfo e.path, none⟩
  | .unknownType n => ⟨labelRange e.span, (chars! "unknown type '") ++ n ++ ['\''], none⟩
  | .invalidVariant _ got => ⟨labelRange e.span, (chars! "invalid enum variant '@") ++ got ++ ['\''], none⟩
  | .unionMismatch _ => ⟨labelRange e.span, (chars! "value doesn't match any union variant") ++ pathInfo e.path, none⟩
  | .expectedObject => ⟨labelRange e.span, (chars! "expected object") ++ pathInfo e.path, none⟩
  | .expectedSequence => ⟨labelRange e.span, (chars! "expected sequence") ++ pathInfo e.path, none⟩
  | .expectedScalar => ⟨labelRange e.span, (chars! "expected scalar value") ++ pathInfo e.path, none⟩
  | .expectedTagged => ⟨labelRange e.span, (chars! "expected tagged value") ++ pathInfo e.path, none⟩
  | .schemaError _ => ⟨labelRange e.span, chars! "schema error", none⟩

/-- schema_error.rs:426-466 `write_report` of a warning; only `Deprecated` is produced. -/
def warningReport (w : Schema.Warn) : ShortReport := ⟨labelRange w.span, chars! "deprecated", none⟩

/-- schema_error.rs:69-76 `write_report`: the reports in the order they are written. -/
def validationReports (r : Schema.Result) : List ShortReport :=
  r.errors.map errorReport ++ r.warnings.map warningReport

/-- crates/styx-cli/src/main.rs:782-797: the reports that validating a document writes. -/
def printedReports (r : Schema.Result) : List ShortReport :=
  if !r.isValid then validationReports r
  else if !r.warnings.isEmpty then validationReports r
  else []

end Styx.Cli
