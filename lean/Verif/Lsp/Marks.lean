import Verif.Lsp.Diagnose
import Verif.Cst.Check

/-!
# Model: what the language server reports about a document

crates/styx-lsp/src/server.rs `compute_diagnostics`.
-/

namespace Styx.Lsp

open Styx

/-- Where a diagnostic comes from: the field `source` of the diagnostics in crates/styx-lsp/src/server.rs:193-413. -/
inductive Origin where
  | styx | schema | hints
  deriving DecidableEq, Repr

/-- A diagnostic of the protocol: its range, severity and source.  Messages, codes, links and data for quick fixes are
left out. -/
structure Mark where
  range : Position × Position
  severity : Cst.Severity
  origin : Origin
  deriving DecidableEq, Repr

/-- What crates/styx-lsp/src/server.rs:276-291 finds for the document: no schema, one that cannot be loaded, or the
result of validation. -/
inductive Checked where
  | unresolved
  | unloadable
  | validated (r : Schema.Result)

/-- crates/styx-lsp/src/server.rs:203-221: the errors of the parser for concrete syntax trees. -/
def cstMarks (content : List Char) (p : Cst.Parse) : List Mark :=
  p.errors.map fun e => ⟨(offsetToPosition content e.offset, offsetToPosition content (e.offset + 1)), .error, .styx⟩

/-- crates/styx-lsp/src/server.rs:223-247: the error of the parser for trees. -/
def treeMark (content : List Char) : BuildError → Mark
  | .parse _ sp => ⟨spanRange content sp, .error, .styx⟩
  | _ => ⟨(⟨0, 0⟩, ⟨0, 1⟩), .error, .styx⟩

/-- crates/styx-lsp/src/server.rs:249-274: what the validation of the concrete syntax tree finds. -/
def checkMarks (content : List Char) (p : Cst.Parse) : List Mark :=
  (Cst.validate p.green).map fun d =>
    ⟨(offsetToPosition content d.start, offsetToPosition content d.stop), d.severity, .styx⟩

/-- crates/styx-lsp/src/server.rs:276-377: what validation against the schema finds. -/
def schemaMarks (content : List Char) (tree : Value) : Checked → List Mark
  | .unresolved => []
  | .unloadable => [⟨(⟨0, 0⟩, ⟨0, 1⟩), .error, .schema⟩]
  | .validated r =>
    r.errors.map (fun e => ⟨errorRange content tree e, .error, .schema⟩) ++
      r.warnings.map (fun w => ⟨warningRange content w, .warning, .schema⟩)

/-- crates/styx-lsp/src/server.rs:193-413 `compute_diagnostics`.  `checked` is what loading the schema and validating
against it gives; `hint` is whether the document declares no schema and its address matches a pattern. -/
def computeDiagnostics (content : List Char) (p : Cst.Parse) (tree : Option Value) (treeError : Option BuildError)
    (checked : Checked) (hint : Bool) : List Mark :=
  cstMarks content p ++ (treeError.map (treeMark content)).toList ++ checkMarks content p ++
    (match tree with
      | some t => schemaMarks content t checked
      | none => []) ++
    (match tree with
      | some _ => if hint then [⟨(⟨0, 0⟩, ⟨0, 0⟩), .hint, .hints⟩] else []
      | none => [])

/-- crates/styx-lsp/src/server.rs:500-507 and 551-558: what is reported about a text that was opened or changed, as
`compute_diagnostics` in crates/styx-lsp/src/server.rs:112 gives it; `none` is a panic. -/
def marks (source : List Char) (checked : Checked) (hint : Bool) : Option (List Mark) :=
  (parseTree source).map fun
    | .ok t => computeDiagnostics source (Cst.parse source) (some t) none checked hint
    | .error e => computeDiagnostics source (Cst.parse source) none (some e) checked hint

/-- crates/styx-lsp/src/server.rs:1605-1624: what is reported about an open document after an extension was allowed. -/
def marksAfterAllow (source : List Char) (checked : Checked) (hint : Bool) : Option (List Mark) :=
  (parseTree source).map fun
    | .ok t => computeDiagnostics source (Cst.parse source) (some t) none checked hint
    | .error _ => computeDiagnostics source (Cst.parse source) none none checked hint

end Styx.Lsp
