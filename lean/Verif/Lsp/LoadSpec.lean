import Verif.Cli.FilesSpec
import Verif.Lsp.Marks

/-! # Specification: the same document on the command line and in the editor -/

namespace Styx.Spec

open Styx Styx.Cli

variable {F : Type}

/-- A declaration that is a path, or an object with the texts `id` and `cli`. -/
def Complete (w : Value) : Prop :=
  (∃ path, w.asStr = some path) ∨
  (w.asStr = none ∧ ∃ es i id c cli, w.asObject = some es ∧ objGet es (chars! "id") = some i ∧ i.asStr = some id ∧
    objGet es (chars! "cli") = some c ∧ c.asStr = some cli)

/-- The two paths name the same document, and what lies next to it is the same for both. -/
def SamePlace (W : World F) (input doc : List Char) : Prop :=
  W.lead input = W.lead doc ∧ ∀ path p q, NextTo input path p → NextTo doc path q → W.lead p = W.lead q

/-- The editor shows an error of validation against the schema. -/
def ShowsSchemaError (ms : List Lsp.Mark) : Prop := ∃ m ∈ ms, m.origin = .schema ∧ m.severity = .error

end Styx.Spec
