import Verif.Cli.Files
import Verif.Cli.Spec

/-!
# Specification: what a run of the command line may do to files, and what its exit code means
-/

namespace Styx.Spec

open Styx Styx.Cli

variable {F : Type}

/-- What the operating system promises: two paths with the same canonical path lead to the same file, a file that is
there has a canonical path, and what gets written of some bytes is a beginning of them. -/
structure WellSet (W : World F) (d : Disk) : Prop where
  same : ∀ a b c, W.canonical a = some c → W.canonical b = some c → W.lead a = W.lead b
  there : ∀ a f, W.lead a = some f → d f ≠ none → W.canonical a ≠ none
  written : ∀ f bs, (W.parts f bs).flatten <+: bs

/-- No file has two canonical paths: there are no hard links. -/
def OneName (W : World F) : Prop :=
  ∀ a b x y f, W.lead a = some f → W.lead b = some f → W.canonical a = some x → W.canonical b = some y → x = y

/-- The bytes of a text in UTF-8. -/
def utf8 (t : List Char) : List UInt8 := t.flatMap String.utf8EncodeChar

/-- The file at the path can be read and holds the text. -/
def HoldsText (W : World F) (d : Disk) (path t : List Char) : Prop :=
  ∃ f, W.lead path = some f ∧ W.mayRead f = true ∧ d f = some (utf8 t)

/-- The text that is to be processed: of standard input if the path is `-`, of the file otherwise. -/
def InputText (W : World F) (d : Disk) (path t : List Char) : Prop :=
  (path = ['-'] ∧ W.stdin = some t) ∨ (path ≠ ['-'] ∧ HoldsText W d path t)

/-- The file that is to be written, if any: the one given for JSON; otherwise the input, in place; otherwise the one
given for the output. -/
def Destination (W : World F) (a : FileArgs) (f : Nat) : Prop :=
  (∃ p, a.jsonOut = some p ∧ p ≠ ['-'] ∧ W.lead p = some f) ∨
  (a.jsonOut = none ∧ a.inPlace = true ∧ W.lead a.input = some f) ∨
  (a.jsonOut = none ∧ a.inPlace = false ∧ ∃ p, a.output = some p ∧ p ≠ ['-'] ∧ W.lead p = some f)

/-- A path without a directory, or a directory (nothing for the root) that does not end in `/` or `/.`, a slash and a
name. -/
inductive TidyPath : List Char → Prop
  | plain {s} : '/' ∉ s → TidyPath s
  | under {dir name} : '/' ∉ name → name ≠ [] → name ≠ ['.'] → ¬ ['/'] <:+ dir → ¬ ['/', '.'] <:+ dir →
      TidyPath (dir ++ '/' :: name)

/-- Where a relative path in a document leads to: next to the document. -/
inductive NextTo : List Char → List Char → List Char → Prop
  | absolute {doc path} : NextTo doc ('/' :: path) ('/' :: path)
  | plain {doc path} : path.head? ≠ some '/' → '/' ∉ doc → NextTo doc path path
  | under {dir name path} : path.head? ≠ some '/' → '/' ∉ name → NextTo (dir ++ '/' :: name) path (dir ++ '/' :: path)

/-- `http://…` or `https://…`. -/
def IsUrl (path : List Char) : Prop := (chars! "http://") <+: path ∨ (chars! "https://") <+: path

/-- The first entry with the key `@schema` has the value. -/
def DeclaredBy (v w : Value) : Prop :=
  ∃ t es sp s before k doc after, v = .mk t (some (.object es sp)) s ∧ es = before ++ .mk k w doc :: after ∧
    k.tagName = some (chars! "schema") ∧ ∀ e ∈ before, e.key.tagName ≠ some (chars! "schema")

/-- A text that names itself with the identifier in its block `meta`. -/
def Identified (t id : List Char) : Prop :=
  ∃ v es m ms i, parseTree t = some (.ok v) ∧ v.asObject = some es ∧ objGet es (chars! "meta") = some m ∧
    m.asObject = some ms ∧ objGet ms (chars! "id") = some i ∧ i.asStr = some id

/-- The text of the schema to validate a document against: the one of the given file; otherwise the file that the
document declares, looked for next to the document; otherwise, if it declares a program, the first schema in the
program, or the first one with the identifier. -/
inductive SchemaText (W : World F) (d : Disk) (doc : List Char) (v : Value) : Option (List Char) → List Char → Prop
  | given {path t} : HoldsText W d path t → SchemaText W d doc v (some path) t
  | file {w path place t} : DeclaredBy v w → w.asStr = some path → ¬ IsUrl path → NextTo doc path place →
      HoldsText W d place t → SchemaText W d doc v none t
  | first {w es c cli t ts} : DeclaredBy v w → w.asStr = none → w.asObject = some es →
      objGet es (chars! "cli") = some c → c.asStr = some cli → ((objGet es (chars! "id")).bind Value.asStr) = none →
      W.embedded cli = some (t :: ts) → SchemaText W d doc v none t
  | identified {w es c cli i id before t after} : DeclaredBy v w → w.asStr = none → w.asObject = some es →
      objGet es (chars! "cli") = some c → c.asStr = some cli → objGet es (chars! "id") = some i → i.asStr = some id →
      W.embedded cli = some (before ++ t :: after) → Identified t id →
      (∀ s ∈ before, ¬ Identified s id ∧ parseTree s ≠ none) → SchemaText W d doc v none t

/-- The document satisfies the schema it is to be validated against: the validator, run on the document without its
declaration, finds no error. -/
def Satisfies (W : World F) (fuel : Nat) (d : Disk) (a : FileArgs) (v : Value) : Prop :=
  ∃ st sf r tag es es' sp s, SchemaText W d a.input v a.schema st ∧ W.readSchema st = some sf ∧
    v = .mk tag (some (.object es sp)) s ∧ Undeclared es es' ∧
    Schema.validateDocument W.env sf fuel (.mk tag (some (.object es' sp)) s) = some r ∧ r.errors = []

/-- Options that contradict each other, or the same file as input and output. -/
def Contradictory (W : World F) (a : FileArgs) : Prop :=
  (a.inPlace = true ∧ a.input = ['-']) ∨ (a.schema ≠ none ∧ a.validate = false) ∨
  ∃ o, a.output = some o ∧ a.input ≠ ['-'] ∧ o ≠ ['-'] ∧
    (a.input = o ∨ ∃ c, W.canonical a.input = some c ∧ W.canonical o = some c)

end Styx.Spec
