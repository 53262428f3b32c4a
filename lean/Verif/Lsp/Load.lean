import Verif.Cli.Files
import Verif.Lsp.Declare

/-!
# Model: how the language server finds and loads the schema of a document

Source: crates/styx-lsp/src/schema_validation.rs, with crates/styx-lsp/src/server.rs `compute_diagnostics`.

Simplifications: the system is the one of the command line (`Cli.World`); files do not change while one set of
diagnostics is computed, although the schema is read twice; the document has a `file:` URL, of which `doc` is the
path; whether a URL can be made for the schema (`to_uri`, which writes embedded schemas to the cache) is a parameter.
-/

namespace Styx.Lsp

open Styx

variable {F : Type}

/-- How loading a schema fails; the message is left out. -/
inductive LoadError where
  | failed
  | panics
  deriving DecidableEq, Repr

/-- schema_validation.rs:167-185 `resolve_schema_path`. -/
def resolvePath (path doc : List Char) : Option (List Char) :=
  if (chars! "http://").isPrefixOf path ∨ (chars! "https://").isPrefixOf path then none
  else if path.head? = some '/' then some path
  else (Cli.pathParent doc).map (Cli.pathJoin · path)

/-- schema_validation.rs:258-267 `extract_schema_id`; the outer `none` is a panic of the parser. -/
def schemaId (source : List Char) : Option (Option (List Char)) :=
  (parseTree source).map fun
    | .ok v => v.asObject.bind fun es => (objGet es (chars! "meta")).bind fun m => m.asObject.bind fun ms =>
        (objGet ms (chars! "id")).bind Value.asStr
    | .error _ => none

/-- schema_validation.rs:244-255: the first schema with the identifier. -/
def findById (id : List Char) : List (List Char) → Except LoadError (List Char)
  | [] => .error .failed
  | s :: ss =>
    match schemaId s with
    | none => .error .panics
    | some i => if i = some id then .ok s else findById id ss

/-- schema_validation.rs:42-59 `load_source`, with 225-256 `extract_embedded_schema_source`. -/
def loadSource (W : Cli.World F) (d : Cli.Disk) (doc : List Char) : SchemaRef → Except LoadError (List Char)
  | .external path =>
    match resolvePath path doc with
    | none => .error .failed
    | some place =>
      match W.readText d place with
      | .ok t => .ok t
      | .error _ => .error .failed
  | .embedded id cli =>
    match W.embedded cli with
    | none => .error .failed
    | some [] => .error .failed
    | some (s :: ss) => findById id (s :: ss)
  | .optOut => .error .failed

/-- schema_validation.rs:61-74 `load_schema`, with 187-194 `load_schema_file` and 219-222
`extract_embedded_schema`. -/
def loadSchema (W : Cli.World F) (d : Cli.Disk) (doc : List Char) (r : SchemaRef) :
    Except LoadError (Schema.SchemaFile F) :=
  match loadSource W d doc r with
  | .error e => .error e
  | .ok t =>
    match W.readSchema t with
    | some sf => .ok sf
    | none => .error .failed

/-- schema_validation.rs:275-289 `resolve_schema`, the text of the schema. -/
def resolveSchema (W : Cli.World F) (hasUri : SchemaRef → Bool) (d : Cli.Disk) (doc : List Char) (v : Value) :
    Except LoadError (List Char) :=
  match findSchemaDeclaration v with
  | none => .error .failed
  | some r =>
    match loadSource W d doc r with
    | .error e => .error e
    | .ok t =>
      match W.readSchema t with
      | none => .error .failed
      | some _ => if hasUri r then .ok t else .error .failed

/-- schema_validation.rs:294-307 `validate_against_schema`; the inner `none` is recursion without end. -/
def validateAgainst (W : Cli.World F) (fuel : Nat) (d : Cli.Disk) (doc : List Char) (v : Value) :
    Except LoadError (Option Schema.Result) :=
  match findSchemaDeclaration v with
  | none => .error .failed
  | some r =>
    match loadSchema W d doc r with
    | .error e => .error e
    | .ok sf => .ok (Schema.validateDocument W.env sf fuel (Cli.stripSchemaDeclaration v))

/-- server.rs:276-291 and 358-375: what the server finds out about the document; `none` if it crashes. -/
def check (W : Cli.World F) (hasUri : SchemaRef → Bool) (fuel : Nat) (d : Cli.Disk) (doc : List Char) (v : Value) :
    Option Checked :=
  match resolveSchema W hasUri d doc v with
  | .error .panics => none
  | .error .failed => some .unresolved
  | .ok _ =>
    match validateAgainst W fuel d doc v with
    | .error .panics => none
    | .error .failed => some .unloadable
    | .ok none => none
    | .ok (some r) => some (.validated r)

end Styx.Lsp
