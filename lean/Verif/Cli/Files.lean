import Verif.Cli.Model
import Verif.Ffi.Model
import Verif.Json.Model
import Verif.Schema.Model
import Verif.Lsp.Tokens
import Verif.Cst.Format

/-!
# Model: the file mode of the command line, with the files it reads and writes

Source: crates/styx-cli/src/main.rs, `styx <file> [options]`.

What a run does to the disk and to standard output is a list of operations; a crash is a prefix of the list.

Simplifications: the arguments are given as `FileArgs` (crate figue reads them); files have numbers, a path leads to at
most one file; during a run nobody else changes files; messages on standard error are left out; standard output takes
everything.  What `std::fs` answers, the reading of a schema into the types of the validator (`facet_styx::from_str`),
the finding of programs and of the schemas in them, and the text of a JSON value are parameters.
-/

namespace Styx.Cli

open Styx

/-- main.rs:43-74 `FileArgs`. -/
structure FileArgs where
  input : List Char
  output : Option (List Char) := none
  jsonOut : Option (List Char) := none
  inPlace : Bool := false
  compact : Bool := false
  validate : Bool := false
  schema : Option (List Char) := none

/-- The contents of the files; `none` for a file that is not there. -/
abbrev Disk := Nat → Option (List UInt8)

/-- What the program finds around it. -/
structure World (F : Type) where
  /-- The file a path leads to, or the one that would be made there; `none` if no file can be opened there. -/
  lead : List Char → Option Nat
  /-- `std::fs::canonicalize`. -/
  canonical : List Char → Option (List Char)
  mayRead : Nat → Bool
  mayWrite : Nat → Bool
  /-- The pieces that are written one after the other when bytes are to be written to a file. -/
  parts : Nat → List UInt8 → List (List UInt8)
  /-- What standard input gives; `none` if that is no text. -/
  stdin : Option (List Char)
  terminal : Bool
  lib : Json.Lib
  jsonText : Json.Json lib.F → List Char
  env : Schema.Env F
  readSchema : List Char → Option (Schema.SchemaFile F)
  /-- The schemas in the program with the name; `none` if there is no such program or they cannot be read. -/
  embedded : List Char → Option (List (List Char))

/-- What a run does, step by step. -/
inductive Op where
  /-- `File::create`: the file is there and empty. -/
  | truncate (f : Nat)
  | append (f : Nat) (bs : List UInt8)
  | print (t : List Char)

/-- The disk after an operation. -/
def Op.apply (d : Disk) : Op → Disk
  | .truncate f => fun g => if g = f then some [] else d g
  | .append f bs => fun g => if g = f then (d g).map (· ++ bs) else d g
  | .print _ => d

/-- The disk after operations. -/
def after (d : Disk) (ops : List Op) : Disk := ops.foldl Op.apply d

/-- What operations print. -/
def printed (ops : List Op) : List Char := ops.flatMap fun
  | .print t => t
  | _ => []

/-- main.rs:455-465 `CliError` without the messages. -/
inductive Failure where
  | io
  | parse
  | parseDiagnostic
  | validation
  | usage
  deriving DecidableEq

/-- How a run ends. -/
inductive Exit where
  | success
  | failed (e : Failure)
  | panics
  /-- The validator recurses without end. -/
  | overflows
  deriving DecidableEq

/-- main.rs:32-35 and 467-477: the exit code; the one of a panic is Rust's. -/
def Exit.code : Exit → Option Nat
  | .success => some 0
  | .failed .io => some 3
  | .failed .parse => some 1
  | .failed .parseDiagnostic => some 1
  | .failed .validation => some 2
  | .failed .usage => some 1
  | .panics => some 101
  | .overflows => none

variable {F : Type}

/-- `std::fs::read_to_string`. -/
def World.readText (W : World F) (d : Disk) (path : List Char) : Except Exit (List Char) :=
  match W.lead path with
  | none => .error (.failed .io)
  | some f =>
    if W.mayRead f then
      match (d f).bind Ffi.toStr with
      | some t => .ok t
      | none => .error (.failed .io)
    else .error (.failed .io)

/-- main.rs:985-994 `read_input`. -/
def World.readInput (W : World F) (d : Disk) (path : List Char) : Except Exit (List Char) :=
  if path = ['-'] then
    match W.stdin with
    | some t => .ok t
    | none => .error (.failed .io)
  else W.readText d path

/-- main.rs:1084-1089 `is_same_file`. -/
def World.sameFile (W : World F) (a b : List Char) : Bool :=
  match W.canonical a, W.canonical b with
  | some x, some y => x == y
  | _, _ => a == b

/-- `std::fs::write`: the file is made empty, then written. -/
def World.writeFile (W : World F) (path : List Char) (bs : List UInt8) : List Op × Exit :=
  match W.lead path with
  | none => ([], .failed .io)
  | some f =>
    if W.mayWrite f then
      (.truncate f :: (W.parts f bs).map (.append f), if (W.parts f bs).flatten = bs then .success else .failed .io)
    else ([], .failed .io)

/-- main.rs:996-1003 `write_output`. -/
def World.writeOutput (W : World F) (path text : List Char) : List Op × Exit :=
  if path = ['-'] then ([.print text], .success) else W.writeFile path (Ffi.bytesOf text)

/-- main.rs:1076-1082 `print_styx`. -/
def World.printStyx (W : World F) (text : List Char) : List Op × Exit :=
  if W.terminal then
    match Lsp.highlightStyx text with
    | some t => ([.print t], .success)
    | none => ([], .panics)
  else ([.print text], .success)

/-- main.rs:800-803 `SchemaRef`. -/
inductive SchemaRef where
  | external (path : List Char)
  | embedded (id : Option (List Char)) (cli : List Char)
  deriving DecidableEq

/-- main.rs:832-858: what the value of the key `@schema` says. -/
def declarationOf (v : Value) : Except Exit SchemaRef :=
  match v.asStr with
  | some path => .ok (.external path)
  | none =>
    match v.asObject with
    | some es =>
      match (objGet es (chars! "cli")).bind Value.asStr with
      | some cli => .ok (.embedded ((objGet es (chars! "id")).bind Value.asStr) cli)
      | none => .error (.failed .validation)
    | none => .error (.failed .validation)

/-- main.rs:826-866 `find_schema_declaration`. -/
def findSchemaDeclaration (v : Value) : Except Exit SchemaRef :=
  match v.asObject with
  | none => .error (.failed .validation)
  | some es =>
    match es.find? fun e => isSchemaTag e.key with
    | some e => declarationOf e.value
    | none => .error (.failed .validation)

/-- `std::path::Components` from the back, on the reversed text: components that are empty or `.` are passed over.
The number bounds the steps. -/
def trimBack : Nat → List Char → List Char
  | 0, r => r
  | n + 1, r =>
    let comp := r.takeWhile (· ≠ '/')
    if comp = [] ∨ comp = ['.'] then
      match r.dropWhile (· ≠ '/') with
      | [] => []
      | _ :: rest => trimBack n rest
    else r

/-- `std::path::Path::parent` on Unix: in front of the last component, with what `Components` puts in front of all of
them (`/`, or a `.` at the start). -/
def pathParent (s : List Char) : Option (List Char) :=
  let split : List Char × List Char := match s with
    | '/' :: body => (['/'], body)
    | ['.'] => (['.'], [])
    | '.' :: '/' :: body => (['.'], '/' :: body)
    | _ => ([], s)
  let back := trimBack s.length split.2.reverse
  if back = [] then
    if split.1 = ['.'] then some [] else none
  else
    let rest := match back.dropWhile (· ≠ '/') with
      | [] => []
      | _ :: rest => rest
    some (split.1 ++ (trimBack s.length rest).reverse)

/-- `std::path::Path::join` on Unix with a relative path. -/
def pathJoin (dir s : List Char) : List Char :=
  if dir = [] then s else if dir.getLast? = some '/' then dir ++ s else dir ++ '/' :: s

/-- main.rs:868-888 `resolve_schema_path`; `input` is the name of the document (`<stdin>` for standard input), never
absent. -/
def resolveSchemaPath (path input : List Char) : Except Exit (List Char) :=
  if (chars! "http://").isPrefixOf path ∨ (chars! "https://").isPrefixOf path then .error (.failed .usage)
  else if path.head? = some '/' then .ok path
  else
    match (if input ≠ ['-'] then pathParent input else none) with
    | some parent => .ok (pathJoin parent path)
    | none => .ok path

/-- main.rs:898-899 and 973-978: the schema in a text. -/
def World.parseSchema (W : World F) (t : List Char) : Except Exit (Schema.SchemaFile F) :=
  match W.readSchema t with
  | some sf => .ok sf
  | none => .error (.failed .parse)

/-- main.rs:890-900 `load_schema_file`. -/
def World.loadSchema (W : World F) (d : Disk) (path : List Char) : Except Exit (Schema.SchemaFile F) :=
  match W.readText d path with
  | .error e => .error e
  | .ok t => W.parseSchema t

/-- main.rs:936-942: the identifier that a schema gives itself. -/
def metaId (v : Value) : Option (List Char) :=
  ((v.asObject.bind (objGet · (chars! "meta"))).bind fun m => m.asObject.bind (objGet · (chars! "id"))).bind Value.asStr

/-- main.rs:931-946: the first schema with the identifier. -/
def findEmbedded (id : List Char) : List (List Char) → Except Exit (List Char)
  | [] => .error (.failed .validation)
  | s :: ss =>
    match parseTree s with
    | none => .error .panics
    | some (.ok v) => if metaId v = some id then .ok s else findEmbedded id ss
    | some (.error _) => findEmbedded id ss

/-- main.rs:902-979 `extract_embedded_schema`. -/
def World.extract (W : World F) (cli : List Char) (id : Option (List Char)) : Except Exit (Schema.SchemaFile F) :=
  match W.embedded cli with
  | none => .error (.failed .validation)
  | some [] => .error (.failed .validation)
  | some (s :: ss) =>
    match (match id with
      | some i => findEmbedded i (s :: ss)
      | none => .ok s) with
    | .error e => .error e
    | .ok t => W.parseSchema t

/-- main.rs:769-780: the schema to validate against. -/
def World.schemaFor (W : World F) (d : Disk) (v : Value) (filename : List Char) (override : Option (List Char)) :
    Except Exit (Schema.SchemaFile F) :=
  match override with
  | some path => W.loadSchema d path
  | none =>
    match findSchemaDeclaration v with
    | .error e => .error e
    | .ok (.external path) =>
      match resolveSchemaPath path filename with
      | .error e => .error e
      | .ok resolved => W.loadSchema d resolved
    | .ok (.embedded id cli) => W.extract cli id

/-- main.rs:763-798 `run_validation`; `none` is success. -/
def World.runValidation (W : World F) (fuel : Nat) (d : Disk) (v : Value) (filename : List Char)
    (override : Option (List Char)) : Option Exit :=
  match W.schemaFor d v filename override with
  | .error e => some e
  | .ok sf =>
    match Schema.validateDocument W.env sf fuel (stripSchemaDeclaration v) with
    | none => some .overflows
    | some r => if r.isValid then none else some (.failed .validation)

/-- main.rs:332-355: combinations of options that are refused. -/
def World.refused (W : World F) (a : FileArgs) : Bool :=
  (a.inPlace && a.input == ['-']) || (a.schema.isSome && !a.validate) ||
    match a.output with
    | some o => a.input != ['-'] && o != ['-'] && W.sameFile a.input o
    | none => false

/-- main.rs:381-404: the output.  `FormatOptions::inline` sets a style that `format_source` does not look at, so
`compact` makes no difference; the indentation is the default one, four blanks. -/
def World.writeResult (W : World F) (a : FileArgs) (source : List Char) (v : Value) : List Op × Exit :=
  match a.jsonOut with
  | some path => W.writeOutput path (W.jsonText (Json.cliJson W.lib v))
  | none =>
    let out := Cst.formatSource (chars! "    ") source
    if a.inPlace then W.writeFile a.input (Ffi.bytesOf out)
    else
      match a.output with
      | some path => W.writeOutput path out
      | none => W.printStyx out

/-- main.rs:363-379 and 370-373: what happens between parsing and the output; `none` goes on to the output. -/
def World.check (W : World F) (fuel : Nat) (d : Disk) (a : FileArgs) (v : Value) : Option Exit :=
  if a.validate then
    match W.runValidation fuel d v (if a.input = ['-'] then chars! "<stdin>" else a.input) a.schema with
    | some e => some e
    | none => if a.jsonOut.isSome || a.output.isSome || a.inPlace then none else some .success
  else none

/-- main.rs:329-407 `run_file_mode`. -/
def World.run (W : World F) (fuel : Nat) (d : Disk) (a : FileArgs) : List Op × Exit :=
  if W.refused a then ([], .failed .usage)
  else
    match W.readInput d a.input with
    | .error e => ([], e)
    | .ok source =>
      match parseTree source with
      | none => ([], .panics)
      | some (.error _) => ([], .failed .parseDiagnostic)
      | some (.ok v) =>
        match W.check fuel d a v with
        | some e => ([], e)
        | none => W.writeResult a source v

end Styx.Cli
