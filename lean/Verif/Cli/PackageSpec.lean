import Verif.Cli.Package
import Verif.Cli.FilesSpec

/-!
# Specification: the crate in a directory, as the build tool reads it

Of the manifest only this part of TOML: one table, one entry in a line, values that are basic strings or arrays of
them, `\"` and `\\` as the only escapes.  A text with anything else cannot be read.
-/

namespace Styx.Spec

open Styx Styx.Cli

variable {F : Type}

/-- The lines of a text. -/
def tomlLines : List Char → List (List Char)
  | [] => [[]]
  | '\n' :: s => [] :: tomlLines s
  | c :: s =>
    match tomlLines s with
    | [] => [[c]]
    | l :: ls => (c :: l) :: ls

/-- A character that may stand for itself in a basic string. -/
def TomlPlain (c : Char) : Prop := c ≠ '"' ∧ c ≠ '\\' ∧ 32 ≤ c.toNat ∧ c.toNat ≠ 127

instance (c : Char) : Decidable (TomlPlain c) := by unfold TomlPlain; infer_instance

/-- A basic string after its first quote, and what follows it. -/
def tomlString : List Char → Option (List Char × List Char)
  | [] => none
  | c :: s =>
    if c = '"' then some ([], s)
    else if c = '\\' then
      match s with
      | '"' :: s => (tomlString s).map fun r => ('"' :: r.1, r.2)
      | '\\' :: s => (tomlString s).map fun r => ('\\' :: r.1, r.2)
      | _ => none
    else if TomlPlain c then (tomlString s).map fun r => (c :: r.1, r.2)
    else none

/-- A value of the manifest. -/
inductive TomlValue where
  | text (s : List Char)
  | texts (ss : List (List Char))
  deriving DecidableEq

/-- The strings of an array after its first bracket, up to the end of the line. -/
def tomlItems : Nat → List Char → Option (List (List Char))
  | 0, _ => none
  | _, [']'] => some []
  | n + 1, '"' :: s =>
    match tomlString s with
    | some (t, [']']) => some [t]
    | some (t, ',' :: ' ' :: rest) => (tomlItems n rest).map (t :: ·)
    | _ => none
  | _, _ => none

/-- The value behind an equals sign. -/
def tomlValue : List Char → Option TomlValue
  | '"' :: s =>
    match tomlString s with
    | some (t, []) => some (.text t)
    | _ => none
  | '[' :: s => (tomlItems (s.length + 1) s).map .texts
  | _ => none

/-- One line: a bare key, an equals sign between spaces, a value. -/
def tomlLine (l : List Char) : Option (List Char × TomlValue) :=
  let key := l.takeWhile (fun c => c.isAlphanum ∨ c = '-' ∨ c = '_')
  match l.dropWhile (fun c => c.isAlphanum ∨ c = '-' ∨ c = '_') with
  | ' ' :: '=' :: ' ' :: v => if key = [] then none else (tomlValue v).map (key, ·)
  | _ => none

/-- The entries of lines, of which none but the last is empty. -/
def tomlEntries : List (List Char) → Option (List (List Char × TomlValue))
  | [] => some []
  | [[]] => some []
  | l :: ls =>
    match tomlLine l, tomlEntries ls with
    | some e, some es => some (e :: es)
    | _, _ => none

/-- The table `package` of a manifest that has only this one; no key twice. -/
def readManifest (t : List Char) : Option (List (List Char × TomlValue)) :=
  match tomlLines t with
  | l :: ls =>
    if l = chars! "[package]" then
      match tomlEntries ls with
      | some es => if (es.map (·.1)).Nodup then some es else none
      | none => none
    else none
  | [] => none

/-- The manifest gives the crate the name and the version. -/
def ManifestSays (t name version : List Char) : Prop :=
  ∃ es, readManifest t = some es ∧ es.lookup (chars! "name") = some (.text name) ∧
    es.lookup (chars! "version") = some (.text version)

/-- A Rust text that has comments and empty lines and, once, the constant with the text of the file. -/
def IncludesSchema (t : List Char) : Prop :=
  (tomlLines t).filter (fun l => l ≠ [] ∧ ¬ (chars! "//") <+: l) =
    [chars! "pub const SCHEMA: &str = include_str!(\"../schema.styx\");"]

/-- The directory holds a crate with the name, the version and the schema. -/
def HoldsCrate (W : World F) (d : Disk) (dir name version schema : List Char) : Prop :=
  (∃ t, HoldsText W d (pathJoin dir (chars! "Cargo.toml")) t ∧ ManifestSays t name version) ∧
  (∃ t, HoldsText W d (pathJoin dir (chars! "src/lib.rs")) t ∧ IncludesSchema t) ∧
  HoldsText W d (pathJoin dir (chars! "schema.styx")) schema

/-- The four files of a crate in the directory: different ones, and they can be read. -/
structure CrateAt (W : World F) (dir : List Char) (ft fl fr fs : Nat) : Prop where
  toml : W.lead (pathJoin dir (chars! "Cargo.toml")) = some ft
  lib : W.lead (pathJoin dir (chars! "src/lib.rs")) = some fl
  readme : W.lead (pathJoin dir (chars! "README.md")) = some fr
  schema : W.lead (pathJoin dir (chars! "schema.styx")) = some fs
  apart : [ft, fl, fr, fs].Nodup
  readable : ∀ f ∈ [ft, fl, fr, fs], W.mayRead f = true

/-- A name or a version without quotes, backslashes and control characters; every name and version that Cargo
allows is one. -/
def PlainName (s : List Char) : Prop := ∀ c ∈ s, TomlPlain c

end Styx.Spec
