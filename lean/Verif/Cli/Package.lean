import Verif.Cli.Files

/-!
# Model: the command that makes a crate of a schema (styx-cli/src/main.rs)

As in `Cli/Files.lean`, what a run does is a list of operations, and a crash is a prefix of the list.  Directories are
not part of the disk: whether they can be made is a parameter.
-/

namespace Styx.Cli

open Styx

variable {F : Type}

/-- main.rs:1440-1453 `generate_cargo_toml`. -/
def cargoToml (name version : List Char) : List Char :=
  chars! "[package]\nname = \"" ++ name ++ chars! "\"\nversion = \"" ++ version ++
  chars! "\"\nedition = \"2024\"\nlicense = \"MIT OR Apache-2.0\"\ndescription = \"Styx schema for " ++ name ++
  chars! "\"\nreadme = \"README.md\"\ncategories = [\"config\"]\nkeywords = [\"styx\", \"schema\"]\n"

/-- main.rs:1456, 1476: `name.replace('-', "_")`. -/
def snakeName (name : List Char) : List Char := name.map fun c => if c = '-' then '_' else c

/-- main.rs:1455-1473 `generate_readme`. -/
def crateReadme (name : List Char) : List Char :=
  chars! "# " ++ name ++ chars! "\n\nA [Styx](https://styx.bearcove.eu) schema crate.\n\n## Usage\n\n```rust\nuse " ++
  snakeName name ++ chars! "::SCHEMA;\n```\n\n## License\n\nMIT OR Apache-2.0\n"

/-- main.rs:1475-1485 `generate_lib_rs`. -/
def crateLib (name : List Char) : List Char :=
  chars! "//! Styx schema crate for " ++ snakeName name ++
  chars! ".\n\n/// The styx schema content.\npub const SCHEMA: &str = include_str!(\"../schema.styx\");\n"

/-- main.rs:1421-1430: files written one after the other; the first failure (`?`) ends it. -/
def World.writeAll (W : World F) : List (List Char × List Char) → List Op × Exit
  | [] => ([], .success)
  | (path, text) :: rest =>
    let r := W.writeFile path (Ffi.bytesOf text)
    match r.2 with
    | .success => (r.1 ++ (W.writeAll rest).1, (W.writeAll rest).2)
    | e => (r.1, e)

/-- main.rs:1421-1430: the files of a crate. -/
def crateFiles (dir name version content : List Char) : List (List Char × List Char) :=
  [(pathJoin dir (chars! "Cargo.toml"), cargoToml name version),
   (pathJoin dir (chars! "src/lib.rs"), crateLib name),
   (pathJoin dir (chars! "README.md"), crateReadme name),
   (pathJoin dir (chars! "schema.styx"), content)]

/-- main.rs:1404-1438 `run_package`; `mkdirs` says whether `create_dir_all` succeeds. -/
def World.package (W : World F) (mkdirs : List Char → Bool) (d : Disk) (schemaFile name version : List Char)
    (output : Option (List Char)) : List Op × Exit :=
  let dir := output.getD name
  match W.readText d schemaFile with
  | .error e => ([], e)
  | .ok content =>
    match parseTree content with
    | none => ([], .panics)
    | some (.error _) => ([], .failed .parse)
    | some (.ok _) =>
      if mkdirs (pathJoin dir (chars! "src")) then W.writeAll (crateFiles dir name version content)
      else ([], .failed .io)

end Styx.Cli
