import Verif.Lsp.Declare
import Verif.Tree.Builder

/-!
# Model: which schema the language server suggests for a file

Sources: crates/styx-lsp/src/schema_hints.rs, crates/styx-lsp/registry/schema-hints.styx.

Simplifications: the path is the one of the `file:` URL, absolute, a list of characters; the directories of the
user (`dirs`) and the git root are parameters.  The registry is read through the document tree instead of the
deserializer.  The glob patterns are those of the crate `glob` by its documentation, without character classes
(no pattern of the registry has one).  A `HashMap` is the list of its entries in some order.
-/

namespace Styx.Lsp.Hints

open Styx

/-- schema_hints.rs:17-31 `Hint` with its key in the registry, without the texts for people; 35-41
`SchemaRef`. -/
structure Hint where
  tool : List Char
  patterns : List (List Char)
  id : List Char
  cli : Option (List Char)
  deriving DecidableEq, Repr

/-! ## Patterns -/

/-- A token of `glob::Pattern`. -/
inductive Tok where
  | char (c : Char)
  | any
  | seq
  | dirs
  deriving DecidableEq, Repr

/-- `glob::Pattern::new`: `start` tells whether a component of the path starts here.  `**` must be a whole
component and takes the separator behind it along; three stars are an error. -/
def compile : Bool → List Char → Option (List Tok)
  | _, [] => some []
  | _, ['*'] => some [.seq]
  | start, ['*', '*'] => if start then some [.dirs] else none
  | start, '*' :: '*' :: '/' :: s => if start then (compile true s).map (.dirs :: ·) else none
  | _, '*' :: '*' :: _ => none
  | _, '*' :: s => (compile false s).map (.seq :: ·)
  | _, c :: s => (compile (c == '/') s).map ((if c = '?' then .any else .char c) :: ·)

/-- Whether the rest matches after some characters, at least one. -/
def seqLoop (rest : List Char → Bool) : List Char → Bool
  | [] => false
  | _ :: s => rest s || seqLoop rest s

/-- Whether the rest matches after some characters that end with a separator. -/
def dirsLoop (rest : List Char → Bool) : List Char → Bool
  | [] => false
  | c :: s => (c == '/' && rest s) || dirsLoop rest s

/-- `glob::Pattern::matches` with the default options: `*` also matches separators and dots. -/
def globMatches : List Tok → List Char → Bool
  | [], s => s.isEmpty
  | .char c :: ts, s => match s with
    | [] => false
    | d :: s => c == d && globMatches ts s
  | .any :: ts, s => match s with
    | [] => false
    | _ :: s => globMatches ts s
  | .seq :: ts, s => globMatches ts s || seqLoop (globMatches ts) s
  | .dirs :: ts, s => globMatches ts s || dirsLoop (globMatches ts) s

/-- The pieces of a path between separators. -/
def pieces : List Char → List (List Char)
  | [] => [[]]
  | c :: s =>
    if c = '/' then [] :: pieces s
    else match pieces s with
      | [] => [[c]]
      | p :: ps => (c :: p) :: ps

/-- `Path::components`: whether the path is absolute, and its components; empty ones and `.` are dropped (a
`.` at the start of a relative path is not, which makes no difference here: the other path is absolute). -/
def components (s : List Char) : Bool × List (List Char) :=
  (s.head? == some '/', (pieces s).filter fun p => p ≠ [] && p ≠ ['.'])

/-- `str::replace`: the first number is how many characters of an occurrence are still to be dropped. -/
def replaceGo (pat rep : List Char) : Nat → List Char → List Char
  | _, [] => []
  | k + 1, _ :: s => replaceGo pat rep k s
  | 0, c :: s =>
    if pat.isPrefixOf (c :: s) then rep ++ replaceGo pat rep (pat.length - 1) s
    else c :: replaceGo pat rep 0 s

/-- `str::replace` (used at schema_hints.rs:135, 145, 150). -/
def replace (pat rep s : List Char) : List Char := replaceGo pat rep 0 s

/-- `str::contains` of a text. -/
def contains (pat : List Char) : List Char → Bool
  | [] => pat.isEmpty
  | c :: s => pat.isPrefixOf (c :: s) || contains pat s

/-- `dirs::config_dir()` and `dirs::home_dir()` (schema_hints.rs:101-109), and the result of `find_git_root`
(91-99). -/
structure Env where
  config : Option (List Char)
  home : Option (List Char)
  gitRoot : Option (List Char)

/-- schema_hints.rs:130-154 `expand_pattern`. -/
def expand (env : Env) (pattern : List Char) : List Char :=
  let rest (s : List Char) : List Char :=
    let s := match env.config with
      | some d => replace (chars! "{userconfig}") d s
      | none => s
    match env.home with
    | some d => replace (chars! "{home}") d s
    | none => s
  match env.gitRoot with
  | some root => rest (replace (chars! "{git_root}") root pattern)
  | none => if contains (chars! "{git_root}") pattern then [] else rest pattern

/-- schema_hints.rs:112-127 `matches_pattern`. -/
def matchesPattern (env : Env) (file pattern : List Char) : Bool :=
  let expanded := expand env pattern
  if '*' ∈ expanded then
    match compile true expanded with
    | some ts => globMatches ts file
    | none => false
  else components file == components expanded

/-- schema_hints.rs:168-181: the loops over the hints, in the order of the map, and their patterns. -/
def findIn (env : Env) (file : List Char) : List Hint → Option (Hint × List Char)
  | [] => none
  | h :: hs =>
    match h.patterns.find? (matchesPattern env file) with
    | some p => some (h, p)
    | none => findIn env file hs

/-! ## The registry -/

/-- crates/styx-lsp/registry/schema-hints.styx:1-61. -/
def registrySource : List Char := List.flatten [
  chars! "@schema schema.styx\n",
  chars! "\n",
  chars! "// Schema hints registry\n",
  chars! "//\n",
  chars! "// This file maps file path patterns to their schemas.\n",
  chars! "// When a .styx file matches a pattern but has no @schema declaration,\n",
  chars! "// the editor suggests adding one.\n",
  chars! "//\n",
  chars! "// PRs welcome! See docs/content/tools/schema-registry.md for details.\n",
  chars! "\n",
  chars! "hints {\n",
  chars! "    captain {\n",
  chars! "        title \"Captain\"\n",
  chars! "        description \"Git hooks manager for Rust projects\"\n",
  chars! "        homepage \"https://github.com/bearcove/captain\"\n",
  chars! "        patterns (\"**/.config/captain/config.styx\")\n",
  chars! "        schema {id crate:captain-config@1, cli captain}\n",
  chars! "    }\n",
  chars! "    dodeca {\n",
  chars! "        title \"Dodeca\"\n",
  chars! "        description \"Static site generator\"\n",
  chars! "        homepage \"https://github.com/bearcove/home\"\n",
  chars! "        patterns (\"**/.config/dodeca.styx\")\n",
  chars! "        schema {id crate:dodeca-config@1, cli ddc}\n",
  chars! "    }\n",
  chars! "    tracey {\n",
  chars! "        title \"Tracey\"\n",
  chars! "        description \"Spec coverage tracking tool\"\n",
  chars! "        homepage \"https://github.com/bearcove/tracey\"\n",
  chars! "        patterns (\"**/.config/tracey/config.styx\")\n",
  chars! "        schema {id crate:tracey-config@1, cli tracey}\n",
  chars! "    }\n",
  chars! "    dibs {\n",
  chars! "        title \"Dibs\"\n",
  chars! "        description \"Postgres toolkit for Rust\"\n",
  chars! "        homepage \"https://github.com/bearcove/dibs\"\n",
  chars! "        patterns (\"**/.config/dibs.styx\")\n",
  chars! "        schema {id crate:dibs@1, cli dibs}\n",
  chars! "    }\n",
  chars! "    dibs-queries {\n",
  chars! "        title \"Dibs Queries\"\n",
  chars! "        description \"Query DSL for dibs\"\n",
  chars! "        homepage \"https://github.com/bearcove/dibs\"\n",
  chars! "        patterns (\"**/.dibs-queries/*.styx\")\n",
  chars! "        schema {id crate:dibs-queries@1, cli dibs}\n",
  chars! "    }\n",
  chars! "    styx-lsp {\n",
  chars! "        title \"Styx LSP\"\n",
  chars! "        description \"User configuration for the Styx Language Server\"\n",
  chars! "        homepage \"https://styx.bearcove.eu\"\n",
  chars! "        patterns (\"{userconfig}/styx/config.styx\")\n",
  chars! "        schema {id crate:styx-lsp-config@1, cli styx}\n",
  chars! "    }\n",
  chars! "    squiggles {\n",
  chars! "        title \"Squiggles\"\n",
  chars! "        description \"Continuous Cargo Test LSP - surfaces test failures as diagnostics\"\n",
  chars! "        homepage \"https://github.com/bearcove/squiggles\"\n",
  chars! "        patterns (\"**/.config/squiggles/config.styx\")\n",
  chars! "        schema {id crate:squiggles-config@1, cli squiggles}\n",
  chars! "    }\n",
  chars! "}\n"]

/-- The text of a field of type `String`. -/
def textField (name : List Char) (es : List Entry) : Option (List Char) := (objGet es name).bind Value.asStr

/-- The items of a field of type `Vec<String>`. -/
def textsField (name : List Char) (es : List Entry) : Option (List (List Char)) :=
  match objGet es name with
  | some (.mk none (some (.sequence items _)) _) => items.mapM Value.asStr
  | _ => none

/-- The entries of an object. -/
def entriesOf : Option Value → Option (List Entry)
  | some (.mk none (some (.object es _)) _) => some es
  | _ => none

/-- schema_hints.rs:17-41: a hint from its entry in the map. -/
def hintOf (e : Entry) : Option Hint :=
  match e.key.asStr, entriesOf (some e.value) with
  | some tool, some es =>
    match textsField (chars! "patterns") es, entriesOf (objGet es (chars! "schema")) with
    | some ps, some ss => (textField (chars! "id") ss).map fun id => ⟨tool, ps, id, textField (chars! "cli") ss⟩
    | _, _ => none
  | _, _ => none

/-- schema_hints.rs:86-88 `load_registry`, in the order of the text. -/
def loadRegistry (source : List Char) : Option (List Hint) :=
  match parseTree source with
  | some (.ok v) =>
    match entriesOf (some v) with
    | some es => match entriesOf (objGet es (chars! "hints")) with
      | some hs => hs.mapM hintOf
      | none => none
    | none => none
  | _ => none

end Styx.Lsp.Hints
