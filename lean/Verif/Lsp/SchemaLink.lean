import Verif.Format.Writer
import Verif.Lsp.Cache
import Verif.Lsp.Fill
import Verif.Lsp.Hover
import Verif.Lsp.Load

/-!
# Model: the link and the hint at the declaration of the schema

Source: crates/styx-lsp/src/server.rs `document_link` and `inlay_hint`, crates/styx-lsp/src/schema_validation.rs
`to_uri`, crates/styx-lsp/src/cache.rs `cache_embedded_schema`.

What a request does to the disk is a list of operations, as for the command line.

Simplifications: nobody else changes the cache during the request (`Lsp/Cache.lean` has many servers at once); an
address of a file is its path; the hints of extensions are left out; `path.exists()` is true for files only; where
`create_dir_all` succeeds is a parameter, and so is which names `Url::parse` takes.
-/

namespace Styx.Lsp

open Styx

variable {F : Type}

/-- The cache as the server finds it: the directory of `dirs::cache_dir`, `content_hash`, and where directories can
be made. -/
structure CacheEnv where
  base : Option (List Char)
  hash : List Char → List Char
  mkdirs : List Char → Bool
  /-- Whether `styx-embedded://cli/id/schema.styx` is an address. -/
  urlOk : List Char → List Char → Bool

/-- The address of a schema. -/
inductive Target where
  | file (path : List Char)
  /-- `styx-embedded://cli/id/schema.styx` -/
  | virtual (cli id : List Char)
  deriving DecidableEq

/-- `Path::exists`. -/
def fileExists (W : Cli.World F) (d : Cli.Disk) (path : List Char) : Bool :=
  match W.lead path with
  | some f => (d f).isSome
  | none => false

/-- cache.rs:44-62 `cache_embedded_schema`: what is done, and the path if there is one. -/
def cacheSchema (W : Cli.World F) (C : CacheEnv) (d : Cli.Disk) (name content : List Char) :
    List Cli.Op × Option (List Char) :=
  match C.base with
  | none => ([], none)
  | some base =>
    let path := embeddedCachePath C.hash base name content
    if fileExists W d path then ([], some path)
    else if C.mkdirs path then
      let r := W.writeFile path (Ffi.bytesOf content)
      (r.1, if r.2 = .success then some path else none)
    else ([], none)

/-- `Url::from_file_path` on Unix takes absolute paths. -/
def fileUrl (path : List Char) : Option Target := if path.head? = some '/' then some (.file path) else none

/-- schema_validation.rs:79-105 `to_uri`. -/
def toUri (W : Cli.World F) (C : CacheEnv) (d : Cli.Disk) (doc source : List Char) :
    SchemaRef → List Cli.Op × Option Target
  | .external path => ([], (resolvePath path doc).bind fileUrl)
  | .embedded id cli =>
    let r := cacheSchema W C d (cli ++ '/' :: id) source
    (r.1, match r.2 with
      | some path => fileUrl path
      | none => if C.urlOk cli id then some (.virtual cli id) else none)
  | .optOut => ([], none)

/-- schema_validation.rs:275-289 `resolve_schema`: what is done, and the text and address of the schema. -/
def resolveTarget (W : Cli.World F) (C : CacheEnv) (d : Cli.Disk) (doc : List Char) (v : Value) :
    List Cli.Op × Except LoadError (List Char × Target) :=
  match findSchemaDeclaration v with
  | none => ([], .error .failed)
  | some r =>
    match loadSource W d doc r with
    | .error e => ([], .error e)
    | .ok t =>
      match W.readSchema t with
      | none => ([], .error .failed)
      | some _ =>
        let u := toUri W C d doc t r
        (u.1, match u.2 with
          | some target => .ok (t, target)
          | none => .error .failed)

/-- `lsp_types::DocumentLink`; the tooltip, which repeats the address, is left out. -/
structure SchemaLink where
  range : LspRange
  target : Target
  deriving DecidableEq

/-- server.rs:627-654 `document_link` for an open document with a tree; `none` if the server crashes. -/
def schemaLink (W : Cli.World F) (C : CacheEnv) (d : Cli.Disk) (doc content : List Char) (tree : Value) :
    Option (List Cli.Op × Option SchemaLink) :=
  match declarationRange content tree with
  | none => some ([], none)
  | some range =>
    match resolveTarget W C d doc tree with
    | (_, .error .panics) => none
    | (ops, .error .failed) => some (ops, none)
    | (ops, .ok (_, target)) => some (ops, some ⟨range, target⟩)

/-- server.rs:2372-2377 `SchemaMeta`. -/
structure SchemaMeta where
  id : Option (List Char)
  version : Option (List Char)
  description : Option (List Char)
  deriving DecidableEq

/-- server.rs:2385-2406: the texts in the block. -/
def metaOf (ms : List Entry) : SchemaMeta :=
  ⟨(objGet ms (chars! "id")).bind Value.asStr, (objGet ms (chars! "version")).bind Value.asStr,
    (objGet ms (chars! "description")).bind Value.asStr⟩

/-- server.rs:2380-2410 `get_schema_meta`; the outer `none` is a panic of the parser. -/
def schemaMeta (source : List Char) : Option (Option SchemaMeta) :=
  (parseTree source).map fun
    | .ok v => v.asObject.bind fun es => (es.find? fun e => e.key.asStr == some (chars! "meta")).bind fun e =>
        e.value.asObject.map metaOf
    | .error _ => none

/-- server.rs:1753-1756: the first line of the description. -/
def shortDescription (m : SchemaMeta) : Option (List Char) :=
  m.description.bind fun d => (textLines d).head?.map trim

/-- server.rs:1759-1764: the label. -/
def hintLabel (m : SchemaMeta) : List Char :=
  match shortDescription m, m.version with
  | some desc, some ver => chars! " — " ++ desc ++ chars! " (" ++ ver ++ chars! ")"
  | some desc, none => chars! " — " ++ desc
  | none, some ver => chars! " — v" ++ ver
  | none, none => []

/-- server.rs:1769-1778: the parts of the tooltip. -/
def tooltipParts (m : SchemaMeta) : List (List Char) :=
  (match m.id with
    | some id => [chars! "Schema ID: " ++ id]
    | none => []) ++
  match m.description with
  | some desc => if '\n' ∈ desc then [[], desc] else []
  | none => []

/-- server.rs:1768-1784: the tooltip. -/
def hintTooltip (m : SchemaMeta) : Option (List Char) :=
  if tooltipParts m = [] then none else some (['\n'].intercalate (tooltipParts m))

/-- `lsp_types::InlayHint`. -/
structure SchemaHint where
  position : Position
  label : List Char
  tooltip : Option (List Char)
  deriving DecidableEq

/-- server.rs:1725-1797 `inlay_hint` for an open document with a tree, without extensions; `none` if the server
crashes. -/
def schemaHint (W : Cli.World F) (C : CacheEnv) (d : Cli.Disk) (doc content : List Char) (tree : Value) :
    Option (List Cli.Op × Option SchemaHint) :=
  match declarationRange content tree with
  | none => some ([], none)
  | some range =>
    match resolveTarget W C d doc tree with
    | (_, .error .panics) => none
    | (ops, .error .failed) => some (ops, none)
    | (ops, .ok (source, _)) =>
      (schemaMeta source).map fun
        | none => (ops, none)
        | some m => (ops, if hintLabel m = [] then none else some ⟨range.stop, hintLabel m, hintTooltip m⟩)

end Styx.Lsp
