import Verif.Cli.Model
import Verif.Tree.Builder

/-!
# Model: publishing a schema (`styx @publish`)

Source: crates/styx-cli/src/main.rs `run_publish`, `extract_meta_field`, `fetch_latest_version`,
`fetch_crate_schema`.

Runs are interleaved at their requests to the registry.  Simplifications: the registry is the list of its releases; it
refuses a version that is there and never changes one; the package that `cargo publish` uploads has the name and the
version written into `Cargo.toml` and the schema as it was read; a version that overflows ends the run (as with
overflow checks); messages and the temporary directory are left out.
-/

namespace Styx.Cli

open Styx

/-- A version of a crate on staging.crates.io, with its file `schema.styx`. -/
structure Release where
  name : List Char
  version : List Char
  content : List Char
  deriving DecidableEq, Repr

/-- What the registry holds. -/
abbrev Registry := List Release

/-- main.rs:1631-1648 `extract_meta_field`. -/
def extractMetaField (v : Value) (field : List Char) : Option (List Char) :=
  match v.payload with
  | some (.object es _) =>
    es.findSome? fun e =>
      if e.key.asStr = some (chars! "meta") then
        match e.value.payload with
        | some (.object ms _) =>
          ms.findSome? fun m =>
            if m.key.asStr = some field then
              match m.value.payload with
              | some (.scalar text _ _) => some text
              | _ => none
            else none
        | _ => none
      else none
  | _ => none

/-- Where a run is: before the request for the latest version, before the download of its schema, before
`cargo publish`. -/
inductive Stage where
  | asking
  | comparing (latest : List Char)
  | ready (version : List Char)
  deriving DecidableEq, Repr

/-- A run of `styx @publish`. -/
structure Job where
  name : List Char
  content : List Char
  tree : Value
  stage : Stage

/-- main.rs:1495-1512: up to the first request; `none` if the run is over. -/
def beginPublish (token : Bool) (content : List Char) : Option Job :=
  if token then
    match parseTree content with
    | some (.ok v) => (extractMetaField v (chars! "crate")).map fun name => ⟨name, content, v, .asking⟩
    | _ => none
  else none

/-- main.rs:1514-1516, 1558-1561: the answer to the request for the latest version, `none` for any failure. -/
def Job.answered (j : Job) : Option (List Char) → Job
  | some latest => { j with stage := .comparing latest }
  | none => { j with stage := .ready (chars! "0.1.0") }

/-- main.rs:1519-1557: the download of the schema of the latest version has ended, `none` for any failure. -/
def Job.compared (o : Order) (j : Job) (latest : List Char) : Option (List Char) → Option Job
  | none => none
  | some baseline =>
    match parseTree baseline with
    | some (.ok b) =>
      let changes := compareSchemas o b j.tree
      if changes.breaking = [] ∧ changes.additive = [] ∧ changes.patch = [] then none
      else
        match calculateNextVersion latest changes with
        | .ok next => some { j with stage := .ready next }
        | _ => none
    | _ => none

/-- main.rs:1767-1800 `fetch_crate_schema`, when nothing fails. -/
def download (R : Registry) (name version : List Char) : Option (List Char) :=
  (R.find? fun r => r.name = name ∧ r.version = version).map (·.content)

/-- main.rs:1577-1628: `cargo publish`; the registry refuses a version that is there. -/
def upload (R : Registry) (r : Release) : Option Registry :=
  if R.any fun x => x.name = r.name ∧ x.version = r.version then none else some (R ++ [r])

/-- The registry and the runs under way. -/
structure Market where
  registry : Registry
  jobs : List Job

/-- What can happen next; `answers R name a`: the registry may answer `a` when asked for the latest version. -/
inductive MarketStep (answers : Registry → List Char → Option (List Char) → Prop) : Market → Market → Prop
  | start {R js content j} : beginPublish true content = some j → MarketStep answers ⟨R, js⟩ ⟨R, j :: js⟩
  | answer {R pre j post a} : j.stage = .asking → answers R j.name a →
      MarketStep answers ⟨R, pre ++ j :: post⟩ ⟨R, pre ++ j.answered a :: post⟩
  | compare {R pre j post latest o j'} : j.stage = .comparing latest →
      j.compared o latest (download R j.name latest) = some j' →
      MarketStep answers ⟨R, pre ++ j :: post⟩ ⟨R, pre ++ j' :: post⟩
  | publish {R R' pre j post version} : j.stage = .ready version →
      upload R ⟨j.name, version, j.content⟩ = some R' →
      MarketStep answers ⟨R, pre ++ j :: post⟩ ⟨R', pre ++ post⟩
  /-- a failure, no confirmation, or nothing to publish -/
  | quit {R pre j post} : MarketStep answers ⟨R, pre ++ j :: post⟩ ⟨R, pre ++ post⟩

end Styx.Cli
