import Verif.Cli.Files

/-!
# Model: the schema cache of the language server

Source: crates/styx-lsp/src/cache.rs, crates/styx-lsp/src/schema_validation.rs.

Any number of servers (and `styx cache --clear`) work on the same path at the same time.  A call of
`cache_embedded_schema` is cut at its system calls; an action is one of them, and a schedule is a list of actions.  A
file that is removed while it is open goes on as a file without a name.

Simplifications: all calls are for the same schema (the path depends on its hash; the hash is a parameter); a call that
fails in the middle (no space, no permission) is one that is stopped; making the directories is left out.
-/

namespace Styx.Lsp

open Styx

/-- `std::path::Path::join` on Unix: an absolute path replaces the directory. -/
def joinPath (dir s : List Char) : List Char :=
  if s.head? = some '/' then s else Cli.pathJoin dir s

/-- cache.rs:15-17 `cache_dir`; `base` is what `dirs::cache_dir` gives. -/
def cacheDir (base : List Char) : List Char :=
  joinPath (joinPath base (chars! "styx")) (chars! "schemas")

/-- cache.rs:22-29 `embedded_cache_path`; `hash` is `content_hash` (cache.rs:34-39). -/
def embeddedCachePath (hash : List Char → List Char) (base name content : List Char) : List Char :=
  joinPath (joinPath (joinPath (cacheDir base) (chars! "embedded")) name) (hash content ++ chars! ".styx")

/-- schema_validation.rs:87-91: where the schema with the identifier from the program is cached. -/
def cachedAt (hash : List Char → List Char) (base cli id content : List Char) : List Char :=
  embeddedCachePath hash base (cli ++ '/' :: id) content

/-- Where a call of `cache_embedded_schema` is. -/
inductive Call where
  /-- Not begun. -/
  | start
  /-- cache.rs:48: the file was not there. -/
  | missing
  /-- cache.rs:58: the file is open, so much is written. -/
  | writing (file offset : Nat)
  /-- The path was returned. -/
  | returned
  /-- The process crashed, or the call failed. -/
  | stopped
  deriving DecidableEq

/-- The files and the calls. -/
structure Cache where
  /-- The file at the path. -/
  entry : Option Nat
  data : Nat → List UInt8
  /-- Files with this number and above were never made. -/
  fresh : Nat
  call : Nat → Call

/-- What can happen. -/
inductive Action where
  | look (i : Nat)
  | create (i : Nat)
  | write (i count : Nat)
  | finish (i : Nat)
  | stop (i : Nat)
  | clear

/-- `write(2)`: the bytes go to the offset; what is missing in front of them is filled with zeros. -/
def overlay (old : List UInt8) (offset : Nat) (bs : List UInt8) : List UInt8 :=
  old.take offset ++ List.replicate (offset - old.length) 0 ++ bs ++ old.drop (offset + bs.length)

/-- A call moves on. -/
def Cache.move (s : Cache) (i : Nat) (c : Call) : Nat → Call := fun j => if j = i then c else s.call j

/-- The contents of a file are replaced. -/
def Cache.put (s : Cache) (f : Nat) (bs : List UInt8) : Nat → List UInt8 := fun g => if g = f then bs else s.data g

/-- cache.rs:47-50: `path.exists()`. -/
def Cache.look (s : Cache) (i : Nat) : Cache :=
  if s.call i = .start then { s with call := s.move i (if s.entry.isSome then .returned else .missing) } else s

/-- cache.rs:58: `File::create` makes the file or empties the one that is there. -/
def Cache.create (s : Cache) (i : Nat) : Cache :=
  if s.call i = .missing then
    match s.entry with
    | some f => { s with data := s.put f [], call := s.move i (.writing f 0) }
    | none => ⟨some s.fresh, s.put s.fresh [], s.fresh + 1, s.move i (.writing s.fresh 0)⟩
  else s

/-- cache.rs:59: one `write` of the loop in `write_all`. -/
def Cache.write (content : List UInt8) (s : Cache) (i count : Nat) : Cache :=
  match s.call i with
  | .writing f o =>
    let bs := (content.drop o).take count
    { s with data := s.put f (overlay (s.data f) o bs), call := s.move i (.writing f (o + bs.length)) }
  | _ => s

/-- cache.rs:59-61: everything is written, the path is returned. -/
def Cache.finish (content : List UInt8) (s : Cache) (i : Nat) : Cache :=
  match s.call i with
  | .writing _ o => if o = content.length then { s with call := s.move i .returned } else s
  | _ => s

/-- One action; one that is not possible changes nothing.  cache.rs:125-145 `clear_cache` for `clear`. -/
def Cache.act (content : List UInt8) (s : Cache) : Action → Cache
  | .look i => s.look i
  | .create i => s.create i
  | .write i n => s.write content i n
  | .finish i => s.finish content i
  | .stop i => { s with call := s.move i .stopped }
  | .clear => { s with entry := none }

/-- A schedule. -/
def Cache.acts (content : List UInt8) (s : Cache) (as : List Action) : Cache := as.foldl (Cache.act content) s

end Styx.Lsp
