/-!
# Model: the extensions of the language server (styx-lsp/src/extensions.rs)

A schema can name an extension: a command with arguments.  It is launched when a document with that schema is
opened or changed, if the user has allowed the command.  Handlers run concurrently and can be interrupted
wherever they await.

Simplifications: whether launching a process and talking to it for the first time succeeds is part of the
schedule; saving the allowlist is left out (see `Verif/Lsp/Config.lean`); names are texts.
-/

namespace Styx.Lsp.Extensions

/-- extensions.rs:6-18 `ExtensionResult`. -/
inductive Result where
  | running
  | notAllowed (command : List Char)
  | failed
deriving DecidableEq, Repr

/-- extensions.rs:155-190: how far a call of `get_or_spawn` is. -/
inductive Task where
  | look (id : List Char) (launch : List (List Char))
  | check (id : List Char) (launch : List (List Char))
  | spawn (id : List Char) (launch : List (List Char))
  | talk (id : List Char) (process : Nat)
  | store (id : List Char) (process : Nat)
  | done (id : List Char) (r : Result)
deriving DecidableEq, Repr

/-- A process that was launched: for which schema, and with what command and arguments. -/
structure Launch where
  id : List Char
  launch : List (List Char)
deriving DecidableEq, Repr

/-- extensions.rs:87-94 `ExtensionManager`, the calls that run, and all processes launched so far, in order: the
number of a process is its place in the list. -/
structure Manager where
  allowlist : List (List Char)
  running : List (List Char × Nat) := []
  tasks : List Task := []
  launched : List Launch := []
deriving DecidableEq, Repr

/-- `str::starts_with`. -/
def hasPrefix : List Char → List Char → Bool
  | _, [] => true
  | c :: cs, d :: ds => c == d && hasPrefix cs ds
  | [], _ :: _ => false

/-- extensions.rs:129-133 `is_allowed`. -/
def isAllowed (m : Manager) (command : List Char) : Bool := m.allowlist.any fun allowed => hasPrefix command allowed

/-- extensions.rs:136-149 `allow`. -/
def allow (m : Manager) (command : List Char) : Manager :=
  if m.allowlist.contains command then m else { m with allowlist := m.allowlist ++ [command] }

/-- `HashMap::contains_key`. -/
def isRunning (m : Manager) (id : List Char) : Bool := m.running.any fun p => p.1 == id

/-- `HashMap::insert`. -/
def setRunning (m : Manager) (id : List Char) (process : Nat) : List (List Char × Nat) :=
  (id, process) :: m.running.filter fun p => p.1 != id

/-- What a call finished with. -/
def finished (m : Manager) (i : Nat) (id : List Char) (r : Result) : Manager :=
  { m with tasks := m.tasks.set i (.done id r) }

/-- One call runs to its next `await`; `ok` says whether the process could be launched, or answered. -/
def step (m : Manager) (i : Nat) (ok : Bool) : Manager :=
  match m.tasks[i]? with
  | none | some (.done _ _) => m
  -- extensions.rs:161-167
  | some (.look id launch) =>
    if isRunning m id then finished m i id .running else { m with tasks := m.tasks.set i (.check id launch) }
  -- extensions.rs:169-178
  | some (.check id launch) =>
    match launch.head? with
    | none => finished m i id .failed
    | some command =>
      if isAllowed m command then { m with tasks := m.tasks.set i (.spawn id launch) }
      else finished m i id (.notAllowed command)
  -- extensions.rs:180-183 and 207-228
  | some (.spawn id launch) =>
    if ok then { m with launched := m.launched ++ [⟨id, launch⟩], tasks := m.tasks.set i (.talk id m.launched.length) }
    else finished m i id .failed
  -- extensions.rs:240-279: the process is not killed when it does not answer
  | some (.talk id process) =>
    if ok then { m with tasks := m.tasks.set i (.store id process) } else finished m i id .failed
  -- extensions.rs:185-189
  | some (.store id process) =>
    { m with running := setRunning m id process, tasks := m.tasks.set i (.done id .running) }

/-- What happens next: a document with a schema is opened or changed, the user allows a command, or a call runs. -/
inductive Label where
  | request (id : List Char) (launch : List (List Char))
  | allow (command : List Char)
  | run (i : Nat) (ok : Bool)

/-- One label. -/
def act (m : Manager) : Label → Manager
  | .request id launch => { m with tasks := m.tasks ++ [.look id launch] }
  | .allow command => allow m command
  | .run i ok => step m i ok

/-- A schedule, from the commands allowed in the configuration (extensions.rs:110-126). -/
def exec (allowlist : List (List Char)) (l : List Label) : Manager := l.foldl act { allowlist }

end Styx.Lsp.Extensions
