/-!
# Model: who waits for whom in the language server (styx-lsp/src/{server,extensions}.rs)

The open documents are behind one `tokio::sync::RwLock`.  Handlers of requests hold it for reading or writing,
some of them while they wait for the answer of an extension; the extension can call the host back before it
answers, and the host then takes the lock for reading.  Calls of an extension have no timeout.

A request is the sequence of what it does with the lock, including the calls the extension makes on its behalf.
The lock is first come, first served, as tokio documents it: who finds others waiting waits behind them.
Simplifications: all other awaits finish; the locks on the allowlist and on the running extensions
(extensions.rs:89-91), which are never held while the lock on the documents is awaited, are left out.
-/

namespace Styx.Lsp.Locks

/-- `RwLock::read` and `RwLock::write`. -/
inductive Mode where
  | read
  | write
deriving DecidableEq

/-- Taking the lock, and dropping the newest guard. -/
inductive Op where
  | acquire (m : Mode)
  | release
deriving DecidableEq

/-- A request that is handled: what is left to do, and the guards it holds, newest first. -/
structure Thread where
  todo : List Op
  held : List Mode := []
deriving DecidableEq

/-- All requests, and those that wait for the lock, first come first. -/
structure System where
  threads : List Thread
  queue : List (Nat × Mode) := []
deriving DecidableEq

/-- Whether the lock can be given: no writer, and for a writer nobody. -/
def free (s : System) : Mode → Bool
  | .read => s.threads.all fun t => !t.held.contains .write
  | .write => s.threads.all fun t => t.held.isEmpty

/-- A request is given the lock. -/
def grant (s : System) (i : Nat) (t : Thread) (m : Mode) (queue : List (Nat × Mode)) : System :=
  ⟨s.threads.set i ⟨t.todo.tail, m :: t.held⟩, queue⟩

/-- One step of a request: none when it waits or is finished. -/
def step (s : System) (i : Nat) : System :=
  match s.threads[i]? with
  | none => s
  | some t =>
    match t.todo with
    | [] => s
    | .release :: rest => { s with threads := s.threads.set i ⟨rest, t.held.tail⟩ }
    | .acquire m :: _ =>
      match s.queue with
      | [] => if free s m then grant s i t m [] else { s with queue := [(i, m)] }
      | (j, n) :: waiting =>
        if i = j then (if free s m then grant s i t m waiting else s)
        else if waiting.any fun p => p.1 == i then s
        else { s with queue := (j, n) :: waiting ++ [(i, m)] }

/-- A schedule. -/
def run (s : System) (l : List Nat) : System := l.foldl step s

/-- One call of the extension to the host: extensions.rs:327-420, `get_subtree`, `get_document`, `get_source`,
`get_schema`, `offset_to_position`, `position_to_offset`. -/
def callback : List Op := [.acquire .read, .release]

/-- Several calls. -/
def callbacks : Nat → List Op
  | 0 => []
  | k + 1 => callback ++ callbacks k

/-- What the server handles; the number is the number of calls the extension makes before it answers. -/
inductive Request where
  /-- server.rs:656-806 `goto_definition`, 808-940 `hover`, 942-1156 `completion`. -/
  | ask (k : Nat)
  /-- server.rs:1158-1583 `code_action`. -/
  | actions (k : Nat)
  /-- server.rs:1585-1637 `execute_command`. -/
  | allow (k : Nat)
  /-- server.rs:1725-1857 `inlay_hint`. -/
  | hints (k : Nat)
  /-- server.rs:608-625 `semantic_tokens_full`, 627-654 `document_link`, 1639-1723 `references`, 1859-1911
  `formatting`, 1913-1935 `document_symbol`, 1937-1984 `on_type_formatting`. -/
  | look
  /-- server.rs:495-541 `did_open`, 543-593 `did_change`. -/
  | update (k : Nat)
  /-- server.rs:595-606 `did_close`. -/
  | close
deriving DecidableEq

/-- What a request does with the lock. -/
def ops : Request → List Op
  -- server.rs:663, 812, 946: `docs` lives until the end
  | .ask k => .acquire .read :: callbacks k ++ [.release]
  -- server.rs:1295-1414, then 1417
  | .actions k => .acquire .read :: callbacks k ++ [.release, .acquire .read, .release]
  -- server.rs:1608-1630
  | .allow k => .acquire .read :: callbacks k ++ [.release]
  -- server.rs:1730-1739, then 1803
  | .hints k => [.acquire .read, .release] ++ callbacks k
  | .look => [.acquire .read, .release]
  -- server.rs:509-526 and 528-540; 560-577 and 579-590
  | .update k => callbacks k ++ [.acquire .write, .release]
  -- server.rs:599-602
  | .close => [.acquire .write, .release]

/-- All requests, before any of them runs. -/
def start (rs : List Request) : System := ⟨rs.map fun r => ⟨ops r, []⟩, []⟩

/-- The state after `n` steps of an endless schedule. -/
def after (s : System) (f : Nat → Nat) : Nat → System
  | 0 => s
  | n + 1 => step (after s f n) (f n)

end Styx.Lsp.Locks
