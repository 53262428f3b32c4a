import Verif.Cst.Parser
import Verif.Tree.Builder

/-!
# Model: the open documents of the language server (styx-lsp/src/server.rs)

The handlers of notifications and commands run concurrently: a handler can be interrupted wherever it
awaits.  A schedule is a list of labels: the client sends a message, or a handler runs to its next `await`.
Every schedule is a possible execution, except that the server starts handlers in the order of the messages
(the model leaves this free).

Simplifications: addresses of documents are texts; `check_for_extension` is only a point where the handler
waits; diagnostics are named by the version and text they were computed from and by whether they contain the
error of `styx_tree::parse`; the documents are a list instead of a `HashMap`, so `execute_command` goes over
them in the order of the list; a panic of a parser ends the handler.
-/

namespace Styx.Lsp.Store

open Styx

/-- server.rs:24-35 `DocumentState`. -/
structure Doc where
  content : List Char
  parse : Cst.Parse
  tree : Option Value
  version : Int

/-- The notifications of the client: `textDocument/didOpen`, `didChange`, `didClose`
(server.rs:495-606), and the command `styx.allowExtension` (server.rs:1590-1630). -/
inductive Notice where
  | opened (uri : List Char) (version : Int) (text : List Char)
  | changed (uri : List Char) (version : Int) (changes : List (List Char))
  | closed (uri : List Char)
  | allow

/-- What the client is shown for a document: no diagnostics (server.rs:605), or those of a text
(server.rs:187-189), with the error of the tree parser or without. -/
inductive Shown where
  | cleared
  | diagnostics (version : Int) (text : List Char) (treeError : Bool)
deriving DecidableEq

/-- How far a handler is. -/
inductive Task where
  | start (m : Notice)
  | ready (uri : List Char) (d : Doc)
  | published (uri : List Char) (d : Doc)
  | clearing (uri : List Char)
  | allowing (rest : List (List Char × Doc))
  | done

/-- The server: server.rs:48-56 `StyxLanguageServer`, the handlers that run, and what was published for
which document, newest first. -/
structure Server where
  docs : List (List Char × Doc) := []
  tasks : List Task := []
  shown : List (List Char × Shown) := []

/-- `HashMap::get`. -/
def get {α : Type} (uri : List Char) (docs : List (List Char × α)) : Option α :=
  (docs.find? fun p => p.1 == uri).map (·.2)

/-- `HashMap::remove`. -/
def remove (uri : List Char) (docs : List (List Char × Doc)) : List (List Char × Doc) :=
  docs.filter fun p => p.1 != uri

/-- `HashMap::insert`. -/
def insert (uri : List Char) (d : Doc) (docs : List (List Char × Doc)) : List (List Char × Doc) :=
  (uri, d) :: remove uri docs

/-- server.rs:500-507 and 551-558: parsing a text; `none` when the parser panics. -/
def mkDoc (version : Int) (text : List Char) : Option Doc :=
  match parseTree text with
  | some (.ok t) => some ⟨text, Cst.parse text, some t, version⟩
  | some (.error _) => some ⟨text, Cst.parse text, none, version⟩
  | none => none

/-- The documents are read by `execute_command`, so writing them has to wait (server.rs:1608). -/
def locked (s : Server) : Bool := s.tasks.any fun | .allowing _ => true | _ => false

/-- One handler runs to its next `await`. -/
def step (s : Server) (i : Nat) : Server :=
  match s.tasks[i]? with
  | none | some .done => s
  -- server.rs:495-514
  | some (.start (.opened uri version text)) =>
    { s with tasks := s.tasks.set i (match mkDoc version text with | some d => .ready uri d | none => .done) }
  -- server.rs:543-565: the first of the changes
  | some (.start (.changed uri version changes)) =>
    match changes.head? with
    | some text =>
      { s with tasks := s.tasks.set i (match mkDoc version text with | some d => .ready uri d | none => .done) }
    | none => { s with tasks := s.tasks.set i .done }
  -- server.rs:594-602
  | some (.start (.closed uri)) =>
    if locked s then s else { s with docs := remove uri s.docs, tasks := s.tasks.set i (.clearing uri) }
  -- server.rs:1597-1608
  | some (.start .allow) => { s with tasks := s.tasks.set i (.allowing s.docs) }
  -- server.rs:516-526 and 567-577
  | some (.ready uri d) =>
    { s with shown := (uri, .diagnostics d.version d.content true) :: s.shown,
             tasks := s.tasks.set i (.published uri d) }
  -- server.rs:528-540 and 579-590
  | some (.published uri d) =>
    if locked s then s else { s with docs := insert uri d s.docs, tasks := s.tasks.set i .done }
  -- server.rs:604-605
  | some (.clearing uri) =>
    { s with shown := (uri, .cleared) :: s.shown, tasks := s.tasks.set i .done }
  -- server.rs:1609-1630
  | some (.allowing []) => { s with tasks := s.tasks.set i .done }
  | some (.allowing ((uri, d) :: rest)) =>
    { s with shown := (uri, .diagnostics d.version d.content false) :: s.shown,
             tasks := s.tasks.set i (.allowing rest) }

/-- What happens next. -/
inductive Label where
  | receive (m : Notice)
  | run (i : Nat)

/-- One label. -/
def act (s : Server) : Label → Server
  | .receive m => { s with tasks := s.tasks ++ [.start m] }
  | .run i => step s i

/-- A schedule, from a server without documents. -/
def exec (l : List Label) : Server := l.foldl act {}

end Styx.Lsp.Store
