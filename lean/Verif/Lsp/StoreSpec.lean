import Verif.Lsp.Store

/-!
# Specification: what the server should know about its documents
-/

namespace Styx.Spec

open Styx Styx.Lsp.Store

/-- The messages of a schedule, in order. -/
def messages : List Label → List Notice
  | [] => []
  | .receive m :: l => m :: messages l
  | .run _ :: l => messages l

/-- The document a message is about. -/
def about : Notice → Option (List Char)
  | .opened uri _ _ | .changed uri _ _ | .closed uri => some uri
  | .allow => none

/-- The version and text of a document after a message: the last of the changes counts, and without changes
nothing happens. -/
def after (uri : List Char) (now : Option (Int × List Char)) : Notice → Option (Int × List Char)
  | .opened uri' version text => if uri' = uri then some (version, text) else now
  | .changed uri' version changes =>
    if uri' = uri then (match changes.getLast? with | some text => some (version, text) | none => now) else now
  | .closed uri' => if uri' = uri then none else now
  | .allow => now

/-- The version and text of a document after all messages; `none` when it is not open. -/
def latest (uri : List Char) (ms : List Notice) : Option (Int × List Char) := ms.foldl (after uri) none

/-- What should be shown for a document after a message. -/
def shownAfter (uri : List Char) (now : Option Shown) : Notice → Option Shown
  | .opened uri' version text => if uri' = uri then some (.diagnostics version text true) else now
  | .changed uri' version changes =>
    if uri' = uri then
      (match changes.getLast? with | some text => some (.diagnostics version text true) | none => now)
    else now
  | .closed uri' => if uri' = uri then some .cleared else now
  | .allow => now

/-- What should be shown for a document after all messages; `none` when nothing was published. -/
def latestShown (uri : List Char) (ms : List Notice) : Option Shown := ms.foldl (shownAfter uri) none

/-- The texts in a message. -/
def texts : Notice → List (List Char)
  | .opened _ _ text => [text]
  | .changed _ _ changes => changes
  | .closed _ | .allow => []

/-- The document a handler is working on. -/
def working : Task → Option (List Char)
  | .start m => about m
  | .ready uri _ | .published uri _ | .clearing uri => some uri
  | .allowing _ | .done => none

/-- No handler is working on the document. -/
def Idle (s : Server) (uri : List Char) : Prop := ∀ t ∈ s.tasks, working t ≠ some uri

/-- The client sends a message about a document only when no handler is working on it. -/
def Orderly (l : List Label) : Prop :=
  ∀ before m rest uri, l = before ++ .receive m :: rest → about m = some uri → Idle (exec before) uri

/-- The document holds a text and what the parsers make of it. -/
def Consistent1 (d : Doc) : Prop :=
  d.parse = Cst.parse d.content ∧
  (∀ t, d.tree = some t ↔ parseTree d.content = some (.ok t))

/-- A message gives the document this version and one of these texts. -/
def Gives (uri : List Char) (d : Doc) : Notice → Prop
  | .opened uri' version text => uri' = uri ∧ version = d.version ∧ text = d.content
  | .changed uri' version changes => uri' = uri ∧ version = d.version ∧ d.content ∈ changes
  | .closed _ | .allow => False

end Styx.Spec
