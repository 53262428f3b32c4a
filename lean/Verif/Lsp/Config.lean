import Verif.FacetSer.Model
import Verif.Tree.Builder

/-!
# Model: the user configuration of the language server (styx-lsp/src/{config,extensions}.rs)

Every running server has its own list of allowed commands; all of them read and write one file.

Simplifications: reading the file into the struct is modelled by the document tree (`facet_styx::from_str` reads the
same entries, see C57): the entry `allowed_extensions` is a sequence of scalars, or missing; other entries are
ignored, as facet documents it for structs.  Writing the file succeeds and is one step.
-/

namespace Styx.Lsp.Config

open Styx

/-- config.rs:26-27: the name of the field. -/
def fieldName : List Char := chars! "allowed_extensions"

/-- The items of a `Vec<String>`. -/
def itemTexts : List Value → Option (List (List Char))
  | [] => some []
  | .mk none (some (.scalar s _ _)) _ :: vs => (itemTexts vs).map (s :: ·)
  | _ :: _ => none

/-- The value of the field, when it is there. -/
def fieldValue : List Entry → Option Value
  | [] => none
  | .mk (.mk none (some (.scalar s _ _)) _) v _ :: es => if s = fieldName then some v else fieldValue es
  | .mk _ _ _ :: es => fieldValue es

/-- config.rs:19-28 `StyxUserConfig` from a document tree; `none` is an error. -/
def commandsOf : Value → Option (List (List Char))
  | .mk none (some (.object es _)) _ =>
    match fieldValue es with
    | none => some []
    | some (.mk none (some (.sequence vs _)) _) => itemTexts vs
    | some _ => none
  | _ => none

/-- config.rs:58-62: reading the text of the file; `none` is an error. -/
def load (text : List Char) : Option (List (List Char)) :=
  match parseTree text with
  | some (.ok t) => commandsOf t
  | _ => none

/-- The calls made to serialize the struct. -/
def saveCalls (commands : List (List Char)) : List FacetSer.Call :=
  .beginStruct :: .fieldKey fieldName :: .beginSeq :: (commands.map fun c => .scalar (.str c)) ++ [.endSeq, .endStruct]

/-- config.rs:90-96: the text that is written; `none` is an error. -/
def save (commands : List (List Char)) : Option (List Char) :=
  (FacetSer.toString {} (saveCalls commands)).map (chars! "meta { @schema crate:styx-lsp-config@1 }\n\n" ++ ·)

/-- The file, and the allowed commands of every running server. -/
structure World where
  file : Option (List Char)
  servers : List (List (List Char)) := []

/-- What happens: a server is started, a command is allowed in a server, the user edits the file. -/
inductive Label where
  | start
  | allow (server : Nat) (command : List Char)
  | edit (text : List Char)

/-- extensions.rs:110-126 `ExtensionManager::new` with config.rs:42-70 `load_config`. -/
def loaded (file : Option (List Char)) : List (List Char) :=
  match file with
  | none => []
  | some text => (load text).getD []

/-- extensions.rs:136-149 `allow` with config.rs:75-105 `save_config`. -/
def allowIn (w : World) (i : Nat) (command : List Char) : World :=
  match w.servers[i]? with
  | none => w
  | some commands =>
    if commands.contains command then w
    else
      let commands' := commands ++ [command]
      ⟨match save commands' with | some text => some text | none => w.file, w.servers.set i commands'⟩

/-- One label. -/
def act (w : World) : Label → World
  | .start => { w with servers := w.servers ++ [loaded w.file] }
  | .allow i command => allowIn w i command
  | .edit text => { w with file := some text }

/-- A history, from a file that may be there. -/
def exec (file : Option (List Char)) (l : List Label) : World := l.foldl act { file }

end Styx.Lsp.Config
