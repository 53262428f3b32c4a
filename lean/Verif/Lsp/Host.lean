import Verif.Lsp.Hover

/-!
# Model: what the server tells an extension about its documents (styx-lsp/src/extensions.rs)

The documents are a list of addresses with the text and the tree of each.  Addresses that are no URLs are left out:
they are in no list.
-/

namespace Styx.Lsp

open Styx

/-- server.rs: the fields `content` and `tree` of `DocumentState`. -/
structure HeldDoc where
  content : List Char
  tree : Option Value

/-- extensions.rs:334-342: the loop over the path. -/
def subtreeAt : List (List Char) → Value → Option Value
  | [], v => some v
  | key :: path, v =>
    match v.asObject with
    | none => none
    | some es =>
      match es.find? (fun e => e.key.asStr == some key) with
      | none => none
      | some e => subtreeAt path e.value

/-- extensions.rs:328-345 `get_subtree`. -/
def hostSubtree (docs : List (List Char × HeldDoc)) (uri : List Char) (path : List (List Char)) : Option Value :=
  (docs.lookup uri).bind fun doc => doc.tree.bind (subtreeAt path)

/-- extensions.rs:347-352 `get_document`. -/
def hostDocument (docs : List (List Char × HeldDoc)) (uri : List Char) : Option Value :=
  (docs.lookup uri).bind (·.tree)

/-- extensions.rs:354-359 `get_source`. -/
def hostSource (docs : List (List Char × HeldDoc)) (uri : List Char) : Option (List Char) :=
  (docs.lookup uri).map (·.content)

end Styx.Lsp
