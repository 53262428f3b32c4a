import Verif.Lsp.Model

/-!
# Model: the outline of a document (styx-lsp/src/server.rs)
-/

namespace Styx.Lsp

open Styx

/-- `lsp_types::SymbolKind`, as far as the code uses it. -/
inductive SymbolKind where
  | object
  | array
  | string
  | null
  | variable
  | constant
  deriving DecidableEq, Repr

/-- `lsp_types::DocumentSymbol`: the name, the detail, the kind, the range, the selection range and the children. -/
inductive Symbol where
  | mk (name : List Char) (detail : Option (List Char)) (kind : SymbolKind) (start stop selStart selStop : Position)
      (children : List Symbol)
  deriving Repr

/-- server.rs:2076-2099: the kind and the detail of a symbol, for the text at the place of the value. -/
def kindOf (v : Value) (text : List Char) : SymbolKind × Option (List Char) :=
  if v.asObject.isSome then (.object, none)
  else if v.asSequence.isSome then (.array, some (chars! "array"))
  else if v.asStr.isSome then (.string, some text)
  else if v.isUnit then (.null, some ['@'])
  else if v.tag.isSome then (.variable, some text)
  else (.constant, some text)

mutual
/-- server.rs:2048-2129 `collect_document_symbols`; `none` is a panic of the slice.  The value that is put together for
the recursion (2080-2084) is the entry's value. -/
def symbols (content : List Char) : Value → Option (List Symbol)
  | .mk _ (some (.object es _)) _ => symbolEntries content es
  | .mk _ _ _ => some []
/-- server.rs:2055-2126: the loop over the entries.  For a value that is no object `symbols` gives no children. -/
def symbolEntries (content : List Char) : List Entry → Option (List Symbol)
  | [] => some []
  | .mk k v _ :: es =>
    if k.isUnit then symbolEntries content es
    else match k.asStr, k.span, v.span with
      | some name, some ksp, some vsp =>
        match sliceBytes content vsp.start vsp.stop, symbols content v, symbolEntries content es with
        | some text, some children, some rest =>
          some (.mk name (kindOf v text).2 (kindOf v text).1
            (offsetToPosition content ksp.start) (offsetToPosition content vsp.stop)
            (offsetToPosition content ksp.start) (offsetToPosition content ksp.stop) children :: rest)
        | _, _, _ => none
      | _, _, _ => symbolEntries content es
end

end Styx.Lsp
