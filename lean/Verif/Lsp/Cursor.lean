import Verif.Tree.Value

/-!
# Model: what stands at the cursor (styx-lsp/src/server.rs, schema_validation.rs)
-/

namespace Styx.Lsp

open Styx

/-- server.rs:2200-2203 `PathSegment`. -/
inductive Seg where
  | field (name : List Char)
  | index (i : Nat)
deriving DecidableEq, Repr

/-- server.rs:2231-2235 and 2242-2245: the test `offset >= start && offset < end`. -/
def inSpan (off : Nat) : Option Span → Bool
  | some sp => decide (sp.start ≤ off) && decide (off < sp.stop)
  | none => false

/-- server.rs:2249-2251: the key in front of a path found in the value. -/
def consKey (k : Value) (p : List Seg) : List Seg :=
  match k.asStr with
  | some s => .field s :: p
  | none => p

mutual
/-- server.rs:2226-2283 `find_path_in_value`. -/
def findPath (off : Nat) : Value → Option (List Seg)
  | .mk _ (some (.object es _)) _ => findEntries off es
  | .mk _ (some (.sequence items _)) _ => findItems off 0 items
  | .mk _ _ _ => none
/-- server.rs:2229-2260: the loop over the entries.  The loop goes on when the cursor is on a key without
text, or on a value with nothing found inside whose key has no text. -/
def findEntries (off : Nat) : List Entry → Option (List Seg)
  | [] => none
  | .mk k v _ :: es =>
    match (if inSpan off k.span then k.asStr else none) with
    | some key => some [.field key]
    | none =>
      if inSpan off v.span then
        match findPath off v with
        | some p => some (consKey k p)
        | none =>
          match k.asStr with
          | some key => some [.field key]
          | none => findEntries off es
      else findEntries off es
/-- server.rs:2264-2279: the loop over the items, with `enumerate`. -/
def findItems (off : Nat) : Nat → List Value → Option (List Seg)
  | _, [] => none
  | i, v :: vs =>
    if inSpan off v.span then
      match findPath off v with
      | some p => some (.index i :: p)
      | none => some [.index i]
    else findItems off (i + 1) vs
end

end Styx.Lsp
