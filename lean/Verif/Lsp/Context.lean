import Verif.Tree.Value

/-!
# Model: the object and the tagged value around the cursor (styx-lsp/src/schema_validation.rs)
-/

namespace Styx.Lsp

open Styx

/-- schema_validation.rs:484-491 `ObjectContext`; the object is given by its entries. -/
structure ObjectContext where
  path : List (List Char)
  entries : List Entry
  span : Option Span

/-- schema_validation.rs:511-513 and 573-575: the test `offset >= start && offset <= end`. -/
def touches (off : Nat) : Option Span → Bool
  | some sp => decide (sp.start ≤ off) && decide (off ≤ sp.stop)
  | none => false

/-- schema_validation.rs:578-586: the path of a nested object. -/
def nestedPath (path : List (List Char)) (k v : Value) : List (List Char) :=
  path ++ k.asStr.toList ++ (v.tagName.map ('@' :: ·)).toList

mutual
/-- schema_validation.rs:559-605 `find_object_at_offset_recursive`; `find_object_at_offset` (495-497) is
the call with the empty path. -/
def findObject (off : Nat) (path : List (List Char)) : Value → Option ObjectContext
  | .mk _ (some (.object es o)) _ =>
    if o.isSome && !touches off o then none
    else some ((findObjectEntries off path es).getD ⟨path, es, o⟩)
  | .mk _ _ _ => none
/-- schema_validation.rs:572-598: the loop over the entries, which ends at the first object the cursor
touches. -/
def findObjectEntries (off : Nat) (path : List (List Char)) : List Entry → Option ObjectContext
  | [] => none
  | .mk k v _ :: es =>
    match (if touches off v.span then v.asObject else none) with
    | some nested =>
      some ((findObject off (nestedPath path k v) v).getD ⟨nestedPath path k v, nested, v.span⟩)
    | none => findObjectEntries off path es
end

mutual
/-- schema_validation.rs:505-557 `find_tagged_context_recursive`; `find_tagged_context_at_offset`
(501-503) is the call with no candidate.  The entries of an object are looked at twice (531-537 and
540-546), because `as_object` is the payload. -/
def findTagged (off : Nat) (cur : Option Value) : Value → Option Value
  | .mk t (some (.object es o)) sp =>
    if sp.isNone || touches off sp then
      let new := if t.isSome then some (.mk t (some (.object es o)) sp) else cur
      ((findTaggedEntries off new es).or (findTaggedEntries off new es)).or new
    else none
  | .mk t (some (.sequence items o)) sp =>
    if sp.isNone || touches off sp then
      let new := if t.isSome then some (.mk t (some (.sequence items o)) sp) else cur
      (findTaggedItems off new items).or new
    else none
  | .mk t p sp =>
    if sp.isNone || touches off sp then
      if t.isSome then some (.mk t p sp) else cur
    else none
/-- schema_validation.rs:532-536: the loop over the entries. -/
def findTaggedEntries (off : Nat) (cur : Option Value) : List Entry → Option Value
  | [] => none
  | .mk _ v _ :: es => (findTagged off cur v).or (findTaggedEntries off cur es)
/-- schema_validation.rs:550-554: the loop over the items. -/
def findTaggedItems (off : Nat) (cur : Option Value) : List Value → Option Value
  | [] => none
  | v :: vs => (findTagged off cur v).or (findTaggedItems off cur vs)
end

mutual
/-- schema_validation.rs:505-557: the number of calls of `find_tagged_context_recursive` one call makes,
itself included. -/
def taggedCalls (off : Nat) (cur : Option Value) : Value → Nat
  | .mk t (some (.object es o)) sp =>
    if sp.isNone || touches off sp then
      let new := if t.isSome then some (.mk t (some (.object es o)) sp) else cur
      1 + taggedCallsEntries off new es +
        (if (findTaggedEntries off new es).isSome then 0 else taggedCallsEntries off new es)
    else 1
  | .mk t (some (.sequence items o)) sp =>
    if sp.isNone || touches off sp then
      1 + taggedCallsItems off (if t.isSome then some (.mk t (some (.sequence items o)) sp) else cur) items
    else 1
  | .mk _ _ _ => 1
/-- schema_validation.rs:532-536: the calls of the loop over the entries, until one finds something. -/
def taggedCallsEntries (off : Nat) (cur : Option Value) : List Entry → Nat
  | [] => 0
  | .mk _ v _ :: es =>
    taggedCalls off cur v + (if (findTagged off cur v).isSome then 0 else taggedCallsEntries off cur es)
/-- schema_validation.rs:550-554: the calls of the loop over the items, until one finds something. -/
def taggedCallsItems (off : Nat) (cur : Option Value) : List Value → Nat
  | [] => 0
  | v :: vs =>
    taggedCalls off cur v + (if (findTagged off cur v).isSome then 0 else taggedCallsItems off cur vs)
end

end Styx.Lsp
