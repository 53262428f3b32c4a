import Verif.Tree.Value

/-!
# Model: writing through mutable references into a tree

Source: crates/styx-tree/src/value.rs.  A mutable reference is what is written through it: the accessors get the
function `f` that is applied to the place they lead to, and give the changed tree, or `none` if they give `None`.
-/

namespace Styx

/-- `iter_mut().find(p).map(|e| &mut e.value)` (value.rs:340-345 and 356-361): `f` is applied to the value of the
first entry with `p`. -/
def modifyFirst (p : Value → Bool) (f : Value → Value) : List Entry → Option (List Entry)
  | [] => none
  | .mk k v d :: es => if p k then some (.mk k (f v) d :: es) else (modifyFirst p f es).map (.mk k v d :: ·)

/-- value.rs:340-345 `Object::get_mut`. -/
def objModify (key : List Char) (f : Value → Value) (es : List Entry) : Option (List Entry) :=
  modifyFirst (fun k => k.asStr == some key) f es

/-- value.rs:356-361 `Object::get_unit_mut`. -/
def objModifyUnit (f : Value → Value) (es : List Entry) : Option (List Entry) :=
  modifyFirst (·.isUnit) f es

/-- value.rs:427-429 `Sequence::get_mut`. -/
def seqModify (index : Nat) (f : Value → Value) (items : List Value) : Option (List Value) :=
  items[index]?.map fun v => items.set index (f v)

/-- value.rs:225-230 `as_object_mut`; `f` is applied to the entries. -/
def Value.modifyObject (f : List Entry → List Entry) : Value → Option Value
  | .mk t (some (.object es o)) s => some (.mk t (some (.object (f es) o)) s)
  | _ => none

/-- value.rs:241-246 `as_sequence_mut`; `f` is applied to the items. -/
def Value.modifySequence (f : List Value → List Value) : Value → Option Value
  | .mk t (some (.sequence items o)) s => some (.mk t (some (.sequence (f items) o)) s)
  | _ => none

/-- value.rs:447-449 `Sequence::push`. -/
def seqPush (items : List Value) (v : Value) : List Value := items ++ [v]

mutual
/-- value.rs:296-327 `Value::get_mut`. -/
def Value.modify (path : List Char) (f : Value → Value) : Value → Option Value
  | .mk t p s =>
    if path = [] then some (f (.mk t p s))
    else
      let (segment, rest) := splitPath path
      match p with
      | some (.object es o) => (modifyEntries segment rest f es).map fun es' => .mk t (some (.object es' o)) s
      | some (.sequence items o) =>
        match bracketIndex segment with
        | some digits =>
          match parseUsize digits with
          | some idx => (modifyItems rest f idx items).map fun items' => .mk t (some (.sequence items' o)) s
          | none => none
        | none => none
      | _ => none
/-- value.rs:305-310: `obj.get_mut(segment)`, then the rest of the path. -/
def modifyEntries (segment rest : List Char) (f : Value → Value) : List Entry → Option (List Entry)
  | [] => none
  | .mk k v d :: es =>
    if k.asStr == some segment then
      (if rest = [] then some (f v) else v.modify rest f).map fun v' => .mk k v' d :: es
    else (modifyEntries segment rest f es).map (.mk k v d :: ·)
/-- value.rs:314-320: `seq.get_mut(idx)`, then the rest of the path. -/
def modifyItems (rest : List Char) (f : Value → Value) : Nat → List Value → Option (List Value)
  | _, [] => none
  | 0, v :: vs => (if rest = [] then some (f v) else v.modify rest f).map (· :: vs)
  | n + 1, v :: vs => (modifyItems rest f n vs).map (v :: ·)
end

end Styx
