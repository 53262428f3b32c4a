import Verif.Parse.Parser

/-!
# Model of the value tree

Source: crates/styx-tree/src/value.rs and lib.rs.
`String` is `List Char`; `&mut` accessors are functions returning the changed object.
-/

namespace Styx

/-- value.rs:30-39 `Tag`. -/
structure Tag where
  name : List Char
  span : Option Span
  deriving DecidableEq, Repr

mutual
/-- value.rs:16-27 `Value`. -/
inductive Value where
  | mk (tag : Option Tag) (payload : Option Payload) (span : Option Span)
/-- value.rs:41-75 `Payload` with `Scalar` and `Sequence`, 77-86 `Object`. -/
inductive Payload where
  | scalar (text : List Char) (kind : ScalarKind) (span : Option Span)
  | sequence (items : List Value) (span : Option Span)
  | object (entries : List Entry) (span : Option Span)
/-- value.rs:88-99 `Entry`. -/
inductive Entry where
  | mk (key value : Value) (doc : Option (List Char))
end

namespace Value

/-- Field `tag`, value.rs:22. -/
def tag : Value → Option Tag
  | .mk t _ _ => t

/-- Field `payload`, value.rs:24. -/
def payload : Value → Option Payload
  | .mk _ p _ => p

/-- Field `span`, value.rs:26. -/
def span : Value → Option Span
  | .mk _ _ s => s

/-- value.rs:103-109 `Value::unit`. -/
def unit : Value := .mk none none none

/-- value.rs:112-122 `Value::scalar`. -/
def scalar (text : List Char) : Value := .mk none (some (.scalar text .bare none)) none

/-- value.rs:125-134 `Value::tag`. -/
def ofTag (name : List Char) : Value := .mk (some ⟨name, none⟩) none none

/-- value.rs:137-146 `Value::tagged`. -/
def tagged (name : List Char) (v : Value) : Value := .mk (some ⟨name, none⟩) v.payload none

/-- value.rs:161-167 `Value::seq`. -/
def seq (items : List Value) : Value := .mk none (some (.sequence items none)) none

/-- value.rs:183-185 `is_unit`. -/
def isUnit (v : Value) : Bool := v.tag.isNone && v.payload.isNone

/-- value.rs:193-195 `tag_name`. -/
def tagName (v : Value) : Option (List Char) := v.tag.map (·.name)

/-- value.rs:198-206 `as_str`. -/
def asStr : Value → Option (List Char)
  | .mk none (some (.scalar text _ _)) _ => some text
  | _ => none

/-- value.rs:209-214 `scalar_text`. -/
def scalarText : Value → Option (List Char)
  | .mk _ (some (.scalar text _ _)) _ => some text
  | _ => none

/-- value.rs:217-222 `as_object` (the entries). -/
def asObject : Value → Option (List Entry)
  | .mk _ (some (.object es _)) _ => some es
  | _ => none

/-- value.rs:233-238 `as_sequence` (the items). -/
def asSequence : Value → Option (List Value)
  | .mk _ (some (.sequence es _)) _ => some es
  | _ => none

/-- value.rs:249-255 `with_tag`. -/
def withTag (name : List Char) : Value → Value
  | .mk _ p s => .mk (some ⟨name, none⟩) p s

end Value

namespace Entry

/-- Field `key`, value.rs:94. -/
def key : Entry → Value
  | .mk k _ _ => k

/-- Field `value`, value.rs:96. -/
def value : Entry → Value
  | .mk _ v _ => v

/-- Field `doc_comment`, value.rs:98. -/
def doc : Entry → Option (List Char)
  | .mk _ _ d => d

end Entry

/-- value.rs:331-337 `Object::get`, over the list of entries of the object. -/
def objGet (es : List Entry) (key : List Char) : Option Value :=
  (es.find? fun e => e.key.asStr == some key).map (·.value)

/-- value.rs:348-353 `Object::get_unit`. -/
def objGetUnit (es : List Entry) : Option Value :=
  (es.find? fun e => e.key.isUnit).map (·.value)

/-- value.rs:369-371 `Object::contains_key`. -/
def objContains (es : List Entry) (key : List Char) : Bool :=
  es.any fun e => e.key.asStr == some key

/-- value.rs:374-376 `Object::contains_unit_key`. -/
def objContainsUnit (es : List Entry) : Bool := es.any fun e => e.key.isUnit

/-- `iter_mut().find(p)` followed by an update of the value: the first matching entry is changed;
`none` when there is none. -/
def updateFirst (p : Entry → Bool) (v : Value) : List Entry → Option (List Entry)
  | [] => none
  | .mk k v' d :: es =>
    if p (.mk k v' d) then some (.mk k v d :: es) else (updateFirst p v es).map (.mk k v' d :: ·)

/-- value.rs:389-404 `Object::insert`. -/
def objInsert (es : List Entry) (key : List Char) (v : Value) : List Entry :=
  match updateFirst (fun e => e.key.asStr == some key) v es with
  | some es' => es'
  | none => es ++ [.mk (Value.scalar key) v none]

/-- value.rs:407-417 `Object::insert_unit`. -/
def objInsertUnit (es : List Entry) (v : Value) : List Entry :=
  match updateFirst (fun e => e.key.isUnit) v es with
  | some es' => es'
  | none => es ++ [.mk Value.unit v none]

/-- Splitting at the first character satisfying `p`: what is before, and what starts there. -/
def splitAtFirst (p : Char → Bool) : List Char → List Char × List Char
  | [] => ([], [])
  | c :: cs => if p c then ([], c :: cs) else
    let (a, b) := splitAtFirst p cs
    (c :: a, b)

/-- value.rs:453-477 `split_path` (also lib.rs:64-85). -/
def splitPath (path : List Char) : List Char × List Char :=
  let plain :=
    match splitAtFirst (fun c => c == '.' || c == '[') path with
    | (seg, '.' :: rest) => (seg, rest)
    | (seg, rest) => (seg, rest)
  match path with
  | '[' :: _ =>
    match splitAtFirst (· == ']') path with
    | (seg, ']' :: rest) =>
      (seg ++ [']'], match rest with | '.' :: r => r | r => r)
    | _ => plain
  | _ => plain

/-- `usize` has 64 bits. -/
def usizeMax : Nat := 2 ^ 64 - 1

/-- Digits of a decimal number, most significant first; `none` if a character is no digit or the
value exceeds `usize`. -/
def parseDigits : Nat → List Char → Option Nat
  | n, [] => some n
  | n, c :: cs =>
    if c.isDigit then
      let n' := n * 10 + (c.toNat - '0'.toNat)
      if n' ≤ usizeMax then parseDigits n' cs else none
    else none

/-- `str::parse::<usize>` (Rust core): an optional `+`, then at least one digit. -/
def parseUsize : List Char → Option Nat
  | [] => none
  | ['+'] => none
  | '+' :: cs => parseDigits 0 cs
  | cs => parseDigits 0 cs

/-- value.rs:285-286: `segment[1..len - 1]` when the segment starts with `[` and ends with `]`. -/
def bracketIndex (seg : List Char) : Option (List Char) :=
  match seg with
  | '[' :: rest => if rest.getLast? = some ']' then some rest.dropLast else none
  | _ => none

mutual
/-- value.rs:261-295 `Value::get`. -/
def Value.get (path : List Char) : Value → Option Value
  | .mk t p s =>
    if path = [] then some (.mk t p s)
    else
      let (segment, rest) := splitPath path
      match p with
      | some (.object es _) => getInEntries segment rest es
      | some (.sequence items _) =>
        match bracketIndex segment with
        | some digits =>
          match parseUsize digits with
          | some idx => getInItems rest idx items
          | none => none
        | none => none
      | _ => none
/-- value.rs:271-278: `obj.get(segment)`, then the rest of the path. -/
def getInEntries (segment rest : List Char) : List Entry → Option Value
  | [] => none
  | .mk k v _ :: es =>
    if k.asStr == some segment then (if rest = [] then some v else v.get rest)
    else getInEntries segment rest es
/-- value.rs:283-288: `seq.get(idx)`, then the rest of the path. -/
def getInItems (rest : List Char) : Nat → List Value → Option Value
  | _, [] => none
  | 0, v :: _ => if rest = [] then some v else v.get rest
  | n + 1, _ :: vs => getInItems rest n vs
end

/-- lib.rs:50-62 `Document::get`, over the root's entries. -/
def docGet (root : List Entry) (path : List Char) : Option Value :=
  if path = [] then none
  else
    let (segment, rest) := splitPath path
    match objGet root segment with
    | none => none
    | some v => if rest = [] then some v else v.get rest

end Styx
