import Verif.Tree.Builder
import Verif.Tree.Value

/-!
# Model of the C interface

Source: crates/styx-ffi/src/lib.rs.

A call changes the memory that the library has handed out: the documents and the strings.  The pointers to values,
objects and sequences point into a document; in the model such a pointer is the document with the way from the root
to the target, since a document is never changed after it has been parsed.  Using a pointer to something that has
been freed is undefined behaviour, which is an explicit outcome here; so is a panic, which aborts the process.

Simplifications: a string that the caller passes is given by its bytes up to the first zero byte; the texts of error
messages are a parameter.
-/

namespace Styx.Ffi

/-- One step into an object or a sequence. -/
inductive Step where
  | key (i : Nat)
  | value (i : Nat)
  | item (i : Nat)
  deriving DecidableEq, Repr

/-- The target of one step. -/
def step : Payload → Step → Option Value
  | .object es _, .key i => es[i]?.map Entry.key
  | .object es _, .value i => es[i]?.map Entry.value
  | .sequence vs _, .item i => vs[i]?
  | _, _ => none

/-- The value at the end of a way, if there is one. -/
def valueAt (p : Payload) : List Step → Option Value
  | [] => none
  | [s] => step p s
  | s :: ss =>
    match step p s with
    | some (.mk _ (some p') _) => valueAt p' ss
    | _ => none

/-- The object or sequence at the end of a way; at the beginning there is the root object. -/
def payloadAt (p : Payload) : List Step → Option Payload
  | [] => some p
  | ss => (valueAt p ss).bind Value.payload

/-- A pointer into a document. -/
structure Ptr where
  doc : Nat
  way : List Step
  deriving DecidableEq, Repr

/-- The memory handed out: documents (their root objects) and strings (without the terminating zero). -/
structure Heap where
  docs : List (Nat × Payload) := []
  strs : List (Nat × List UInt8) := []
  next : Nat := 0

/-- What a call does. -/
inductive Out (α : Type) where
  | ok (a : α) (h : Heap)
  | undefined
  | abort

/-- A call. -/
abbrev CM (α : Type) := Heap → Out α

/-- Returns. -/
def ret {α : Type} (a : α) : CM α := fun h => .ok a h

/-- One call after the other. -/
def CM.bind {α β : Type} (m : CM α) (f : α → CM β) : CM β := fun h =>
  match m h with
  | .ok a h' => f a h'
  | .undefined => .undefined
  | .abort => .abort

instance : Monad CM where
  pure := ret
  bind := CM.bind

/-- `str::as_bytes`. -/
def bytesOf (t : List Char) : List UInt8 := t.flatMap String.utf8EncodeChar

/-- `CStr::to_str`. -/
def toStr (bs : List UInt8) : Option (List Char) := bs.toByteArray.utf8Decode?.map Array.toList

/-- `CString::new(t).map(|s| s.into_raw()).unwrap_or(ptr::null_mut())`, as in lib.rs:233-235 and 252-254: a string with
a zero byte is not possible. -/
def newString (t : List Char) : CM (Option Nat) := fun h =>
  if 0 ∈ bytesOf t then .ok none h
  else .ok (some h.next) { h with strs := (h.next, bytesOf t) :: h.strs, next := h.next + 1 }

/-- `&*doc` of a document. -/
def derefDoc (d : Nat) : CM Payload := fun h =>
  match h.docs.lookup d with
  | some p => .ok p h
  | none => .undefined

/-- `&*value` of a value. -/
def derefValue (p : Ptr) : CM Value := fun h =>
  match h.docs.lookup p.doc with
  | some root =>
    match valueAt root p.way with
    | some v => .ok v h
    | none => .undefined
  | none => .undefined

/-- `&*obj` of an object. -/
def derefObject (p : Ptr) : CM (List Entry) := fun h =>
  match h.docs.lookup p.doc with
  | some root =>
    match payloadAt root p.way with
    | some (.object es _) => .ok es h
    | _ => .undefined
  | none => .undefined

/-- `&*seq` of a sequence. -/
def derefSequence (p : Ptr) : CM (List Value) := fun h =>
  match h.docs.lookup p.doc with
  | some root =>
    match payloadAt root p.way with
    | some (.sequence vs _) => .ok vs h
    | _ => .undefined
  | none => .undefined

/-- lib.rs:36-42 `StyxParseResult`. -/
structure ParseResult where
  document : Option Nat
  error : Option Nat
  deriving DecidableEq, Repr

/-- lib.rs:45-55 `StyxPayloadKind`. -/
inductive PayloadKind where
  | none | scalar | sequence | object
  deriving DecidableEq, Repr

/-- crates/styx-tree/src/lib.rs:37-48 `Document::parse`, as far as the root object. -/
def parseDocument (source : List Char) : Option (Except BuildError Payload) :=
  match parseTree source with
  | none => none
  | some (.error e) => some (.error e)
  | some (.ok (.mk _ (some (.object es sp)) _)) => some (.ok (.object es sp))
  | some (.ok _) => some (.error .unexpectedEvent)

/-- lib.rs:69-107 `styx_parse`; `msg` is `format_error`. -/
def parse (msg : BuildError → List Char) (source : Option (List UInt8)) : CM ParseResult :=
  match source with
  | none => do return ⟨none, ← newString (chars! "source is null")⟩
  | some bs =>
    match toStr bs with
    | none => do return ⟨none, ← newString (chars! "source is not valid UTF-8")⟩
    | some text =>
      match parseDocument text with
      | none => fun _ => .abort
      | some (.ok root) => fun h =>
        .ok ⟨some h.next, none⟩ { h with docs := (h.next, root) :: h.docs, next := h.next + 1 }
      | some (.error e) => do
        match ← newString (msg e) with
        | some s => return ⟨none, some s⟩
        | none => return ⟨none, ← newString (chars! "unknown error")⟩

/-- lib.rs:126-130 `styx_free_document`. -/
def freeDocument : Option Nat → CM Unit
  | none => ret ()
  | some d => fun h =>
    match h.docs.lookup d with
    | some _ => .ok () { h with docs := h.docs.filter fun x => x.1 != d }
    | none => .undefined

/-- lib.rs:137-141 `styx_free_string`. -/
def freeString : Option Nat → CM Unit
  | none => ret ()
  | some s => fun h =>
    match h.strs.lookup s with
    | some _ => .ok () { h with strs := h.strs.filter fun x => x.1 != s }
    | none => .undefined

/-- lib.rs:153-159 `styx_document_root`. -/
def documentRoot : Option Nat → CM (Option Ptr)
  | none => ret none
  | some d => do
    let _ ← derefDoc d
    return some ⟨d, []⟩

mutual
/-- crates/styx-tree/src/value.rs:261-295 `Value::get`: the way from the value to the result. -/
def wayOf (path : List Char) : Value → Option (List Step)
  | .mk _ p _ =>
    if path = [] then some []
    else
      let (segment, rest) := splitPath path
      match p with
      | some (.object es _) => wayInEntries segment rest 0 es
      | some (.sequence items _) =>
        match bracketIndex segment with
        | some digits =>
          match parseUsize digits with
          | some idx => (wayInItems rest idx items).map (.item idx :: ·)
          | none => none
        | none => none
      | _ => none
/-- value.rs:271-278, from the entry with index `i`. -/
def wayInEntries (segment rest : List Char) (i : Nat) : List Entry → Option (List Step)
  | [] => none
  | .mk k v _ :: es =>
    if k.asStr == some segment then (if rest = [] then some [.value i] else (wayOf rest v).map (.value i :: ·))
    else wayInEntries segment rest (i + 1) es
/-- value.rs:283-288. -/
def wayInItems (rest : List Char) : Nat → List Value → Option (List Step)
  | _, [] => none
  | 0, v :: _ => if rest = [] then some [] else wayOf rest v
  | n + 1, _ :: vs => wayInItems rest n vs
end

/-- crates/styx-tree/src/lib.rs:50-62 `Document::get`: the way from the root to the result. -/
def docWay (root : List Entry) (path : List Char) : Option (List Step) :=
  if path = [] then none
  else
    let (segment, rest) := splitPath path
    match root.findIdx? fun e => e.key.asStr == some segment with
    | none => none
    | some i =>
      if rest = [] then some [.value i]
      else (root[i]?.bind fun e => wayOf rest e.value).map (.value i :: ·)

/-- lib.rs:168-184 `styx_document_get`. -/
def documentGet (doc : Option Nat) (path : Option (List UInt8)) : CM (Option Ptr) :=
  match doc, path with
  | some d, some bs => do
    let root ← derefDoc d
    match toStr bs, root with
    | some path, .object es _ => return (docWay es path).map (⟨d, ·⟩)
    | _, _ => return none
  | _, _ => ret none

/-- lib.rs:195-206 `styx_value_payload_kind`. -/
def valuePayloadKind : Option Ptr → CM PayloadKind
  | none => ret .none
  | some p => do
    match (← derefValue p).payload with
    | none => return .none
    | some (.scalar ..) => return .scalar
    | some (.sequence ..) => return .sequence
    | some (.object ..) => return .object

/-- lib.rs:213-219 `styx_value_is_unit`. -/
def valueIsUnit : Option Ptr → CM Bool
  | none => ret false
  | some p => do return (← derefValue p).isUnit

/-- lib.rs:227-238 `styx_value_tag`. -/
def valueTag : Option Ptr → CM (Option Nat)
  | none => ret none
  | some p => do
    match (← derefValue p).tagName with
    | some name => newString name
    | none => return none

/-- lib.rs:246-257 `styx_value_scalar`. -/
def valueScalar : Option Ptr → CM (Option Nat)
  | none => ret none
  | some p => do
    match (← derefValue p).payload with
    | some (.scalar text _ _) => newString text
    | _ => return none

/-- lib.rs:265-274 `styx_value_as_object`. -/
def valueAsObject : Option Ptr → CM (Option Ptr)
  | none => ret none
  | some p => do
    match (← derefValue p).payload with
    | some (.object ..) => return some p
    | _ => return none

/-- lib.rs:282-291 `styx_value_as_sequence`. -/
def valueAsSequence : Option Ptr → CM (Option Ptr)
  | none => ret none
  | some p => do
    match (← derefValue p).payload with
    | some (.sequence ..) => return some p
    | _ => return none

/-- lib.rs:300-316 `styx_value_get`. -/
def valueGet (value : Option Ptr) (path : Option (List UInt8)) : CM (Option Ptr) :=
  match value, path with
  | some p, some bs => do
    let v ← derefValue p
    match toStr bs with
    | some path => return (wayOf path v).map fun w => ⟨p.doc, p.way ++ w⟩
    | none => return none
  | _, _ => ret none

/-- lib.rs:327-333 `styx_object_len`. -/
def objectLen : Option Ptr → CM Nat
  | none => ret 0
  | some p => do return (← derefObject p).length

/-- lib.rs:342-358 `styx_object_get`. -/
def objectGet (obj : Option Ptr) (key : Option (List UInt8)) : CM (Option Ptr) :=
  match obj, key with
  | some p, some bs => do
    let es ← derefObject p
    match toStr bs with
    | some key => return (es.findIdx? fun e => e.key.asStr == some key).map fun i => ⟨p.doc, p.way ++ [.value i]⟩
    | none => return none
  | _, _ => ret none

/-- lib.rs:367-379 `styx_object_key_at`. -/
def objectKeyAt (obj : Option Ptr) (i : Nat) : CM (Option Ptr) :=
  match obj with
  | none => ret none
  | some p => do return if i < (← derefObject p).length then some ⟨p.doc, p.way ++ [.key i]⟩ else none

/-- lib.rs:388-400 `styx_object_value_at`. -/
def objectValueAt (obj : Option Ptr) (i : Nat) : CM (Option Ptr) :=
  match obj with
  | none => ret none
  | some p => do return if i < (← derefObject p).length then some ⟨p.doc, p.way ++ [.value i]⟩ else none

/-- lib.rs:411-417 `styx_sequence_len`. -/
def sequenceLen : Option Ptr → CM Nat
  | none => ret 0
  | some p => do return (← derefSequence p).length

/-- lib.rs:426-438 `styx_sequence_get`. -/
def sequenceGet (seq : Option Ptr) (i : Nat) : CM (Option Ptr) :=
  match seq with
  | none => ret none
  | some p => do return if i < (← derefSequence p).length then some ⟨p.doc, p.way ++ [.item i]⟩ else none

end Styx.Ffi
