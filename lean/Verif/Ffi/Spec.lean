import Verif.Ffi.Model

/-!
# Specification of the C interface

A C client that reads a whole document, and histories of calls that follow the rules of the header.
-/

namespace Styx.Ffi

/-! ## A client that reads everything -/

/-- Copies a string that the library returned, and frees it. -/
def takeString : Option Nat → CM (Option (List UInt8))
  | none => ret none
  | some s => fun h =>
    match h.strs.lookup s with
    | some bs => (do freeString (some s); return some bs : CM _) h
    | none => .undefined

/-- The results of `f i`, `f (i + 1)`, … for `n` indices. -/
def collect {α : Type} (f : Nat → CM α) : Nat → Nat → CM (List α)
  | _, 0 => ret []
  | i, n + 1 => do return (← f i) :: (← collect f (i + 1) n)

/-- The text of a string that was read; a null pointer is taken for the empty text. -/
def textOf (bs : Option (List UInt8)) : List Char := ((bs.bind toStr)).getD []

/-- Reads a value with everything in it, to depth `n`. -/
def readValue : Nat → Option Ptr → CM Value
  | 0, _ => fun _ => .abort
  | n + 1, v => do
    let tag := (← takeString (← valueTag v)).map fun bs => (⟨textOf (some bs), none⟩ : Tag)
    match ← valuePayloadKind v with
    | .none => return .mk tag none none
    | .scalar => return .mk tag (some (.scalar (textOf (← takeString (← valueScalar v))) .bare none)) none
    | .sequence =>
      let s ← valueAsSequence v
      let items ← collect (fun i => do readValue n (← sequenceGet s i)) 0 (← sequenceLen s)
      return .mk tag (some (.sequence items none)) none
    | .object =>
      let o ← valueAsObject v
      let es ← collect (fun i => do
        return Entry.mk (← readValue n (← objectKeyAt o i)) (← readValue n (← objectValueAt o i)) none) 0 (← objectLen o)
      return .mk tag (some (.object es none)) none

/-- Reads a document. -/
def readDocument (n : Nat) (d : Option Nat) : CM (List Entry) := do
  let o ← documentRoot d
  collect (fun i => do
    return Entry.mk (← readValue n (← objectKeyAt o i)) (← readValue n (← objectValueAt o i)) none) 0 (← objectLen o)

mutual
/-- What can be seen of a value: no spans, no forms of scalars, no doc comments. -/
def visible : Value → Value
  | .mk t none _ => .mk (t.map fun t => ⟨t.name, none⟩) none none
  | .mk t (some (.scalar s _ _)) _ => .mk (t.map fun t => ⟨t.name, none⟩) (some (.scalar s .bare none)) none
  | .mk t (some (.sequence vs _)) _ => .mk (t.map fun t => ⟨t.name, none⟩) (some (.sequence (visibleAll vs) none)) none
  | .mk t (some (.object es _)) _ => .mk (t.map fun t => ⟨t.name, none⟩) (some (.object (visibleEntries es) none)) none
/-- … of all items. -/
def visibleAll : List Value → List Value
  | [] => []
  | v :: vs => visible v :: visibleAll vs
/-- … of all entries. -/
def visibleEntries : List Entry → List Entry
  | [] => []
  | .mk k v _ :: es => .mk (visible k) (visible v) none :: visibleEntries es
end

mutual
/-- No text in the value contains the character that ends C strings. -/
def NoNul : Value → Prop
  | .mk t none _ => ∀ n, t = some n → Char.ofNat 0 ∉ n.name
  | .mk t (some (.scalar s _ _)) _ => (∀ n, t = some n → Char.ofNat 0 ∉ n.name) ∧ Char.ofNat 0 ∉ s
  | .mk t (some (.sequence vs _)) _ => (∀ n, t = some n → Char.ofNat 0 ∉ n.name) ∧ NoNulAll vs
  | .mk t (some (.object es _)) _ => (∀ n, t = some n → Char.ofNat 0 ∉ n.name) ∧ NoNulEntries es
/-- … of all items. -/
def NoNulAll : List Value → Prop
  | [] => True
  | v :: vs => NoNul v ∧ NoNulAll vs
/-- … of all entries. -/
def NoNulEntries : List Entry → Prop
  | [] => True
  | .mk k v _ :: es => NoNul k ∧ NoNul v ∧ NoNulEntries es
end

/-- What a client passes for an array of bytes: the bytes before the first zero. -/
def cString (bs : List UInt8) : List UInt8 := bs.takeWhile (· != 0)

/-- The pointer points to the value. -/
def PointsTo (h : Heap) (p : Ptr) (v : Value) : Prop :=
  ∃ root, h.docs.lookup p.doc = some root ∧ valueAt root p.way = some v

/-- The pointer points to the object or sequence. -/
def PointsIn (h : Heap) (p : Ptr) (v : Payload) : Prop :=
  ∃ root, h.docs.lookup p.doc = some root ∧ payloadAt root p.way = some v

/-! ## Histories -/

/-- A call of a client.  `k` stands for the pointer that call number `k` of the history returned. -/
inductive Op where
  | parse (source : Option (List UInt8))
  | freeDocument (k : Nat)
  | freeString (k : Nat)
  | documentRoot (k : Nat)
  | documentGet (k : Nat) (path : Option (List UInt8))
  | payloadKind (k : Nat)
  | isUnit (k : Nat)
  | tag (k : Nat)
  | scalar (k : Nat)
  | asObject (k : Nat)
  | asSequence (k : Nat)
  | valueGet (k : Nat) (path : Option (List UInt8))
  | objectLen (k : Nat)
  | objectGet (k : Nat) (key : Option (List UInt8))
  | objectKeyAt (k i : Nat)
  | objectValueAt (k i : Nat)
  | sequenceLen (k : Nat)
  | sequenceGet (k i : Nat)
  deriving DecidableEq, Repr

/-- What a call returns. -/
inductive Ret where
  | parsed (r : ParseResult)
  | done
  | object (p : Option Ptr)
  | value (p : Option Ptr)
  | sequence (p : Option Ptr)
  | string (s : Option Nat)
  | kind (k : PayloadKind)
  | bool (b : Bool)
  | len (n : Nat)
  deriving DecidableEq, Repr

/-- The types of results. -/
inductive Ty where
  | parsed | object | value | sequence | string | other
  deriving DecidableEq, Repr

/-- The type of the result of a call. -/
def Op.ty : Op → Ty
  | .parse _ => .parsed
  | .documentRoot _ | .asObject _ => .object
  | .documentGet .. | .valueGet .. | .objectGet .. | .objectKeyAt .. | .objectValueAt .. | .sequenceGet .. => .value
  | .asSequence _ => .sequence
  | .tag _ | .scalar _ => .string
  | _ => .other

/-- The handle that a call looks into, and its type. -/
def Op.looks : Op → Option (Nat × Ty)
  | .documentRoot k | .documentGet k _ => some (k, .parsed)
  | .payloadKind k | .isUnit k | .tag k | .scalar k | .asObject k | .asSequence k | .valueGet k _ => some (k, .value)
  | .objectLen k | .objectGet k _ | .objectKeyAt k _ | .objectValueAt k _ => some (k, .object)
  | .sequenceLen k | .sequenceGet k _ => some (k, .sequence)
  | .parse _ | .freeDocument _ | .freeString _ => none

/-- One call, with the results of the calls before. -/
def exec (msg : BuildError → List Char) (log : List Ret) : Op → CM Ret
  | .parse s => do return .parsed (← parse msg s)
  | .freeDocument k =>
    match log[k]? with
    | some (.parsed r) => do freeDocument r.document; return .done
    | _ => fun _ => .undefined
  | .freeString k =>
    match log[k]? with
    | some (.parsed r) => do freeString r.error; return .done
    | some (.string s) => do freeString s; return .done
    | _ => fun _ => .undefined
  | .documentRoot k =>
    match log[k]? with
    | some (.parsed r) => do return .object (← documentRoot r.document)
    | _ => fun _ => .undefined
  | .documentGet k path =>
    match log[k]? with
    | some (.parsed r) => do return .value (← documentGet r.document path)
    | _ => fun _ => .undefined
  | .payloadKind k =>
    match log[k]? with
    | some (.value p) => do return .kind (← valuePayloadKind p)
    | _ => fun _ => .undefined
  | .isUnit k =>
    match log[k]? with
    | some (.value p) => do return .bool (← valueIsUnit p)
    | _ => fun _ => .undefined
  | .tag k =>
    match log[k]? with
    | some (.value p) => do return .string (← valueTag p)
    | _ => fun _ => .undefined
  | .scalar k =>
    match log[k]? with
    | some (.value p) => do return .string (← valueScalar p)
    | _ => fun _ => .undefined
  | .asObject k =>
    match log[k]? with
    | some (.value p) => do return .object (← valueAsObject p)
    | _ => fun _ => .undefined
  | .asSequence k =>
    match log[k]? with
    | some (.value p) => do return .sequence (← valueAsSequence p)
    | _ => fun _ => .undefined
  | .valueGet k path =>
    match log[k]? with
    | some (.value p) => do return .value (← valueGet p path)
    | _ => fun _ => .undefined
  | .objectLen k =>
    match log[k]? with
    | some (.object p) => do return .len (← objectLen p)
    | _ => fun _ => .undefined
  | .objectGet k key =>
    match log[k]? with
    | some (.object p) => do return .value (← objectGet p key)
    | _ => fun _ => .undefined
  | .objectKeyAt k i =>
    match log[k]? with
    | some (.object p) => do return .value (← objectKeyAt p i)
    | _ => fun _ => .undefined
  | .objectValueAt k i =>
    match log[k]? with
    | some (.object p) => do return .value (← objectValueAt p i)
    | _ => fun _ => .undefined
  | .sequenceLen k =>
    match log[k]? with
    | some (.sequence p) => do return .len (← sequenceLen p)
    | _ => fun _ => .undefined
  | .sequenceGet k i =>
    match log[k]? with
    | some (.sequence p) => do return .value (← sequenceGet p i)
    | _ => fun _ => .undefined

/-- A history of calls from the state `h`, after calls with the results `log`: the results with the memory after each
call. -/
def run (msg : BuildError → List Char) (log : List Ret) : List Op → Heap → Out (List (Ret × Heap))
  | [], h => .ok [] h
  | op :: ops, h =>
    match exec msg log op h with
    | .ok r h' =>
      match run msg (log ++ [r]) ops h' with
      | .ok rs h'' => .ok ((r, h') :: rs) h''
      | .undefined => .undefined
      | .abort => .abort
    | .undefined => .undefined
    | .abort => .abort

/-- `From ops k d`: the handle of call `k` leads into the document that call `d` parsed. -/
inductive From (ops : List Op) : Nat → Nat → Prop
  | parse {k s} : ops[k]? = some (.parse s) → From ops k k
  | look {k op k' ty d} : ops[k]? = some op → op.looks = some (k', ty) → From ops k' d → From ops k d

/-- The rules for the next call after the calls `before`: a handle has the right type and its document has not been
freed; a document or string is freed only once. -/
def Allowed (before : List Op) (op : Op) : Prop :=
  (∀ k ty, op.looks = some (k, ty) → ∃ o, before[k]? = some o ∧ o.ty = ty ∧
    ∀ d, From before k d → .freeDocument d ∉ before) ∧
  (∀ k, op = .freeDocument k → (∃ s, before[k]? = some (.parse s)) ∧ .freeDocument k ∉ before) ∧
  (∀ k, op = .freeString k → (∃ o, before[k]? = some o ∧ (o.ty = .parsed ∨ o.ty = .string)) ∧ .freeString k ∉ before)

/-- Every call follows the rules. -/
def Legal (before : List Op) : List Op → Prop
  | [] => True
  | op :: ops => Allowed before op ∧ Legal (before ++ [op]) ops

/-- Two answers say the same: they are equal, or they are strings with the same bytes, or both null. -/
def SameAnswer (h : Heap) (r : Ret) (h' : Heap) (r' : Ret) : Prop :=
  match r, r' with
  | .string (some s), .string (some s') => ∃ bs, h.strs.lookup s = some bs ∧ h'.strs.lookup s' = some bs
  | r, r' => r = r'

/-- The memory after some history that follows the rules. -/
def Reachable (msg : BuildError → List Char) (h : Heap) : Prop :=
  ∃ ops rs, Legal [] ops ∧ run msg [] ops {} = .ok rs h

end Styx.Ffi
