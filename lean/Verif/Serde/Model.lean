import Verif.Format.Writer
import Verif.Schema.Model
import Verif.Cli.Model

/-!
# Model of the serde serializer and deserializer

Source: crates/serde_styx/src/ser.rs, de.rs and lib.rs.

A Rust value is described by `Data`, the part of serde's data model that the code distinguishes; a Rust type with
derived `Deserialize` by `Ty`.  What the derived code and the implementations in the serde library do (which
methods of the serializer they call, and how their visitors use the accesses) is not in this repository; it is
modelled as documented by serde.  Left out: floats, types that use `deserialize_any` (untagged enums, flattened
fields, dynamic values), map keys that are not strings, and attributes that rename, skip or default fields.

Error messages are not modelled.
-/

namespace Styx.Serde

mutual
/-- A value, as serde sees it.  Structs and maps with string keys are both `fields`: ser.rs:217-229 treats them
alike.  Tuples are `seq` (ser.rs:192-202). -/
inductive Data where
  | unit
  | bool (b : Bool)
  | int (n : Int)
  | char (c : Char)
  | str (s : List Char)
  | bytes (bs : List UInt8)
  | none
  | some (d : Data)
  | seq (ds : List Data)
  | fields (fs : List Field)
  | unitVariant (name : List Char)
  | newtypeVariant (name : List Char) (d : Data)
  | tupleVariant (name : List Char) (ds : List Data)
  | structVariant (name : List Char) (fs : List Field)
/-- A field of a struct, or an entry of a map. -/
inductive Field where
  | mk (key : List Char) (d : Data)
end

/-- The key of a field. -/
def Field.key : Field → List Char
  | .mk k _ => k

/-- The value of a field. -/
def Field.data : Field → Data
  | .mk _ d => d

mutual
/-- A type with derived `Deserialize`. -/
inductive Ty where
  | unit
  | bool
  | int (signed : Bool) (bits : Nat)
  | char
  | str
  | bytes
  | option (t : Ty)
  | seq (t : Ty)
  | map (t : Ty)
  | struct (fs : Fields)
  | tuple (ts : Tys)
  | enum (vs : Variants)
/-- The fields of a struct. -/
inductive Fields where
  | nil
  | cons (name : List Char) (t : Ty) (rest : Fields)
/-- The components of a tuple. -/
inductive Tys where
  | nil
  | cons (t : Ty) (rest : Tys)
/-- The variants of an enum. -/
inductive Variants where
  | nil
  | cons (name : List Char) (s : Shape) (rest : Variants)
/-- What a variant carries. -/
inductive Shape where
  | unit
  | newtype (t : Ty)
  | tuple (ts : Tys)
  | struct (fs : Fields)
end

/-! ## Serializing -/

/-- `i64::to_string`, `u64::to_string` and so on (Rust core; called at writer.rs:460-481). -/
def intText : Int → List Char
  | .ofNat n => Cli.showNat n
  | .negSucc n => '-' :: Cli.showNat (n + 1)

mutual
/-- ser.rs:40-248 `Serializer`; `root` is its flag `at_root`, which every value but the payload of `Some` clears.
`CompactSerializer` (ser.rs:549-877) does the same with the flag never set. -/
def ser (root : Bool) : Data → Writer → Option Writer
  | .unit, w => some (w.writeText ['@'])
  | .bool b, w => some (w.writeText (if b then chars! "true" else chars! "false"))
  | .int n, w => some (w.writeText (intText n))
  | .char c, w => some (w.writeString [c])
  | .str s, w => some (w.writeString s)
  | .bytes bs, w => some (w.writeBytes bs)
  | .none, w => some (w.writeText ['@'])
  | .some d, w => ser root d w
  | .seq ds, w => serItems ds w.beginSeq
  | .fields fs, w => serFields fs (w.beginStruct root false)
  | .unitVariant name, w => some (w.writeTag name)
  | .newtypeVariant name d, w => ser false d ((w.writeTag name).emit [' '])
  | .tupleVariant name ds, w => serItems ds (w.writeTag name).beginSeq
  | .structVariant name fs, w => serFields fs ((w.writeTag name).beginStruct false false)
/-- ser.rs:251-301 `SeqSerializer`: the elements, then `end`. -/
def serItems : List Data → Writer → Option Writer
  | [], w => if w.endSeq.1 then some w.endSeq.2 else none
  | d :: ds, w => (ser false d w).bind (serItems ds)
/-- ser.rs:304-367 `MapSerializer` and `StructSerializer`: the fields, then `end`. -/
def serFields : List Field → Writer → Option Writer
  | [], w => if w.endStruct.1 then some w.endStruct.2 else none
  | .mk k d :: fs, w =>
    if (w.fieldKey k).1 then (ser false d (w.fieldKey k).2).bind (serFields fs) else none
end

/-- lib.rs:128-136 `to_string_with_options`; `to_string` (99-104) uses the default options.  `none` is an error. -/
def toStyx (o : FormatOptions) (d : Data) : Option (List Char) :=
  (ser true d { options := o }).map (·.out)

/-- lib.rs:117-125 `to_string_compact`. -/
def toCompact (d : Data) : Option (List Char) :=
  (ser false d { options := { forceStyle := .inline } }).map (·.out)

/-! ## Deserializing -/

/-- The result of reading: a value, an error, a panic, or a loop that never ends. -/
inductive Out (α : Type) where
  | ok (a : α)
  | err
  | panic
  | stuck

/-- The rest of a computation after a result: the operator `?`. -/
def Out.bind {α β} (x : Out α) (f : α → Out β) : Out β :=
  match x with
  | .ok a => f a
  | .err => .err
  | .panic => .panic
  | .stuck => .stuck

/-- Change the value of a result. -/
def Out.map {α β} (f : α → β) (x : Out α) : Out β := x.bind fun a => .ok (f a)

/-- Reading a value from the tokens that are left. -/
abbrev Reader := List Token → Out (Data × List Token)

/-- The tokens that the deserializer sees: de.rs:31-67 `peek_token` and `next_token` skip blanks, line breaks and
line comments.  The end of the input is the end of the list. -/
def significant (s : List Char) : List Token :=
  (tokenize s).filter fun t => t.kind != .whitespace && t.kind != .lineComment && t.kind != .newline

/-- de.rs:52-67 `next_token`; at the end of the input it is a token without text, again and again. -/
def nextToken : List Token → Token × List Token
  | [] => (⟨.eof, 0, 0, []⟩, [])
  | t :: ts => (t, ts)

/-- de.rs:70-76 `skip_comma`. -/
def skipComma : List Token → List Token
  | t :: ts => if t.kind = .comma then ts else t :: ts
  | [] => []

/-- de.rs:106-116 `unescape_quoted`. -/
def unescape (text : List Char) : List Char :=
  match text with
  | '"' :: r => if r.getLast? = some '"' then fmtUnescape r.dropLast else fmtUnescape text
  | _ => fmtUnescape text

/-- `str::find('"')`: a byte offset. -/
def findQuote : List Char → Option Nat
  | [] => none
  | c :: s => if c = '"' then some 0 else (findQuote s).map (· + c.utf8Size)

/-- `str::rfind('"')`: a byte offset. -/
def rfindQuote : List Char → Option Nat
  | [] => none
  | c :: s => match rfindQuote s with
    | some n => some (n + c.utf8Size)
    | none => if c = '"' then some 0 else none

/-- de.rs:308-311: the part between the first and the last quote; `none` models the panic of the slice. -/
def rawInner (text : List Char) : Option (List Char) :=
  sliceBytes text (((findQuote text).map (· + 1)).getD 0) ((rfindQuote text).getD (utf8Len text))

/-- de.rs:300-315 `deserialize_str`, without the visitor. -/
def readStr (ts : List Token) : Out (List Char × List Token) :=
  let (t, ts) := nextToken ts
  match t.kind with
  | .quotedScalar => .ok (unescape t.text, ts)
  | .rawScalar => match rawInner t.text with
    | some s => .ok (s, ts)
    | none => .panic
  | _ => .ok (t.text, ts)

/-- de.rs:222-229 `deserialize_bool`. -/
def deBool : Reader := fun ts =>
  let (t, ts) := nextToken ts
  if t.text = chars! "true" then .ok (.bool true, ts)
  else if t.text = chars! "false" then .ok (.bool false, ts)
  else .err

/-- The least number of an integer type. -/
def intMin (signed : Bool) (bits : Nat) : Int := if signed then -(2 ^ (bits - 1)) else 0

/-- The greatest number of an integer type. -/
def intMax (signed : Bool) (bits : Nat) : Int := if signed then 2 ^ (bits - 1) - 1 else 2 ^ bits - 1

/-- de.rs:231-271 `deserialize_i8` … `deserialize_u64`, and the range check of the visitor.  The methods for
128-bit integers are not defined here, and serde's default for them is an error. -/
def deInt (signed : Bool) (bits : Nat) : Reader := fun ts =>
  if 64 < bits then .err
  else
    let (t, ts) := nextToken ts
    match (if signed then Schema.parseI64 t.text else (parseUsize t.text).map Int.ofNat) with
    | some n => if intMin signed bits ≤ n ∧ n ≤ intMax signed bits then .ok (.int n, ts) else .err
    | none => .err

/-- de.rs:286-298 `deserialize_char`. -/
def deChar : Reader := fun ts =>
  let (t, ts) := nextToken ts
  match (if t.kind = .quotedScalar then unescape t.text else t.text) with
  | c :: _ => .ok (.char c, ts)
  | [] => .err

/-- `u8::from_str_radix(…, 16)` (Rust core) of two characters, the first of which may be a plus sign. -/
def hexByte (a b : Char) : Option UInt8 :=
  if a = '+' then if isHexDigit b then some (UInt8.ofNat (hexVal b)) else none
  else if isHexDigit a && isHexDigit b then some (UInt8.ofNat (16 * hexVal a + hexVal b)) else none

/-- de.rs:330-336: two characters at a time; a last single one is dropped. -/
def hexBytes : List Char → Option (List UInt8)
  | a :: b :: s => (hexByte a b).bind fun x => (hexBytes s).map (x :: ·)
  | _ => some []

/-- de.rs:321-338 `deserialize_bytes`. -/
def deBytes : Reader := fun ts =>
  let (t, ts) := nextToken ts
  match (if t.kind = .quotedScalar then sliceBytes t.text 1 (utf8Len t.text - 1) else some t.text) with
  | none => .panic
  | some text => match hexBytes text with
    | some bs => .ok (.bytes bs, ts)
    | none => .err

/-- de.rs:367-374 `deserialize_unit`. -/
def deUnit : Reader := fun ts =>
  let (t, ts) := nextToken ts
  if t.kind = .at then .ok (.unit, ts) else .err

/-- de.rs:344-365 `deserialize_option`.  Where the code puts the `@` back, it forgets the word after it. -/
def deOption (elem : Reader) : Reader := fun ts =>
  let whole := fun ts => (elem ts).map fun (d, ts) => (Data.some d, ts)
  match ts with
  | t :: r =>
    if t.kind = .at then
      match r with
      | n :: r' =>
        if n.kind = .bareScalar ∧ n.start = t.stop then whole (⟨.at, t.start, t.stop, ['@']⟩ :: r')
        else .ok (.none, r)
      | [] => .ok (.none, r)
    else whole ts
  | [] => whole ts

/-- de.rs:554-572 `next_element_seed`. -/
def nextElement (elem : Reader) (ts : List Token) : Out (Option Data × List Token) :=
  match skipComma ts with
  | [] => .err
  | t :: r =>
    if t.kind = .rparen then .ok (none, r)
    else (elem (t :: r)).map fun (d, ts) => (some d, ts)

/-- The visitor of a vector: elements until there are no more. -/
def seqLoop (elem : Reader) : Nat → List Data → Reader
  | 0, _, _ => .stuck
  | n + 1, acc, ts => (nextElement elem ts).bind fun
    | (none, ts) => .ok (.seq acc, ts)
    | (some d, ts) => seqLoop elem n (acc ++ [d]) ts

/-- de.rs:392-411 `deserialize_seq`, `deserialize_tuple` and `deserialize_tuple_struct`, up to the visitor. -/
def openSeq (visit : Reader) : Reader := fun ts =>
  let (t, ts) := nextToken ts
  if t.kind = .lparen then visit ts else .err

/-- de.rs:582-611 `next_key_seed`, for a key read with `deserialize_str` or `deserialize_identifier` (de.rs:471-481:
the same for the tokens that come into question). -/
def nextKey : Bool → List Token → Out (Option (List Char) × List Token)
  | _, [] => .ok (none, [])
  | comma, t :: r =>
    if comma && t.kind == .comma then nextKey false r
    else match t.kind with
      | .rbrace => .ok (none, r)
      | .bareScalar => .ok (some t.text, r)
      | .quotedScalar => .ok (some (unescape t.text), r)
      | .docComment => nextKey true r
      | _ => .err

/-- The visitor of a map with string keys.  (Of two entries with the same key, a map keeps the later one.) -/
def mapLoop (elem : Reader) : Nat → List Field → Reader
  | 0, _, _ => .stuck
  | n + 1, acc, ts => (nextKey true ts).bind fun
    | (none, ts) => .ok (.fields acc, ts)
    | (some k, ts) => (elem ts).bind fun (d, ts) =>
      mapLoop elem n (acc.filter (fun f => f.key != k) ++ [.mk k d]) ts

/-- de.rs:413-441 `deserialize_map` and `deserialize_struct`, up to the visitor: an opening brace is optional. -/
def openMap (visit : Reader) : Reader := fun ts =>
  match ts with
  | t :: r => if t.kind = .lbrace then visit r else visit ts
  | [] => visit ts

/-- de.rs:494-505 and 506-517: up to the closing bracket. -/
def skipTo (opening closing : TokenKind) : Nat → List Token → List Token
  | 0, ts => ts
  | _ + 1, [] => []
  | d + 1, t :: ts =>
    if t.kind = opening then skipTo opening closing (d + 2) ts
    else if t.kind = closing then skipTo opening closing d ts
    else skipTo opening closing (d + 1) ts

/-- de.rs:491-543 `skip_value`. -/
def skipValue : List Token → List Token
  | [] => []
  | t :: ts =>
    match t.kind with
    | .lbrace => skipTo .lbrace .rbrace 1 ts
    | .lparen => skipTo .lparen .rparen 1 ts
    | .at =>
      match ts with
      | n :: m :: r =>
        if n.kind = .bareScalar then
          if m.kind = .rbrace ∨ m.kind = .rparen ∨ m.kind = .comma then m :: r else skipValue (m :: r)
        else n :: m :: r
      | [n] => if n.kind = .bareScalar then [] else [n]
      | [] => []
    | _ => ts

/-- The value of a field that was read. -/
def fieldData (name : List Char) : List Field → Option Data
  | [] => none
  | .mk k d :: fs => if k = name then some d else fieldData name fs

/-- The derived code, after the last field: a missing optional field is `None`, any other is an error. -/
def finishFields : Fields → List Field → Option (List Field)
  | .nil, _ => some []
  | .cons name t rest, acc =>
    match fieldData name acc, t with
    | some d, _ => (finishFields rest acc).map (.mk name d :: ·)
    | none, .option _ => (finishFields rest acc).map (.mk name .none :: ·)
    | none, _ => none

/-- The derived visitor of a struct: unknown fields are skipped (de.rs:483-487 `deserialize_ignored_any`), a
repeated field is an error. -/
def structLoop (field : List Char → Option Reader) (fields : Fields) : Nat → List Field → Reader
  | 0, _, _ => .stuck
  | n + 1, acc, ts => (nextKey true ts).bind fun
    | (none, ts) => match finishFields fields acc with
      | some fs => .ok (.fields fs, ts)
      | none => .err
    | (some k, ts) => match field k with
      | some elem =>
        if (fieldData k acc).isSome then .err
        else (elem ts).bind fun (d, ts) => structLoop field fields n (acc ++ [.mk k d]) ts
      | none => structLoop field fields n acc (skipValue ts)

/-- de.rs:443-469 `deserialize_enum`, and 631-637 `variant_seed`. -/
def deEnum (variant : List Char → Option Reader) : Reader := fun ts =>
  let (t, ts) := nextToken ts
  let visit := fun name ts => match variant name with
    | some r => r ts
    | none => .err
  if t.kind = .at then
    let (n, ts) := nextToken ts
    if n.kind = .bareScalar then visit n.text ts else .err
  else if t.kind = .bareScalar then visit t.text ts
  else .err

mutual
/-- `T::deserialize` for the type `T`. -/
def de : Ty → Reader
  | .unit => deUnit
  | .bool => deBool
  | .int signed bits => deInt signed bits
  | .char => deChar
  | .str => fun ts => (readStr ts).map fun (s, ts) => (.str s, ts)
  | .bytes => deBytes
  | .option t => deOption (de t)
  | .seq t => openSeq fun ts => seqLoop (de t) (ts.length + 1) [] ts
  | .map t => openMap fun ts => mapLoop (de t) (ts.length + 1) [] ts
  | .struct fs => openMap fun ts => structLoop (deField fs) fs (ts.length + 1) [] ts
  | .tuple ts => openSeq fun toks => (deTuple ts toks).map fun (ds, toks) => (.seq ds, toks)
  | .enum vs => deEnum (deVariant vs)
/-- The reader for the field with a name. -/
def deField : Fields → List Char → Option Reader
  | .nil, _ => none
  | .cons name t rest, k => if k = name then some (de t) else deField rest k
/-- The visitor of a tuple: one element for each component.  It does not look for the closing parenthesis. -/
def deTuple : Tys → List Token → Out (List Data × List Token)
  | .nil, ts => .ok ([], ts)
  | .cons t rest, ts => (nextElement (de t) ts).bind fun
    | (none, _) => .err
    | (some d, ts) => (deTuple rest ts).map fun (ds, ts) => (d :: ds, ts)
/-- The reader for the variant with a name. -/
def deVariant : Variants → List Char → Option Reader
  | .nil, _ => none
  | .cons name s rest, k => if k = name then some (deShape name s) else deVariant rest k
/-- de.rs:645-671 `unit_variant`, `newtype_variant_seed`, `tuple_variant` and `struct_variant`. -/
def deShape (name : List Char) : Shape → Reader
  | .unit => fun ts => .ok (.unitVariant name, ts)
  | .newtype t => fun ts => (de t ts).map fun (d, ts) => (.newtypeVariant name d, ts)
  | .tuple ts => fun toks => (openSeq (fun toks => (deTuple ts toks).map fun (ds, toks) => (.seq ds, toks)) toks).map
      fun
        | (.seq ds, toks) => (.tupleVariant name ds, toks)
        | x => x
  | .struct fs => fun toks => (openMap (fun ts => structLoop (deField fs) fs (ts.length + 1) [] ts) toks).map
      fun
        | (.fields ds, toks) => (.structVariant name ds, toks)
        | x => x
end

/-- lib.rs:70-76 `from_str`: what follows the value is not looked at. -/
def fromStyx (t : Ty) (s : List Char) : Out Data := (de t (significant s)).map (·.1)

end Styx.Serde
