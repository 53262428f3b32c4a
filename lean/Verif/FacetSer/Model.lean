import Verif.Format.Writer

/-!
# Model of the serializer of facet-styx

Source: crates/facet-styx/src/serializer.rs.  The traversal of a Rust value is done by the crate facet-format, which
calls the methods of the trait `FormatSerializer`; the model is the two implementations of this trait, for any
sequence of calls.

Simplifications: the values of `ScalarValue` come with the text that the standard library prints for booleans and
numbers; the reflection that finds doc comments, tags and names in metadata containers (`extract_field_key`,
`extract_name_and_tag`, `serialize_metadata_container`) is done by the caller, who gives the result.
-/

namespace Styx.FacetSer

/-- `ScalarValue`: a unit or null; a boolean or number with its text; a string or character; bytes. -/
inductive Scalar where
  | unit
  | text (s : List Char)
  | str (s : List Char)
  | bytes (bs : List UInt8)
  deriving DecidableEq, Repr

/-- The calls of `FormatSerializer`.  `docKey` is `field_metadata_with_value` (serializer.rs:474-524) for a
metadata container with doc comments. -/
inductive Call where
  | beginStruct
  | fieldKey (key : List Char)
  | emitKey (tag name : Option (List Char)) (doc : List (List Char))
  | docKey (doc : List (List Char)) (name : List Char)
  | endStruct
  | beginSeq
  | endSeq
  | scalar (s : Scalar)
  | none
  | variantTag (name : List Char)
  | structAfterTag
  | seqAfterTag
  | finishTag
  | raw (content : List Char)
  deriving DecidableEq, Repr

/-- serializer.rs:187-193 `StyxSerializer` and 638-641 `CompactStyxSerializer`, which has no `at_root`. -/
structure Ser where
  writer : Writer
  atRoot : Bool
  tag : Bool

/-- serializer.rs:202-208 and 644-649 `with_options`; the compact serializer is never at the root. -/
def Ser.new (o : FormatOptions) (compact : Bool) : Ser := ⟨{ options := o }, !compact, false⟩

/-- `doc_lines.join("\n")`. -/
def joinLines : List (List Char) → List Char
  | [] => []
  | [l] => l
  | l :: ls => l ++ '\n' :: joinLines ls

/-- serializer.rs:259-264, 277-281 and 304: the text of a key that is not a plain name. -/
def rawKey : Option (List Char) → Option (List Char) → List Char
  | some tag, some name => '@' :: tag ++ '"' :: name ++ ['"']
  | some tag, none => '@' :: tag
  | none, _ => ['@']

/-- serializer.rs:350-367 and 696-714: writing a scalar. -/
def writeScalar (w : Writer) : Scalar → Writer
  | .unit => w.writeText ['@']
  | .text s => w.writeText s
  | .str s => w.writeString s
  | .bytes bs => w.writeBytes bs

/-- One call; `none` is an error.  serializer.rs:225-431 and 474-524; 660-755 for the compact serializer, where
the calls with `at_root` are the same with `false`.  (It does not override `emit_field_key`, `raw_scalar` and
`field_metadata_with_value`; the theorems about it do not use these calls.) -/
def Ser.call (s : Ser) : Call → Option Ser
  -- serializer.rs:225-233
  | .beginStruct => some ⟨s.writer.clearSkip.beginStruct s.atRoot false, false, false⟩
  -- serializer.rs:235-240
  | .fieldKey key =>
    let (ok, w) := s.writer.clearSkip.fieldKey key
    if ok then some ⟨w, s.atRoot, false⟩ else none
  -- serializer.rs:242-317
  | .emitKey tag name doc =>
    let w := s.writer.clearSkip
    match tag, name with
    | none, some name =>
      if doc.isEmpty then
        let (ok, w) := w.fieldKey name
        if ok then some ⟨w, s.atRoot, false⟩ else none
      else some ⟨w.docKey (joinLines doc) name, s.atRoot, false⟩
    | tag, name =>
      if doc.isEmpty then
        let (ok, w) := w.fieldKeyRaw (rawKey tag name)
        if ok then some ⟨w, s.atRoot, false⟩ else none
      else some ⟨w.docKeyRaw (joinLines doc) (rawKey tag name), s.atRoot, false⟩
  -- serializer.rs:511-515
  | .docKey doc name => some { s with writer := s.writer.docKey (joinLines doc) name }
  -- serializer.rs:319-322
  | .endStruct =>
    let (ok, w) := s.writer.endStruct
    if ok then some { s with writer := w } else none
  -- serializer.rs:324-331
  | .beginSeq => some ⟨s.writer.clearSkip.beginSeq, false, false⟩
  -- serializer.rs:333-336
  | .endSeq =>
    let (ok, w) := s.writer.endSeq
    if ok then some { s with writer := w } else none
  -- serializer.rs:338-368
  | .scalar v =>
    if s.tag && v == .unit then some ⟨s.writer.clearSkip, false, false⟩
    else some ⟨writeScalar s.writer v, false, false⟩
  -- serializer.rs:370-382
  | .none =>
    if s.tag then some ⟨s.writer.clearSkip, s.atRoot, false⟩ else some ⟨s.writer.writeText ['@'], false, s.tag⟩
  -- serializer.rs:384-394
  | .variantTag name =>
    some ⟨if s.tag then s.writer.writeTagChain name else s.writer.writeTag name, false, true⟩
  -- serializer.rs:396-401
  | .structAfterTag => some ⟨s.writer.beginStructAfterTag false, s.atRoot, false⟩
  -- serializer.rs:403-408
  | .seqAfterTag => some ⟨s.writer.beginSeqAfterTag, s.atRoot, false⟩
  -- serializer.rs:410-417
  | .finishTag => some ⟨s.writer.clearSkip, s.atRoot, false⟩
  -- serializer.rs:423-431
  | .raw content => some ⟨s.writer.beforeValue.emit content, false, false⟩

/-- All calls of a list. -/
def Ser.calls (s : Ser) : List Call → Option Ser
  | [] => some s
  | c :: cs => (s.call c).bind (Ser.calls · cs)

/-- serializer.rs:588-599 `to_string_with_options` (also 553-558, 602-617) with the calls made for the value;
`none` is an error or a panic. -/
def toString (o : FormatOptions) (cs : List Call) : Option (List Char) :=
  match (Ser.new o false).calls cs with
  | some s => if s.writer.panicked then none else some s.writer.finishDocument
  | none => none

/-- serializer.rs:575-585 `to_string_compact` and 623-631 `peek_to_string_expr`. -/
def toCompact (cs : List Call) : Option (List Char) :=
  match (Ser.new { forceStyle := .inline } true).calls cs with
  | some s => if s.writer.panicked then none else some s.writer.out
  | none => none

end Styx.FacetSer
