import Verif.Format.Writer
import Verif.Tree.Value

/-!
# Model of the value formatter

Source: crates/styx-format/src/value_format.rs.
-/

namespace Styx

/-- value_format.rs:170-204 `format_key`; `none` is the panic for a sequence or object. -/
def formatKey : Value → Option (List Char)
  | .mk tag payload _ =>
    let pre : List Char := match tag with
      | some t => '@' :: t.name
      | none => []
    match payload with
    | none => some (if tag.isNone then ['@'] else pre)
    | some (.scalar s _ _) => some (pre ++ keyText s)
    | some _ => none

/-- value_format.rs:125-137: is the value a sequence or object (with or without tag)? -/
def Value.nested : Value → Bool
  | .mk _ (some (.object ..)) _ => true
  | .mk _ (some (.sequence ..)) _ => true
  | _ => false

/-- The value of an entry. -/
def Entry.val : Entry → Value
  | .mk _ v _ => v

/-- value_format.rs:125-137: objects with more than two entries or nested values are multi-line. -/
def objectMultiline (es : List Entry) : Bool := 2 < es.length || es.any fun e => e.val.nested

mutual
/-- value_format.rs:69-105 `format_value`, with `format_sequence_inner` (107-117) and `format_object_inner`
(123-146) for the payload. -/
def Writer.formatValue (w : Writer) : Value → Writer
  | .mk tag payload _ =>
    let w' := match tag with
      | some t => w.writeTag t.name
      | none => w
    match payload with
    | none => if tag.isNone then w'.emit ['@'] else w'
    | some (.scalar s _ _) =>
      if tag.isSome then (w'.beginSeqAfterTag.writeString s).endSeq.2 else w'.writeString s
    | some (.sequence items _) =>
      (Writer.formatItems (if tag.isSome then w'.beginSeqAfterTag else w'.beginSeq) items).endSeq.2
    | some (.object es _) =>
      (Writer.formatEntries (if tag.isSome then w'.beginStructAfterTag (objectMultiline es)
        else w'.beginStruct false (objectMultiline es)) es).endStruct.2

/-- value_format.rs:113-115: the items of a sequence. -/
def Writer.formatItems (w : Writer) : List Value → Writer
  | [] => w
  | v :: vs => Writer.formatItems (Writer.formatValue w v) vs

/-- value_format.rs:148-152 `format_object_entries` and 154-166 `format_entry`. -/
def Writer.formatEntries (w : Writer) : List Entry → Writer
  | [] => w
  | .mk key v doc :: es =>
    match formatKey key with
    | none => { w with panicked := true }
    | some k =>
      let w' := match doc with
        | some d => w.docKeyRaw d k
        | none => (w.fieldKeyRaw k).2
      Writer.formatEntries (Writer.formatValue w' v) es
end

/-- value_format.rs:54-67 `format_root`. -/
def Writer.formatRoot (w : Writer) : Value → Writer
  | .mk none (some (.object es _)) _ => (Writer.formatEntries (w.beginStruct true false) es).endStruct.2
  | v => w.formatValue v

/-- value_format.rs:11-15 `format_value`; `none` is a panic. -/
def formatDocument (o : FormatOptions) (v : Value) : Option (List Char) :=
  let w := Writer.formatRoot { options := o } v
  if w.panicked then none else some w.finishDocument

/-- value_format.rs:26-30 `format_object_braced`; `none` is a panic. -/
def formatObjectBraced (o : FormatOptions) (es : List Entry) : Option (List Char) :=
  let w := Writer.formatValue { options := o } (.mk none (some (.object es none)) none)
  if w.panicked then none else some w.out

end Styx
