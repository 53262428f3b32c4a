import Verif.Format.Writer

/-!
# Specification: which calls of the writer fail

`Call` lists the calls of the writer; `opened` says which structs and sequences are open after a list of calls,
innermost first.  It does not refer to the writer.
-/

namespace Styx.Spec

/-- A struct or a sequence. -/
inductive Open where
  | struct | seq
  deriving DecidableEq, Repr

/-- The calls of the writer. -/
inductive Call where
  | beginStruct (isRoot forceMultiline : Bool)
  | beginStructAfterTag (forceMultiline : Bool)
  | endStruct
  | beginSeq
  | beginSeqAfterTag
  | endSeq
  | fieldKey (key : List Char)
  | fieldKeyRaw (key : List Char)
  | docKey (doc key : List Char)
  | docKeyRaw (doc key : List Char)
  | string (s : List Char)
  | text (s : List Char)
  | bytes (b : List UInt8)
  | tag (name : List Char)
  | tagChain (name : List Char)
  | clearSkip

/-- What is open after one more call: a begin opens, an end closes the innermost, even when it fails. -/
def openedStep (st : List Open) : Call → List Open
  | .beginStruct .. => .struct :: st
  | .beginStructAfterTag _ => .struct :: st
  | .beginSeq => .seq :: st
  | .beginSeqAfterTag => .seq :: st
  | .endStruct => st.tail
  | .endSeq => st.tail
  | _ => st

/-- What is open after a list of calls. -/
def opened (cs : List Call) : List Open := cs.foldl openedStep []

/-- The call has to fail: it ends a struct although the innermost open thing is not a struct, or a sequence
although it is not a sequence, or it gives a key outside a struct. -/
def MustFail (st : List Open) : Call → Prop
  | .endStruct => st.head? ≠ some .struct
  | .endSeq => st.head? ≠ some .seq
  | .fieldKey _ => st.head? ≠ some .struct
  | .fieldKeyRaw _ => st.head? ≠ some .struct
  | .docKey _ _ => st.head? ≠ some .struct
  | .docKeyRaw _ _ => st.head? ≠ some .struct
  | _ => False

/-- The call gives a key with a doc comment. -/
def Call.doc : Call → Bool
  | .docKey .. => true
  | .docKeyRaw .. => true
  | _ => false

/-- The call opens a struct with braces that need not be multi-line. -/
def Call.inlineStruct : Call → Bool
  | .beginStruct isRoot forceMultiline => !isRoot && !forceMultiline
  | .beginStructAfterTag forceMultiline => !forceMultiline
  | _ => false

end Styx.Spec

namespace Styx

/-- One call of the writer (writer.rs:185-797); the result is false for `Err`. -/
def Writer.call (w : Writer) : Spec.Call → Bool × Writer
  | .beginStruct r f => (true, w.beginStruct r f)
  | .beginStructAfterTag f => (true, w.beginStructAfterTag f)
  | .endStruct => w.endStruct
  | .beginSeq => (true, w.beginSeq)
  | .beginSeqAfterTag => (true, w.beginSeqAfterTag)
  | .endSeq => w.endSeq
  | .fieldKey k => w.fieldKey k
  | .fieldKeyRaw k => w.fieldKeyRaw k
  | .docKey d k => (true, w.docKey d k)
  | .docKeyRaw d k => (true, w.docKeyRaw d k)
  | .string s => (true, w.writeString s)
  | .text s => (true, w.writeText s)
  | .bytes b => (true, w.writeBytes b)
  | .tag n => (true, w.writeTag n)
  | .tagChain n => (true, w.writeTagChain n)
  | .clearSkip => (true, w.clearSkip)

/-- The writer after a list of calls, whose errors the caller ignores. -/
def Writer.calls (w : Writer) (cs : List Spec.Call) : Writer := cs.foldl (fun w c => (w.call c).2) w

end Styx
