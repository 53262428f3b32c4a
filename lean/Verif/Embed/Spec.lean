import Verif.Embed.Model

/-!
# Specification: embedded schemas

Uses the magic bytes and UTF-8 of the model and none of its readers.
-/

namespace Styx.Embed

/-- What is assumed of LZ4 and BLAKE3: decompression undoes compression and hashes have 32 bytes. -/
structure Lawful (C : Codec) : Prop where
  undo : ∀ b, C.decompress (C.compress b) = some b
  size : ∀ b, (C.hash b).length = 32

/-- `n` in little-endian order. -/
def LittleEndian : Bytes → Nat → Prop
  | [], n => n = 0
  | b :: bs, n => ∃ m, LittleEndian bs m ∧ n = b.toNat + 256 * m

/-- `bytes` is the record of `schema`: the length of its text, the length of its compressed text (both
four bytes, little-endian), the hash of its text, its compressed text. -/
def RecordOf (C : Codec) (schema : List Char) (bytes : Bytes) : Prop :=
  ∃ (len clen hash comp : Bytes), bytes = len ++ clen ++ hash ++ comp ∧
    len.length = 4 ∧ LittleEndian len (encode schema).length ∧
    clen.length = 4 ∧ LittleEndian clen comp.length ∧
    hash = C.hash (encode schema) ∧ hash.length = 32 ∧ C.decompress comp = some (encode schema)

/-- `data` has a record of `schema` somewhere after the magic bytes of the second format. -/
def EmbeddedV2 (C : Codec) (data : Bytes) (schema : List Char) : Prop :=
  ∃ pre rec post, data = pre ++ magicV2 ++ rec ++ post ∧ RecordOf C schema rec

/-- `data` has the magic bytes of the first format, a count and that many records, one of which is a
record of `schema`. -/
def EmbeddedV1 (C : Codec) (data : Bytes) (schema : List Char) : Prop :=
  ∃ (pre count post : Bytes) (recs : List (List Char × Bytes)),
    data = pre ++ magicV1 ++ count ++ recs.flatMap (·.2) ++ post ∧
    count.length = 2 ∧ LittleEndian count recs.length ∧ (∀ r ∈ recs, RecordOf C r.1 r.2) ∧
    schema ∈ recs.map (·.1)

/-- The magic bytes stand at position `i`. -/
def OccursAt (magic data : Bytes) (i : Nat) : Prop :=
  ∃ pre post, data = pre ++ magic ++ post ∧ pre.length = i

/-- The positions at which the pieces `before ++ blob` of a binary start their blobs, the first
piece standing at `at_`. -/
def blobStarts (C : Codec) : Nat → List (Bytes × List Char) → List Nat
  | _, [] => []
  | at_, (before, s) :: rest =>
    (at_ + before.length) :: blobStarts C (at_ + before.length + (buildBlob C s).length) rest

/-- A binary: blobs with arbitrary bytes before each and at the end. -/
def binary (C : Codec) (pieces : List (Bytes × List Char)) (last : Bytes) : Bytes :=
  (pieces.flatMap fun p => p.1 ++ buildBlob C p.2) ++ last

end Styx.Embed
