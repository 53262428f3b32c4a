/-!
# Model of the extraction of embedded schemas

Source: crates/styx-embed/src/lib.rs.

* Data is a list of bytes.  LZ4 and BLAKE3 are parameters (`Codec`).
* UTF-8 is Lean's own (`String.utf8EncodeChar`, `ByteArray.utf8Decode?`).
* Slices and indices out of range are the outcome `panic`.
* `usize` is unbounded in the functions that add 32-bit lengths to positions inside the data; where
  64-bit values are read from object files (`find_elf_section`) additions wrap at 2⁶⁴.
* goblin's parsers of object files are parameters: only the section headers they return are used.
-/

namespace Styx.Embed

/-- A byte string. -/
abbrev Bytes := List UInt8

/-- `str::as_bytes`. -/
def encode (s : List Char) : Bytes := s.flatMap String.utf8EncodeChar

/-- `String::from_utf8`, lib.rs:230, 288. -/
def decode (b : Bytes) : Option (List Char) := (ByteArray.mk b.toArray).utf8Decode?.map (·.toList)

/-- `lz4_flex::compress_prepend_size`, `lz4_flex::decompress_size_prepended` and `blake3::hash`. -/
structure Codec where
  compress : Bytes → Bytes
  decompress : Bytes → Option Bytes
  hash : Bytes → Bytes

/-- lib.rs:85 `MAGIC_V2`: `STYX_SCHEMA_V2\0\0`. -/
def magicV2 : Bytes := [83, 84, 89, 88, 95, 83, 67, 72, 69, 77, 65, 95, 86, 50, 0, 0]

/-- lib.rs:89 `MAGIC_V1`: `STYX_SCHEMAS_V1\0`. -/
def magicV1 : Bytes := [83, 84, 89, 88, 95, 83, 67, 72, 69, 77, 65, 83, 95, 86, 49, 0]

/-- lib.rs:92-104 `ExtractError`, and a panic. -/
inductive Fail where
  | panic | notFound | truncated | decompressFailed | hashMismatch | invalidUtf8
  deriving DecidableEq, Repr

/-- `u32::to_le_bytes` of `n as u32`. -/
def le32 (n : Nat) : Bytes :=
  [UInt8.ofNat n, UInt8.ofNat (n / 256), UInt8.ofNat (n / 65536), UInt8.ofNat (n / 16777216)]

/-- `u16::to_le_bytes` of `n as u16`. -/
def le16 (n : Nat) : Bytes := [UInt8.ofNat n, UInt8.ofNat (n / 256)]

/-- lib.rs:121-133 `compress_schema`, also 136-138 `build_embedded_blob`. -/
def buildBlob (C : Codec) (schema : List Char) : Bytes :=
  let decompressed := encode schema
  let hash := C.hash decompressed
  let compressed := C.compress decompressed
  magicV2 ++ le32 decompressed.length ++ le32 compressed.length ++ hash ++ compressed

/-- `data[i]`. -/
def byteAt (data : Bytes) (i : Nat) : Except Fail UInt8 :=
  match data[i]? with
  | some b => .ok b
  | none => .error .panic

/-- `&data[a..b]`. -/
def slice (data : Bytes) (a b : Nat) : Except Fail Bytes :=
  if a ≤ b ∧ b ≤ data.length then .ok ((data.drop a).take (b - a)) else .error .panic

/-- `u32::from_le_bytes([data[pos], data[pos + 1], data[pos + 2], data[pos + 3]]) as usize`,
lib.rs:195-201, 252-258. -/
def readU32 (data : Bytes) (pos : Nat) : Except Fail Nat := do
  let a ← byteAt data pos
  let b ← byteAt data (pos + 1)
  let c ← byteAt data (pos + 2)
  let d ← byteAt data (pos + 3)
  .ok (a.toNat + 256 * b.toNat + 65536 * c.toNat + 16777216 * d.toNat)

/-- `u16::from_le_bytes([data[pos], data[pos + 1]]) as usize`, lib.rs:241. -/
def readU16 (data : Bytes) (pos : Nat) : Except Fail Nat := do
  let a ← byteAt data pos
  let b ← byteAt data (pos + 1)
  .ok (a.toNat + 256 * b.toNat)

/-- lib.rs:190-230: a header and its data at `pos`; returns the schema and the position after it.
The same code is written a second time at 247-288 (where the position is used). -/
def readRecord (C : Codec) (data : Bytes) (pos : Nat) : Except Fail (List Char × Nat) := do
  if pos + 40 > data.length then .error .truncated
  else
    let decompressedLen ← readU32 data pos
    let compressedLen ← readU32 data (pos + 4)
    let expectedHash ← slice data (pos + 8) (pos + 8 + 32)
    if pos + 40 + compressedLen > data.length then .error .truncated
    else
      let compressed ← slice data (pos + 40) (pos + 40 + compressedLen)
      match C.decompress compressed with
      | none => .error .decompressFailed
      | some decompressed =>
        if decompressed.length ≠ decompressedLen then .error .decompressFailed
        else if C.hash decompressed ≠ expectedHash then .error .hashMismatch
        else match decode decompressed with
          | none => .error .invalidUtf8
          | some s => .ok (s, pos + 40 + compressedLen)

/-- lib.rs:187-231 `try_extract_v2_at`. -/
def tryExtractV2 (C : Codec) (data : Bytes) (magicPos : Nat) : Except Fail (List Char) := do
  let r ← readRecord C data (magicPos + magicV2.length)
  .ok r.1

/-- lib.rs:246-290: the loop of `try_extract_v1_at`. -/
def readRecords (C : Codec) (data : Bytes) : Nat → Nat → Except Fail (List (List Char))
  | 0, _ => .ok []
  | count + 1, pos => do
    let r ← readRecord C data pos
    let rest ← readRecords C data count r.2
    .ok (r.1 :: rest)

/-- lib.rs:234-293 `try_extract_v1_at`. -/
def tryExtractV1 (C : Codec) (data : Bytes) (magicPos : Nat) : Except Fail (List (List Char)) := do
  let pos := magicPos + magicV1.length
  if pos + 2 > data.length then .error .truncated
  else
    let count ← readU16 data pos
    readRecords C data count (pos + 2)

/-- `windows(n).position(|w| w == magic)`, lib.rs:300-303: the number of bytes skipped. -/
def windowsPosition (magic : Bytes) : Bytes → Option Nat
  | [] => if magic.length = 0 then some 0 else none
  | b :: bs =>
    if (b :: bs).length < magic.length then none
    else if (b :: bs).take magic.length = magic then some 0
    else (windowsPosition magic bs).map (· + 1)

/-- lib.rs:296-304 `find_magic_from`. -/
def findMagic (data : Bytes) (start : Nat) (magic : Bytes) : Option Nat :=
  if data.length ≤ start then none
  else (windowsPosition magic (data.drop start)).map (start + ·)

/-- lib.rs:151-163 and 166-177: the search loop, with `extract` the reader for this magic.  `none`
when the fuel runs out; `Except.error` for a panic inside the reader (other errors are skipped). -/
def scan {α : Type} (data : Bytes) (magic : Bytes) (extract : Nat → Except Fail α) :
    Nat → Nat → Option (Except Fail (List α))
  | 0, _ => none
  | fuel + 1, start => match findMagic data start magic with
    | none => some (.ok [])
    | some pos => match extract pos with
      | .ok x => (scan data magic extract fuel (pos + magic.length)).map fun r => r.map (x :: ·)
      | .error .panic => some (.error .panic)
      | .error _ => scan data magic extract fuel (pos + 1)

/-- lib.rs:146-184 `extract_schemas`. -/
def extractSchemas (C : Codec) (data : Bytes) (fuel : Nat) : Option (Except Fail (List (List Char))) :=
  (scan data magicV2 (tryExtractV2 C data) fuel 0).bind fun v2 =>
  match v2 with
  | .error e => some (.error e)
  | .ok s2 => (scan data magicV1 (tryExtractV1 C data) fuel 0).map fun v1 =>
    match v1 with
    | .error e => .error e
    | .ok s1 =>
      let schemas := s2 ++ s1.flatten
      if schemas.isEmpty then .error .notFound else .ok schemas

/-- A section header as read by goblin: `sh_offset` and `sh_size` are `u64` (goblin's `SectionHeader`),
`as usize` on a 64-bit target. -/
structure Section where
  name : Option (List Char)
  offset : UInt64
  size : UInt64

/-- `start + size <= data.len()` and `&data[start..start + size]`, lib.rs:356-360, in a build
without overflow checks: the sum wraps.  With overflow checks it panics instead (`checked`). -/
def sectionData (checked : Bool) (data : Bytes) (s : Section) : Except Fail (Option Bytes) :=
  if checked && s.offset.toNat + s.size.toNat ≥ 2 ^ 64 then .error .panic
  else
    let stop := (s.offset + s.size).toNat
    if stop ≤ data.length then (slice data s.offset.toNat stop).map some else .ok none

/-- lib.rs:351-364 `find_elf_section`: the first section of that name that fits. -/
def findElfSection (checked : Bool) (data : Bytes) (name : List Char) :
    List Section → Except Fail (Option Bytes)
  | [] => .ok none
  | s :: ss =>
    if s.name = some name then do
      match ← sectionData checked data s with
      | some d => .ok (some d)
      | none => findElfSection checked data name ss
    else findElfSection checked data name ss

/-- lib.rs:323-348 `extract_schemas_from_object`, for ELF files with the section headers `ss` or data
that is no object file (`none`).  The other formats do the same with other names. -/
def extractFromObject (C : Codec) (checked : Bool) (name : List Char) (object : Option (List Section))
    (data : Bytes) (fuel : Nat) : Option (Except Fail (List (List Char))) :=
  match object with
  | none => extractSchemas C data fuel
  | some ss => match findElfSection checked data name ss with
    | .error e => some (.error e)
    | .ok (some d) => extractSchemas C d fuel
    | .ok none => extractSchemas C data fuel

end Styx.Embed
