import Verif.Embed.Model
import Verif.Cli.Files

/-!
# Model of the macros that embed schemas

Source: crates/styx-embed-macros/src/lib.rs.

The macros turn a schema into the declaration of a static: a symbol and an array of bytes.  Simplifications: a literal is
its text in the source, which is what `Literal::to_string` gives; lengths are counted in characters, where the code counts
bytes, but only characters of one byte are skipped; messages and the tokens of the declaration are left out.  BLAKE3
and LZ4 are parameters (`Codec`).
-/

namespace Styx.Embed

open Styx

/-- lib.rs:132-141: what the character behind a backslash is replaced by. -/
def literalEscape (c : Char) : List Char :=
  if c = 'n' then ['\n'] else if c = 'r' then ['\r'] else if c = 't' then ['\t'] else if c = '\\' then ['\\']
  else if c = '"' then ['"'] else if c = '0' then ['\x00'] else ['\\', c]

/-- lib.rs:126-146: the loop over a string literal. -/
def unescapeLiteral : List Char → List Char
  | [] => []
  | [c] => [c]
  | c :: d :: cs => if c = '\\' then literalEscape d ++ unescapeLiteral cs else c :: unescapeLiteral (d :: cs)

/-- lib.rs:106-151 `parse_string_literal`. -/
def parseStringLiteral (s : List Char) : Option (List Char) :=
  let hashes := (s.tail.takeWhile (· = '#')).length
  if s.head? = some 'r' ∧ s.tail.length ≥ (hashes + 1) + (1 + hashes) then
    some ((s.tail.drop (hashes + 1)).take (s.tail.length - (hashes + 1) - (1 + hashes)))
  else if s.head? = some '"' ∧ s.getLast? = some '"' ∧ s.length ≥ 2 then
    some (unescapeLiteral (s.tail.take (s.length - 2)))
  else none

/-- lib.rs:21-47 `extract_schema_id`; `none` if the parser panics. -/
def extractSchemaId (schema : List Char) : Option (Except Unit (List Char)) :=
  match parseTree schema with
  | none => none
  | some (.error _) => some (.error ())
  | some (.ok v) =>
    match v.asObject with
    | none => some (.error ())
    | some es =>
      match objGet es (chars! "meta") with
      | none => some (.error ())
      | some m =>
        match m.asObject with
        | none => some (.error ())
        | some ms =>
          match objGet ms (chars! "id") with
          | none => some (.error ())
          | some i =>
            match i.asStr with
            | some s => some (.ok s)
            | none => some (.error ())

/-- lib.rs:51-65 `sanitize_id`. -/
def sanitizeId (id : List Char) : List Char :=
  let result := id.map fun c => if c.isAlphanum then c else '_'
  if (result.head?.map Char.isDigit).getD false then '_' :: result else result

/-- `{:02x}`. -/
def hexByte (b : UInt8) : List Char :=
  [Nat.digitChar (b.toNat / 16), Nat.digitChar (b.toNat % 16)]

/-- lib.rs:71-79 `id_to_symbol_suffix`. -/
def symbolSuffix (C : Codec) (id : List Char) : List Char :=
  sanitizeId id ++ '_' :: ((C.hash (encode id)).take 4).flatMap hexByte

/-- lib.rs:91-103 `build_embedded_blob`. -/
def macroBlob (C : Codec) (schema : List Char) : Bytes :=
  let decompressed := encode schema
  let hash := C.hash decompressed
  let compressed := C.compress decompressed
  magicV2 ++ le32 decompressed.length ++ le32 compressed.length ++ hash ++ compressed

/-- The declaration that a macro makes. -/
structure Static where
  symbol : List Char
  bytes : Bytes
  deriving DecidableEq

/-- lib.rs:153-190 `generate_static`. -/
def generateStatic (C : Codec) (schema : List Char) : Option (Except Unit Static) :=
  match extractSchemaId schema with
  | none => none
  | some (.error e) => some (.error e)
  | some (.ok id) => some (.ok ⟨chars! "__STYX_SCHEMA_" ++ symbolSuffix C id, macroBlob C schema⟩)

/-- lib.rs:202-229 `embed_inline` on a literal. -/
def embedInline (C : Codec) (literal : List Char) : Option (Except Unit Static) :=
  match parseStringLiteral literal with
  | none => some (.error ())
  | some schema => generateStatic C schema

end Styx.Embed
