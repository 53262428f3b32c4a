import Verif.Embed.Macros
import Verif.Cli.FilesSpec

/-!
# Specification: string literals of Rust, and programs with embedded schemas

String literals as in the Rust Reference (Tokens, Literal expressions), behind the removal of carriage returns before
line feeds, without suffixes.
-/

namespace Styx.Spec

open Styx Styx.Embed

/-- A part of a string literal. -/
inductive LitPart where
  | plain (c : Char)
  /-- `\n` and the like. -/
  | simple (e : Char)
  /-- `\x41`. -/
  | ascii (high low : Char)
  /-- `\u{1F600}`: digits with underscores between them. -/
  | unicode (digits : List Char)
  /-- A backslash at the end of a line: the line break and all white space behind it are skipped. -/
  | skip (white : List Char)
  deriving DecidableEq

/-- How a part is written. -/
def LitPart.text : LitPart → List Char
  | .plain c => [c]
  | .simple e => ['\\', e]
  | .ascii h l => ['\\', 'x', h, l]
  | .unicode ds => '\\' :: 'u' :: '{' :: ds ++ ['}']
  | .skip white => '\\' :: '\n' :: white

/-- What the letter behind a backslash stands for. -/
def simpleValue (e : Char) : Option Char :=
  if e = 'n' then some '\n' else if e = 'r' then some '\r' else if e = 't' then some '\t' else if e = '\\' then some '\\'
  else if e = '0' then some '\x00' else if e = '\'' then some '\'' else if e = '"' then some '"' else none

/-- What a part denotes. -/
def LitPart.value : LitPart → List Char
  | .plain c => [c]
  | .simple e => (simpleValue e).toList
  | .ascii h l => (charFromU32 (hexNat [h, l])).toList
  | .unicode ds => (charFromU32 (hexNat (ds.filter (· ≠ '_')))).toList
  | .skip _ => []

/-- The parts that Rust allows. -/
def LitPart.Allowed : LitPart → Prop
  | .plain c => c ≠ '"' ∧ c ≠ '\\' ∧ c ≠ '\r'
  | .simple e => (simpleValue e).isSome
  | .ascii h l => isHexDigit h ∧ isHexDigit l ∧ hexNat [h, l] < 128
  | .unicode ds => (∀ d ∈ ds, isHexDigit d ∨ d = '_') ∧ ds.head? ≠ some '_' ∧ 1 ≤ (ds.filter (· ≠ '_')).length ∧
      (ds.filter (· ≠ '_')).length ≤ 6 ∧ (charFromU32 (hexNat (ds.filter (· ≠ '_')))).isSome
  | .skip white => ∀ c ∈ white, c = ' ' ∨ c = '\n' ∨ c = '\t'

/-- The literal `"…"` with these parts. -/
def quotedLiteral (ps : List LitPart) : List Char := '"' :: ps.flatMap LitPart.text ++ ['"']

/-- The string it denotes. -/
def denoted (ps : List LitPart) : List Char := ps.flatMap LitPart.value

/-- The literal `r#"…"#` with so many `#`. -/
def rawLiteral (hashes : Nat) (body : List Char) : List Char :=
  'r' :: List.replicate hashes '#' ++ '"' :: body ++ '"' :: List.replicate hashes '#'

/-- Parts that are written with one of `\n`, `\r`, `\t`, `\\`, `\"`, `\0`, or without a backslash. -/
def LitPart.Basic : LitPart → Prop
  | .plain _ => True
  | .simple e => e ≠ '\''
  | _ => False

/-- A program in which the linker has placed the statics of these schemas, with any bytes before each and at the end. -/
inductive Linked (C : Codec) : List (List Char) → Bytes → Prop
  | nil (last : Bytes) : Linked C [] last
  | cons (before : Bytes) {s ss st bytes} : generateStatic C s = some (.ok st) → Linked C ss bytes →
      Linked C (s :: ss) (before ++ st.bytes ++ bytes)

end Styx.Spec
