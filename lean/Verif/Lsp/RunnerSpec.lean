import Verif.Basic

/-!
# Specification: a test file that marks the places of diagnostics

A test is written line by line; below a line, marks point at parts of it:

```text
from alisjdf
     ^^^^^^^ "table not found"
```
-/

namespace Styx.Spec

open Styx

/-- A mark: blanks, carets, blanks, a message in quotes if there is one, blanks. -/
structure CaretMark where
  indent : List Char
  width : Nat
  gap : List Char
  message : Option (List Char)
  trail : List Char

/-- The message as it is written. -/
def quoted : Option (List Char) → List Char
  | none => []
  | some m => '"' :: m ++ ['"']

/-- The mark as it is written. -/
def CaretMark.text (m : CaretMark) : List Char :=
  m.indent ++ List.replicate m.width '^' ++ m.gap ++ quoted m.message ++ m.trail

/-- The blanks are blanks, and there is a caret. -/
def CaretMark.Ok (m : CaretMark) : Prop :=
  (∀ c ∈ m.indent, isWhitespace c = true) ∧ (∀ c ∈ m.gap, isWhitespace c = true) ∧
  (∀ c ∈ m.trail, isWhitespace c = true) ∧ 1 ≤ m.width

/-- A line of the document and the marks below it. -/
structure Block where
  line : List Char
  marks : List CaretMark

/-- The line is a line of a document and cannot be taken for a mark, the marks are marks on one line each. -/
def Block.Ok (b : Block) : Prop :=
  '\n' ∉ b.line ∧ b.line.getLast? ≠ some '\r' ∧ (∀ m : CaretMark, m.Ok → b.line ≠ m.text) ∧
  ∀ m ∈ b.marks, m.Ok ∧ '\n' ∉ m.text ∧ m.text.getLast? ≠ some '\r'

/-- The input of the test. -/
def inputOf : List Block → List Char
  | [] => []
  | b :: bs => b.line ++ '\n' :: ((b.marks.map fun m => m.text ++ ['\n']).flatten ++ inputOf bs)

/-- The document of the test: its lines without the marks. -/
def documentOf : List Block → List Char
  | [] => []
  | [b] => b.line
  | b :: bs => b.line ++ '\n' :: documentOf bs

/-- The byte at which a line of the document starts. -/
def lineStart : List Block → Nat → Nat
  | _, 0 => 0
  | [], _ + 1 => 0
  | b :: bs, i + 1 => utf8Len b.line + 1 + lineStart bs i

/-- A mark points from one byte of the document to another. -/
def Points (bs : List Block) (m : CaretMark) (start stop : Nat) : Prop :=
  ∃ i b, bs[i]? = some b ∧ m ∈ b.marks ∧ start = lineStart bs i + utf8Len m.indent ∧
    stop = lineStart bs i + utf8Len m.indent + m.width

/-- The marks below a line are no longer than the line. -/
def OnLine (b : Block) : Prop := ∀ m ∈ b.marks, utf8Len m.indent + m.width ≤ utf8Len b.line

/-- The place is in line `i` of the document (the first is 0), from one byte of the line to another, its ends
between characters. -/
def AtLine (bs : List Block) (start stop i first last : Nat) : Prop :=
  ∃ b u v w, bs[i]? = some b ∧ b.line = u ++ v ++ w ∧ start = lineStart bs i + utf8Len u ∧
    stop = lineStart bs i + utf8Len u + utf8Len v ∧ first = utf8Len u ∧ last = utf8Len u + utf8Len v

end Styx.Spec
