import Verif.Lsp.Model

/-!
# Specification: positions and edits of the language server protocol

What an editor does with a position and an edit, from the text of the protocol (section "Text
documents"), not from the code of the server: a line ends with `\n`, `\r\n` or `\r`; a column counts UTF-16
code units; a column after the end of its line is the end of the line.
-/

namespace Styx.Spec

open Styx Styx.Lsp

/-- The number of UTF-16 code units of a character. -/
def utf16Units (c : Char) : Nat := if c.toNat < 0x10000 then 1 else 2

/-- What follows the end of the line at the start of the text. -/
def afterLine : List Char → List Char
  | [] => []
  | '\r' :: '\n' :: r => r
  | c :: r => if c = '\n' ∨ c = '\r' then r else afterLine r

/-- The text from the start of line number `n` on. -/
def fromLine : Nat → List Char → List Char
  | 0, s => s
  | n + 1, s => fromLine n (afterLine s)

/-- The text from column `n` of the first line on. -/
def fromColumn : Nat → List Char → List Char
  | _, [] => []
  | n, c :: r =>
    if n = 0 ∨ c = '\n' ∨ c = '\r' then c :: r else fromColumn (n - utf16Units c) r

/-- The text from a position on. -/
def fromPosition (doc : List Char) (p : Position) : List Char :=
  fromColumn p.character (fromLine p.line doc)

/-- The document after an edit: the text up to the start of the range, the new text, and the text
from the end of the range on. -/
def applyEdit (doc : List Char) (e : TextEdit) : List Char :=
  doc.take (doc.length - (fromPosition doc e.start).length) ++ e.newText ++ fromPosition doc e.stop

/-- The document after the edits of an answer (the server answers with at most one); no answer leaves the
document as it is. -/
def applyEdits (doc : List Char) : Option (List TextEdit) → List Char
  | none => doc
  | some es => es.foldl applyEdit doc

/-- Some carriage return is not followed by a newline. -/
def LoneCr (s : List Char) : Prop := ∃ pre post, s = pre ++ '\r' :: post ∧ post.head? ≠ some '\n'

/-- The line terminator at the end of a document, if it ends with one. -/
def finalTerminator (s : List Char) : List Char :=
  if ['\r', '\n'] <:+ s then ['\r', '\n'] else if ['\n'] <:+ s then ['\n'] else []

end Styx.Spec
