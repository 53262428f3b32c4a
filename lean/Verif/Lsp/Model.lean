import Verif.Cst.Format
import Verif.Tree.Builder

/-!
# Model of the positions and the formatting edit of the language server

Source: crates/styx-lsp/src/{server.rs, extensions.rs}.

Simplifications, common to all definitions of this file: `u32` counters, columns and casts to `u32` are
natural numbers, so the model is of documents below 4 GiB; the documents held by the server are
passed as the content of the document.
-/

namespace Styx.Lsp

open Styx

/-- `lsp_types::Position` and `styx_lsp_ext::Position`. -/
structure Position where
  line : Nat
  character : Nat
  deriving DecidableEq, Repr

/-- crates/styx-lsp/src/server.rs:2149-2166 `offset_to_position`, the loop: `i` is the byte index of
the next character. -/
def offsetLoop (offset : Nat) : List Char → Nat → Position → Position
  | [], _, p => p
  | c :: cs, i, p =>
    if i ≥ offset then p
    else offsetLoop offset cs (i + c.utf8Size)
      (if c = '\n' then ⟨p.line + 1, 0⟩ else ⟨p.line, p.character + 1⟩)

/-- crates/styx-lsp/src/server.rs:2149-2166 `offset_to_position`; also `offset_to_line_col`
(crates/styx-lsp/src/semantic_tokens.rs:589-606), the same code. -/
def offsetToPosition (content : List Char) (offset : Nat) : Position :=
  offsetLoop offset content 0 ⟨0, 0⟩

/-- crates/styx-lsp/src/server.rs:2169-2191 `position_to_offset`, the loop; at the end `i` is
`content.len()`. -/
def positionLoop (p : Position) : List Char → Nat → Position → Nat
  | [], i, _ => i
  | c :: cs, i, q =>
    if q.line = p.line ∧ q.character = p.character then i
    else if c = '\n' then
      if q.line = p.line then i
      else positionLoop p cs (i + c.utf8Size) ⟨q.line + 1, 0⟩
    else positionLoop p cs (i + c.utf8Size) ⟨q.line, q.character + 1⟩

/-- crates/styx-lsp/src/server.rs:2169-2191 `position_to_offset`. -/
def positionToOffset (content : List Char) (p : Position) : Nat := positionLoop p content 0 ⟨0, 0⟩

/-- The text after the last newline; all of it when there is none
(`content.rfind('\n').map(|i| i + 1).unwrap_or(0)`, crates/styx-lsp/src/extensions.rs:389). -/
def lastLine : List Char → List Char
  | [] => []
  | c :: cs => if '\n' ∈ cs then lastLine cs else if c = '\n' then cs else c :: cs

/-- The outcome of a call of the extension host: slicing a `str` between characters panics. -/
inductive Host (α : Type) where
  | panic
  | ok (a : Option α)
  deriving DecidableEq, Repr

/-- crates/styx-lsp/src/extensions.rs:374-393 `offset_to_position` of the extension host, for a
document that is open. -/
def hostOffsetToPosition (content : List Char) (offset : Nat) : Host Position :=
  if offset > utf8Len content then .ok none
  else match takeBytes offset content with
    | none => .panic
    | some before => .ok (some ⟨before.count '\n', offset - (utf8Len before - utf8Len (lastLine before))⟩)

/-- crates/styx-lsp/src/extensions.rs:405-414: the loop over the characters of the line found. -/
def hostColumn (character : Nat) : List Char → Nat → Nat → Nat
  | [], _, offset => offset
  | c :: cs, charOffset, offset =>
    if charOffset = character then offset
    else if c = '\n' then offset
    else hostColumn character cs (charOffset + 1) (offset + c.utf8Size)

/-- crates/styx-lsp/src/extensions.rs:395-423 `position_to_offset` of the extension host, for a
document that is open.  The slice `doc.content[offset..]` is the rest of the characters. -/
def hostPositionLoop (p : Position) : List Char → Nat → Nat → Option Nat
  | [], _, _ => none
  | c :: cs, line, offset =>
    if line = p.line then some (hostColumn p.character (c :: cs) 0 offset)
    else hostPositionLoop p cs (if c = '\n' then line + 1 else line) (offset + c.utf8Size)

/-- See `hostPositionLoop` (crates/styx-lsp/src/extensions.rs:395-423). -/
def hostPositionToOffset (content : List Char) (p : Position) : Option Nat :=
  hostPositionLoop p content 0 0

/-- A line without the carriage return before its newline (`str::lines`). -/
def dropCr (l : List Char) : List Char :=
  if l.getLast? = some '\r' then l.dropLast else l

/-- Rust's `str::lines`: `cur` is the line so far. -/
def linesFrom (cur : List Char) : List Char → List (List Char)
  | [] => if cur = [] then [] else [cur]
  | c :: cs => if c = '\n' then dropCr cur :: linesFrom [] cs else linesFrom (cur ++ [c]) cs

/-- Rust's `str::lines` (used at crates/styx-lsp/src/server.rs:1898). -/
def lines (s : List Char) : List (List Char) := linesFrom [] s

/-- `lsp_types::TextEdit`. -/
structure TextEdit where
  start : Position
  stop : Position
  newText : List Char
  deriving DecidableEq, Repr

/-- crates/styx-lsp/src/server.rs:1873-1878: the indentation of the options of the editor. -/
def indentOf (insertSpaces : Bool) (tabSize : Nat) : List Char :=
  if insertSpaces then List.replicate tabSize ' ' else ['\t']

/-- crates/styx-lsp/src/server.rs:1859-1913 `formatting` for a document that is open; `hasTree` is
`doc.tree.is_some()`. -/
def formatting (hasTree : Bool) (insertSpaces : Bool) (tabSize : Nat) (content : List Char) :
    Option (List TextEdit) :=
  if hasTree = false then none
  else
    let formatted := Cst.formatSource (indentOf insertSpaces tabSize) content
    if formatted = content then none
    else
      let ls := lines content
      some [⟨⟨0, 0⟩, ⟨ls.length - 1, (ls.getLast?.map utf8Len).getD 0⟩, formatted⟩]

end Styx.Lsp
