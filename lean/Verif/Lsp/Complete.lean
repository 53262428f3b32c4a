import Verif.Lsp.Fill
import Verif.Schema.Suggest

/-!
# Model: completion of field names (styx-lsp/src/server.rs)

The handler `completion` for an open document with a tree and a schema that is read without error; the items
that come from extensions are left out.  `lower` is `str::to_lowercase` (the Unicode tables are not modelled).
-/

namespace Styx.Lsp

open Styx Styx.Schema

/-- server.rs:2994: the characters that end a word. -/
def isBreak (c : Char) : Bool := isWhitespace c || c == '{' || c == '}'

/-- `str::rfind` for `isBreak`: the byte index of the last such character; `i` is the index of the first
character. -/
def rfindBreak : Nat → List Char → Option Nat
  | _, [] => none
  | i, c :: cs =>
    match rfindBreak (i + c.utf8Size) cs with
    | some j => some j
    | none => if isBreak c then some i else none

/-- server.rs:2993-2996: the start of the word, one byte behind the character found. -/
def wordStart (before : List Char) : Nat := ((rfindBreak 0 before).map (· + 1)).getD 0

/-- server.rs:2985-3010 `get_word_range_at_position`: the word and its range. -/
def wordRange (content : List Char) (p : Position) : Outcome (Option (List Char × Position × Position)) :=
  if positionToOffset content p = 0 then .done none
  else match takeBytes (positionToOffset content p) content with
    | none => .panics
    | some before =>
      match dropBytes (wordStart before) before with
      | none => .panics
      | some [] => .done none
      | some word => .done (some (word, offsetToPosition content (wordStart before), p))

mutual
/-- server.rs:2810-2837 `schema_to_type_str`. -/
def typeStr {F : Type} : Schema F → List Char
  | .string _ => chars! "@string"
  | .int _ => chars! "@int"
  | .float _ => chars! "@float"
  | .bool => chars! "@bool"
  | .unit => chars! "@unit"
  | .any => chars! "@any"
  | .type (some n) => '@' :: n
  | .type none => chars! "@type"
  | .object _ => chars! "@object{...}"
  | .seq _ => chars! "@seq(...)"
  | .map _ => chars! "@map(...)"
  | .enum _ => chars! "@enum{...}"
  | .union _ => chars! "@union(...)"
  | .oneOf _ _ => chars! "@oneof(...)"
  | .flatten _ => chars! "@flatten(...)"
  | .literal s => '"' :: s ++ ['"']
  | .optional s => (chars! "@optional(") ++ typeStr s ++ [')']
  | .default _ s => (chars! "@default(..., ") ++ typeStr s ++ [')']
  | .deprecated _ s => (chars! "@deprecated(") ++ typeStr s ++ [')']
  | .tuple ss => (chars! "@tuple(") ++ typeStrs ss ++ [')']
/-- server.rs:2832-2835: `elements.join(" ")`. -/
def typeStrs {F : Type} : List (Schema F) → List Char
  | [] => []
  | [s] => typeStr s
  | s :: ss => typeStr s ++ ' ' :: typeStrs ss
end

/-- server.rs:981-987: the detail shown for a field. -/
def fieldDetail {F : Type} (f : SchemaField F) : List Char :=
  if f.optional then (chars! "@optional(") ++ typeStr f.schema ++ [')']
  else match f.defaultValue with
    | some d => (chars! "@default(") ++ d ++ ' ' :: typeStr f.schema ++ [')']
    | none => typeStr f.schema

/-- server.rs:1064 and 1080-1081: the test for an optional field, on the detail. -/
def looksOptional (detail : List Char) : Bool :=
  startsWith detail (chars! "@optional") || startsWith detail (chars! "@default")

/-- `str::contains`. -/
def containsText (s p : List Char) : Bool :=
  startsWith s p || match s with
    | [] => false
    | _ :: cs => containsText cs p

/-- server.rs:1030-1049: the score of a name for the word typed. -/
def score (lower : List Char → List Char) (word name : List Char) : Option Nat :=
  if startsWith (lower name) (lower word) then some 0
  else if containsText (lower name) (lower word) then some 1
  else
    let dist := levenshtein (lower word) (lower name)
    if dist ≤ 3 ∧ dist < max (utf8Len word) 2 then some (2 + dist) else none

/-- One step of `sortByKey`. -/
def insertByKey {α : Type} (key : α → Nat) (x : α) : List α → List α
  | [] => [x]
  | y :: ys => if key x ≤ key y then x :: y :: ys else y :: insertByKey key x ys

/-- `slice::sort_by_key`, which keeps the order of items with the same key. -/
def sortByKey {α : Type} (key : α → Nat) : List α → List α
  | [] => []
  | x :: xs => insertByKey key x (sortByKey key xs)

/-- server.rs:1022-1074: the fields that are offered, of those that are not there; a field is its name and its
detail. -/
def offered (lower : List Char → List Char) (word : Option (List Char)) (available : List (List Char × List Char)) :
    List (List Char × List Char) :=
  if available.length > 50 then
    match word with
    | some w =>
      ((sortByKey (·.2) (available.filterMap fun f => (score lower w f.1).map (f, ·))).take 50).map (·.1)
    | none => (sortByKey (fun f => if looksOptional f.2 then 1 else 0) available).take 50
  else available

/-- A `CompletionItem`: the label, the detail and the edit. -/
structure CompletionItem where
  label : List Char
  detail : List Char
  edit : TextEdit
  deriving DecidableEq, Repr

/-- server.rs:960-1117 of `completion`. -/
def completion {F : Type} (lower : List Char → List Char) (sf : SchemaFile F) (fuel : Nat) (content : List Char)
    (tree : Value) (p : Position) : Outcome (List CompletionItem) :=
  match findObject (positionToOffset content p) [] tree with
  | none => .done []
  | some ctx => (fieldsAtPath sf fuel ctx.path).bind fun fields => (wordRange content p).bind fun word =>
    let range := (word.map (·.2)).getD (p, p)
    let available := (fields.map fun f => (f.name, fieldDetail f)).filter fun f => !(existingNames ctx.entries).contains f.1
    .done ((offered lower (word.map (·.1)) available).map fun f => ⟨f.1, f.2, ⟨range.1, range.2, f.1 ++ [' ']⟩⟩)

end Styx.Lsp
