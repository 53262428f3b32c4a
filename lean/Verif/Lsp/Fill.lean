import Verif.Lsp.Navigate
import Verif.Lsp.Model

/-!
# Model: filling in missing fields (styx-lsp/src/server.rs)

The code actions "Fill … required fields" and "Fill all … fields": where the fields are inserted and what is
inserted.
-/

namespace Styx.Lsp

open Styx Styx.Schema

/-- server.rs:3222-3225 `InsertPosition`. -/
structure InsertPosition where
  position : Position
  indent : List Char
  deriving DecidableEq, Repr

/-- Rust's `str::trim_start`. -/
def trimStart (l : List Char) : List Char := l.dropWhile isWhitespace

/-- Rust's `str::trim`. -/
def trim (l : List Char) : List Char := ((trimStart l).reverse.dropWhile isWhitespace).reverse

/-- server.rs:3233-3234: the lines that are passed over. -/
def passedOver (line : List Char) : Bool :=
  (trim line).isEmpty || startsWith (trim line) ['/', '/'] || startsWith (trim line) ['#']

/-- server.rs:3232-3247: the last line that is not passed over, with its number; `i` is the number of the
first line. -/
def lastField : Nat → List (List Char) → Option (Nat × List Char)
  | _, [] => none
  | i, l :: ls =>
    match lastField (i + 1) ls with
    | some r => some r
    | none => if passedOver l then none else some (i, l)

/-- server.rs:3228-3257 `find_field_insert_position`; the columns are lengths in bytes. -/
def findInsert (content : List Char) : InsertPosition :=
  match lastField 0 (lines content) with
  | some (i, line) => ⟨⟨i, utf8Len line⟩, line.takeWhile isWhitespace⟩
  | none => ⟨⟨(lines content).length - 1, ((lines content).getLast?.map utf8Len).getD 0⟩, []⟩

/-- server.rs:3260-3280 `generate_fields_text`. -/
def fieldsText {F : Type} (indent : List Char) (fields : List (SchemaField F)) : List Char :=
  fields.flatMap fun f =>
    '\n' :: (indent ++ f.name ++ ' ' :: f.defaultValue.getD (placeholder f.schema))

/-- server.rs:1461-1484: where fields are inserted for the object at the cursor.  `none` when the slice of the
text is not at characters (a panic). -/
def insertInfo (content : List Char) (ctx : ObjectContext) : Option InsertPosition :=
  match ctx.span with
  | none => some (findInsert content)
  | some sp =>
    (takeBytes sp.stop content).bind fun upto => (dropBytes sp.start upto).map fun text =>
      let at' := offsetToPosition content sp.start
      let ins := findInsert text
      ⟨⟨at'.line + ins.position.line,
        if ins.position.line = 0 then at'.character + ins.position.character else ins.position.character⟩,
        ins.indent⟩

/-- server.rs:1486-1495 and 1522-1530: the edit that inserts fields. -/
def fillEdit {F : Type} (info : InsertPosition) (fields : List (SchemaField F)) : TextEdit :=
  ⟨info.position, info.position, fieldsText info.indent fields⟩

/-- server.rs:1425-1512: the edit of the action "Fill … required fields", `done none` when it is not offered.
`find_object_at_offset` finds an object in every tree of a document (C74), so the branch without one
(1442-1446, 1482-1484) is left out. -/
def fillRequired {F : Type} (sf : SchemaFile F) (fuel : Nat) (content : List Char) (tree : Value) (off : Nat) :
    Outcome (Option TextEdit) :=
  match findObject off [] tree with
  | none => .done none
  | some ctx => (fieldsAtPath sf fuel ctx.path).bind fun fields =>
    match insertInfo content ctx with
    | none => .panics
    | some info =>
      let missing := missingRequired fields (existingNames ctx.entries)
      .done (if missing.isEmpty then none else some (fillEdit info missing))

end Styx.Lsp
