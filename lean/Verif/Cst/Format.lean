import Verif.Cst.Ast

/-!
# Model of the source formatter

Source: crates/styx-format/src/cst_format.rs.

Simplifications, common to all definitions of this file:
* Of the options only the indentation string is used by this formatter; it is the argument `ind`.
* A node is its kind and its list of children; loops over children are recursive functions over that
  list, with the mutable variables of the loop as arguments.
* Indexing `entries[entry_index - 1]` in `format_document` is replaced by carrying along what is
  asked about the previous entry.
-/

namespace Styx.Cst

open Styx

/-- cst_format.rs:34-42 `CstFormatter`, without the options. -/
structure Fmt where
  out : List Char := []
  level : Nat := 0
  atLineStart : Bool := true
  afterNewline : Bool := false
  deriving DecidableEq, Repr

/-- cst_format.rs:55-61 `finish`. -/
def Fmt.finish (f : Fmt) : List Char :=
  if f.out.getLast? ≠ some '\n' ∧ f.out ≠ [] then f.out ++ ['\n'] else f.out

/-- `level` times the indentation string (cst_format.rs:65-67). -/
def indentOf (ind : List Char) (level : Nat) : List Char := (List.replicate level ind).flatten

/-- cst_format.rs:63-70 `write_indent`. -/
def Fmt.writeIndent (ind : List Char) (f : Fmt) : Fmt :=
  { f with
    out := if f.atLineStart ∧ f.level > 0 then f.out ++ indentOf ind f.level else f.out
    atLineStart := false }

/-- cst_format.rs:72-79 `write`. -/
def Fmt.write (ind : List Char) (f : Fmt) (s : List Char) : Fmt :=
  if s = [] then f
  else
    let f := f.writeIndent ind
    { f with out := f.out ++ s, afterNewline := false }

/-- cst_format.rs:81-85 `write_newline`. -/
def Fmt.newline (f : Fmt) : Fmt :=
  { f with out := f.out ++ ['\n'], atLineStart := true, afterNewline := true }

/-- A line break and, if there was a blank line, another one (cst_format.rs:314-320). -/
def Fmt.breakLine (f : Fmt) (wrote : Bool) (newlines : Nat) : Fmt :=
  if wrote then (if newlines ≥ 2 then f.newline.newline else f.newline) else f

mutual
/-- cst_format.rs:641-667 `contains_block_object`. -/
def containsBlock : Green → Bool
  | .token _ _ => false
  | .node k cs =>
    (k == .OBJECT && (separator cs != .comma || hasKind .DOC_COMMENT cs)) || containsBlockL cs
/-- The loop over the children (cst_format.rs:660-664). -/
def containsBlockL : List Green → Bool
  | [] => false
  | g :: gs => containsBlock g || containsBlockL gs
end

/-- cst_format.rs:605-612 `is_block_entry`. -/
def isBlockEntry (cs : List Green) : Bool :=
  match entryValue cs with
  | some v => containsBlockL v
  | none => false

/-- cst_format.rs:626-634: the first payload of a tag, over all the tags in a key, that exists. -/
def firstPayload : List (List Green) → Option (List Green)
  | [] => none
  | tag :: tags =>
    match (nodesOf .TAG_PAYLOAD tag).head? with
    | some p => some p
    | none => firstPayload tags

/-- cst_format.rs:616-637 `is_tag_with_block_payload`. -/
def isTagWithBlock (cs : List Green) : Bool :=
  match entryKey cs with
  | none => false
  | some key =>
    match firstPayload (nodesOf .TAG key) with
    | some p => containsBlockL p
    | none => false

/-- cst_format.rs:670-690 `is_schema_declaration`. -/
def isSchemaDeclaration (cs : List Green) : Bool :=
  match entryKey cs with
  | none => false
  | some key => (nodesOf .TAG key).any fun tag => tag.any fun
      | .token k t => k == .TAG_TOKEN && t == chars! "@schema"
      | .node _ _ => false

/-- cst_format.rs:499-506, 517-524: the scalar tokens among the children. -/
def formatScalarTokens (ind : List Char) : List Green → Fmt → Fmt
  | [], f => f
  | .token k t :: gs, f =>
    formatScalarTokens ind gs
      (if k = .BARE_SCALAR ∨ k = .QUOTED_SCALAR ∨ k = .RAW_SCALAR then f.write ind t else f)
  | .node _ _ :: gs, f => formatScalarTokens ind gs f

/-- The variables of the loop of `format_document` (cst_format.rs:138-143), with what is asked about
the entry before. -/
structure DocState where
  newlines : Nat := 0
  index : Nat := 0
  wrote : Bool := false
  justDoc : Bool := false
  prevDoc : Bool := false
  prevBlock : Bool := false
  deriving DecidableEq, Repr

/-- cst_format.rs:169-195: line breaks before a doc comment. -/
def DocState.beforeDoc (d : DocState) (schema : Bool) (f : Fmt) : Fmt :=
  if d.wrote then
    if !d.justDoc && (decide (d.newlines ≥ 2) || (d.index == 1 && schema) ||
        (decide (d.index > 0) && d.prevDoc) || (decide (d.index > 0) && d.prevBlock))
    then f.newline.newline else f.newline
  else f

/-- cst_format.rs:210-237: line breaks before an entry. -/
def DocState.beforeEntry (d : DocState) (schema block : Bool) (f : Fmt) : Fmt :=
  if d.wrote then
    if !d.justDoc && (decide (d.newlines ≥ 2) || (d.index == 1 && schema) ||
        (decide (d.index > 0) && d.prevDoc) || (decide (d.index > 0) && d.prevBlock) || block)
    then f.newline.newline else f.newline
  else f

/-- cst_format.rs:276-281, 372-377 `has_comments`. -/
def hasComments (cs : List Green) : Bool := hasKind .LINE_COMMENT cs || hasKind .DOC_COMMENT cs

/-- cst_format.rs:293-296 `is_multiline` of an object. -/
def objMultiline (cs : List Green) : Bool :=
  separator cs != .comma || hasComments cs || (entriesOf cs).any containsBlockL ||
    (entriesOf cs).isEmpty

/-- cst_format.rs:387-388 `should_collapse`. -/
def seqCollapse (cs : List Green) : Bool :=
  !hasComments cs && (match entriesOf cs with | [e] => !containsBlockL e | _ => false)

/-- cst_format.rs:392-393 `single_tag_with_block`. -/
def seqSingleTag (cs : List Green) : Bool :=
  !hasComments cs && (match entriesOf cs with | [e] => isTagWithBlock e | _ => false)

/-- cst_format.rs:395-397 `is_multiline` of a sequence. -/
def seqIsMultiline (cs : List Green) : Bool :=
  !seqCollapse cs && !seqSingleTag cs &&
    (seqMultiline cs || hasComments cs || (entriesOf cs).isEmpty)

mutual

/-- cst_format.rs:87-132 `format_node`; tokens are ignored. -/
def formatNode (ind : List Char) : Green → Fmt → Fmt
  | .token _ _, f => f
  | .node k cs, f =>
    match k with
    | .DOCUMENT => formatDocument ind (match entriesOf cs with | e :: _ => isSchemaDeclaration e | [] => false)
        [] cs {} f
    | .ENTRY =>
      -- cst_format.rs:251-266 `format_entry`
      let f := formatFirst ind .KEY cs f
      if (entryValue cs).isSome then formatFirst ind .VALUE cs (f.write ind [' ']) else f
    | .OBJECT =>
      -- cst_format.rs:268-363 `format_object`
      let f := f.write ind ['{']
      if (entriesOf cs).isEmpty && !hasComments cs then f.write ind ['}']
      else if objMultiline cs then
        let f := { f.newline with level := f.level + 1 }
        let f := (formatBlock ind cs false 0 f).newline
        { f with level := f.level - 1 }.write ind ['}']
      else (formatInline ind cs f).write ind ['}']
    | .SEQUENCE =>
      -- cst_format.rs:365-490 `format_sequence`
      let f := f.write ind ['(']
      if (entriesOf cs).isEmpty && !hasComments cs then f.write ind [')']
      else if seqSingleTag cs then (formatFirstItem ind cs f).write ind [')']
      else if seqIsMultiline cs then
        let f := { f.newline with level := f.level + 1 }
        let f := (formatSeqBlock ind cs false 0 f).newline
        { f with level := f.level - 1 }.write ind [')']
      else (formatSeqInline ind cs f).write ind [')']
    | .KEY =>
      -- cst_format.rs:492-507 `format_key`
      formatScalarTokens ind cs (formatNodes ind cs f)
    | .VALUE => formatNodes ind cs f -- cst_format.rs:509-513 `format_value`
    | .SCALAR => formatScalarTokens ind cs f -- cst_format.rs:515-525 `format_scalar`
    | .TAG => formatTag ind cs f
    | .TAG_PAYLOAD => formatPayload ind cs f
    | .UNIT => f.write ind ['@']
    | .HEREDOC => f.write ind (Green.texts cs) -- cst_format.rs:567-570 `format_heredoc`
    | .ATTRIBUTES => formatAttributes ind cs f
    | .ATTRIBUTE => formatAttribute ind cs f
    | _ => f

/-- cst_format.rs:134-249 `format_document`, the loop; `prev` are the children before, from the
nearest. -/
def formatDocument (ind : List Char) (schema : Bool) : List Green → List Green → DocState → Fmt → Fmt
  | _, [], _, f => f
  | prev, .token k t :: gs, d, f =>
    match k with
    | .NEWLINE =>
      formatDocument ind schema (.token k t :: prev) gs { d with newlines := d.newlines + 1 } f
    | .LINE_COMMENT =>
      formatDocument ind schema (.token k t :: prev) gs
        { d with wrote := true, newlines := 0, justDoc := false }
        ((f.breakLine d.wrote d.newlines).write ind t)
    | .DOC_COMMENT =>
      formatDocument ind schema (.token k t :: prev) gs
        { d with wrote := true, newlines := 0, justDoc := true }
        ((d.beforeDoc schema f).write ind t)
    | _ => formatDocument ind schema (.token k t :: prev) gs d f
  | prev, .node k cs :: gs, d, f =>
    match k with
    | .ENTRY =>
      let f := formatNode ind (.node k cs) (d.beforeEntry schema (isBlockEntry cs) f)
      formatDocument ind schema (.node k cs :: prev) gs
        { newlines := 0, index := d.index + 1, wrote := true, justDoc := false,
          prevDoc := hasDocBefore prev, prevBlock := isBlockEntry cs } f
    | _ => formatDocument ind schema (.node k cs :: prev) gs d f

/-- The first child node of a kind, formatted (cst_format.rs:254-265). -/
def formatFirst (ind : List Char) (kind : SyntaxKind) : List Green → Fmt → Fmt
  | [], f => f
  | .token _ _ :: gs, f => formatFirst ind kind gs f
  | .node k cs :: gs, f =>
    if k = kind then formatNode ind (.node k cs) f else formatFirst ind kind gs f

/-- All the child nodes, formatted (e.g. cst_format.rs:494-496). -/
def formatNodes (ind : List Char) : List Green → Fmt → Fmt
  | [], f => f
  | .token _ _ :: gs, f => formatNodes ind gs f
  | .node k cs :: gs, f => formatNodes ind gs (formatNode ind (.node k cs) f)

/-- cst_format.rs:303-347: the loop of a multi-line object. -/
def formatBlock (ind : List Char) : List Green → Bool → Nat → Fmt → Fmt
  | [], _, _, f => f
  | .token k t :: gs, wrote, newlines, f =>
    match k with
    | .NEWLINE => formatBlock ind gs wrote (newlines + 1) f
    | .LINE_COMMENT | .DOC_COMMENT =>
      formatBlock ind gs true 0 ((f.breakLine wrote newlines).write ind t)
    | .WHITESPACE | .L_BRACE | .R_BRACE => formatBlock ind gs wrote newlines f
    | _ => formatBlock ind gs wrote 0 f
  | .node k cs :: gs, wrote, newlines, f =>
    if k = .ENTRY then
      formatBlock ind gs true 0 (formatNode ind (.node k cs) (f.breakLine wrote newlines))
    else formatBlock ind gs wrote 0 f

/-- cst_format.rs:353-361: the entries of an inline object. -/
def formatInline (ind : List Char) : List Green → Fmt → Fmt
  | [], f => f
  | .token _ _ :: gs, f => formatInline ind gs f
  | .node k cs :: gs, f =>
    if k = .ENTRY then
      let f := formatNode ind (.node k cs) f
      formatInline ind gs (if (entriesOf gs).isEmpty then f else f.write ind [',', ' '])
    else formatInline ind gs f

/-- The child nodes of the first key of an entry (cst_format.rs:446-452). -/
def formatItem (ind : List Char) : List Green → Fmt → Fmt
  | [], f => f
  | .token _ _ :: gs, f => formatItem ind gs f
  | .node k cs :: gs, f => if k = .KEY then formatNodes ind cs f else formatItem ind gs f

/-- cst_format.rs:399-410: the only item of a sequence. -/
def formatFirstItem (ind : List Char) : List Green → Fmt → Fmt
  | [], f => f
  | .token _ _ :: gs, f => formatFirstItem ind gs f
  | .node k cs :: gs, f => if k = .ENTRY then formatItem ind cs f else formatFirstItem ind gs f

/-- cst_format.rs:416-464: the loop of a multi-line sequence. -/
def formatSeqBlock (ind : List Char) : List Green → Bool → Nat → Fmt → Fmt
  | [], _, _, f => f
  | .token k t :: gs, wrote, newlines, f =>
    match k with
    | .NEWLINE => formatSeqBlock ind gs wrote (newlines + 1) f
    | .LINE_COMMENT | .DOC_COMMENT =>
      formatSeqBlock ind gs true 0 ((f.breakLine wrote newlines).write ind t)
    | .WHITESPACE | .L_PAREN | .R_PAREN => formatSeqBlock ind gs wrote newlines f
    | _ => formatSeqBlock ind gs wrote 0 f
  | .node k cs :: gs, wrote, newlines, f =>
    if k = .ENTRY then
      formatSeqBlock ind gs true 0 (formatItem ind cs (f.breakLine wrote newlines))
    else formatSeqBlock ind gs wrote 0 f

/-- cst_format.rs:471-487: the items of an inline sequence. -/
def formatSeqInline (ind : List Char) : List Green → Fmt → Fmt
  | [], f => f
  | .token _ _ :: gs, f => formatSeqInline ind gs f
  | .node k cs :: gs, f =>
    if k = .ENTRY then
      let f := formatItem ind cs f
      formatSeqInline ind gs (if (entriesOf gs).isEmpty then f else f.write ind [' '])
    else formatSeqInline ind gs f

/-- cst_format.rs:527-543 `format_tag`. -/
def formatTag (ind : List Char) : List Green → Fmt → Fmt
  | [], f => f
  | .token k t :: gs, f => formatTag ind gs (if k = .TAG_TOKEN then f.write ind t else f)
  | .node k cs :: gs, f =>
    formatTag ind gs (if k = .TAG_PAYLOAD then formatPayload ind cs f else f)

/-- cst_format.rs:545-565 `format_tag_payload`. -/
def formatPayload (ind : List Char) : List Green → Fmt → Fmt
  | [], f => f
  | .token k _ :: gs, f => formatPayload ind gs (if k = .SLASH then f.write ind ['/'] else f)
  | .node k cs :: gs, f => formatPayload ind gs (formatNode ind (.node k cs) f)

/-- cst_format.rs:572-584 `format_attributes`. -/
def formatAttributes (ind : List Char) : List Green → Fmt → Fmt
  | [], f => f
  | .token _ _ :: gs, f => formatAttributes ind gs f
  | .node k cs :: gs, f =>
    if k = .ATTRIBUTE then
      let f := formatAttribute ind cs f
      formatAttributes ind gs (if (nodesOf .ATTRIBUTE gs).isEmpty then f else f.write ind [' '])
    else formatAttributes ind gs f

/-- cst_format.rs:586-600 `format_attribute`. -/
def formatAttribute (ind : List Char) : List Green → Fmt → Fmt
  | [], f => f
  | .token k t :: gs, f =>
    formatAttribute ind gs
      (if k = .BARE_SCALAR then f.write ind t else if k = .GT then f.write ind ['>'] else f)
  | .node k cs :: gs, f => formatAttribute ind gs (formatNode ind (.node k cs) f)

end

/-- cst_format.rs:15-19 `format_cst`. -/
def formatCst (ind : List Char) (g : Green) : List Char := (formatNode ind g {}).finish

/-- cst_format.rs:25-32 `format_source`. -/
def formatSource (ind : List Char) (source : List Char) : List Char :=
  let parsed := parse source
  if parsed.isOk then formatCst ind parsed.green else source

end Styx.Cst
