import Verif.Format.Scalar

/-!
# Model of the low-level writer

Source: crates/styx-format/src/writer.rs and options.rs.  The output is a text instead of bytes; the positions
that the writer remembers are byte offsets, as in the code.  Inserting at an offset that is not a character
boundary (which makes the output invalid UTF-8, and `finish_string` panic) or that lies beyond the end (which
panics at once) sets `panicked`.
-/

namespace Styx

/-- options.rs:5-13 `ForceStyle`. -/
inductive ForceStyle where
  | none | inline | multiline
  deriving DecidableEq, Repr

/-- options.rs:17-38 `FormatOptions`; `inline_object_threshold` and `inline_sequence_threshold` are never
read by the writer or the value formatter and are left out. -/
structure FormatOptions where
  indent : List Char := [' ', ' ', ' ', ' ']
  maxWidth : Nat := 80
  minInlineWidth : Nat := 30
  heredocThreshold : Nat := 2
  forceStyle : ForceStyle := .none

/-- writer.rs:10-31 `Context`.  `commas` and `openPos` are byte offsets. -/
inductive Ctx where
  | struct (first isRoot forceMultiline inlineStart : Bool) (commas : List Nat) (openPos : Option Nat)
  | seq (first inlineStart : Bool)
  deriving DecidableEq, Repr

/-- writer.rs:38-47 `StyxWriter`; the innermost context comes first. -/
structure Writer where
  out : List Char := []
  stack : List Ctx := []
  options : FormatOptions := {}
  skip : Bool := false
  forceQuote : Bool := false
  panicked : Bool := false

/-- Append text: `self.out.extend_from_slice`, `self.out.push` (writer.rs:170-182). -/
def Writer.emit (w : Writer) (s : List Char) : Writer := { w with out := w.out ++ s }

/-- writer.rs:73-78 `finish_document`. -/
def Writer.finishDocument (w : Writer) : List Char :=
  if w.out ≠ [] ∧ w.out.getLast? ≠ some '\n' then w.out ++ ['\n'] else w.out

/-- writer.rs:97-116: does the context add to the indentation? -/
def Ctx.indents : Ctx → Bool
  | .struct _ true _ _ _ _ => false
  | .struct _ _ false true _ _ => false
  | .seq _ true => false
  | _ => true

/-- writer.rs:94-119 `indent_depth`. -/
def Writer.indentDepth (w : Writer) : Nat := w.stack.countP Ctx.indents

/-- writer.rs:122-125 `available_width`. -/
def Writer.availableWidth (w : Writer) : Nat :=
  w.options.maxWidth - w.stack.length * utf8Len w.options.indent

/-- writer.rs:128-154 `should_inline`. -/
def Writer.shouldInline (w : Writer) : Bool :=
  match w.options.forceStyle with
  | .inline => true
  | .multiline => false
  | .none =>
    match w.stack with
    | [] => false
    | [.struct _ true _ _ _ _] => false
    | .struct _ _ true _ _ _ :: _ => false
    | _ => w.options.minInlineWidth ≤ w.availableWidth

/-- `n` copies of the indentation. -/
def indentText (o : FormatOptions) (n : Nat) : List Char := (List.replicate n o.indent).flatten

/-- writer.rs:157-161 `write_indent`. -/
def Writer.writeIndent (w : Writer) : Writer := w.emit (indentText w.options w.indentDepth)

/-- writer.rs:164-167 `write_newline_indent`. -/
def Writer.newlineIndent (w : Writer) : Writer := (w.emit ['\n']).writeIndent

/-- Mark the sequence on top of the stack as not empty (writer.rs:842-844 and 867-869). -/
def markSeq : List Ctx → List Ctx
  | .seq _ i :: st => .seq false i :: st
  | st => st

/-- writer.rs:837-870 `before_value`. -/
def Writer.beforeValue (w : Writer) : Writer :=
  if w.skip then { w with skip := false, stack := markSeq w.stack }
  else
    let w' := match w.stack with
      | .seq false inlineStart :: _ =>
        if inlineStart || w.shouldInline then w.emit [' '] else w.newlineIndent
      | _ => w
    { w' with stack := markSeq w'.stack }

/-- writer.rs:195-223 `begin_struct_with_options`. -/
def Writer.beginStruct (w : Writer) (isRoot forceMultiline : Bool) : Writer :=
  let w := w.beforeValue
  if isRoot then { w with stack := .struct true true forceMultiline false [] none :: w.stack }
  else
    let w := w.emit ['{']
    { w with stack := .struct true false forceMultiline true [] (some (utf8Len w.out)) :: w.stack }

/-- writer.rs:226-240 `begin_struct_after_tag`. -/
def Writer.beginStructAfterTag (w : Writer) (forceMultiline : Bool) : Writer :=
  let w := { w.emit ['{'] with forceQuote := false }
  { w with stack := .struct true false forceMultiline true [] (some (utf8Len w.out)) :: w.stack }

/-- The text of a key or string in quotes: writer.rs:904-909 `write_quoted_string`. -/
def quotedText (s : List Char) : List Char := '"' :: escapeQuoted s ++ ['"']

/-- writer.rs:245-301 `field_key_raw`; the result is false for `Err`.  `field_key` (306-366) is the same up to
the text of the key. -/
def Writer.fieldKeyRaw (w : Writer) (key : List Char) : Bool × Writer :=
  match w.stack with
  | .struct first isRoot force inlineStart commas openPos :: st =>
    let inl := (inlineStart && !force) || w.shouldInline
    let w' :=
      if !first then
        if inl && !isRoot then
          { w.emit [',', ' '] with
            stack := .struct first isRoot force inlineStart (commas ++ [utf8Len w.out]) openPos :: st }
        else if isRoot then (w.emit ['\n']).newlineIndent
        else w.newlineIndent
      else if !isRoot && !inl then w.newlineIndent
      else w
    let w' := match w'.stack with
      | .struct _ r f i c o :: st => { w' with stack := .struct false r f i c o :: st }
      | _ => w'
    (true, w'.emit (key ++ [' ']))
  | _ => (false, w)

/-- The text of a key: bare if possible (writer.rs:359-363 and 617-621). -/
def keyText (key : List Char) : List Char := if canBeBare key then key else quotedText key

/-- writer.rs:306-366 `field_key`. -/
def Writer.fieldKey (w : Writer) (key : List Char) : Bool × Writer := w.fieldKeyRaw (keyText key)

/-- writer.rs:371-406 `end_struct`; the result is false for `Err`. -/
def Writer.endStruct (w : Writer) : Bool × Writer :=
  let inl := w.shouldInline
  match w.stack with
  | .struct first isRoot force inlineStart _ _ :: st =>
    let w := { w with stack := st }
    if isRoot then (true, if first then w else w.emit ['\n'])
    else
      let w := if !first && (force || (!inlineStart && !inl)) then w.newlineIndent else w
      (true, w.emit ['}'])
  | _ :: st => (false, { w with stack := st })
  | [] => (false, w)

/-- writer.rs:409-417 `begin_seq`. -/
def Writer.beginSeq (w : Writer) : Writer :=
  let w := w.beforeValue.emit ['(']
  { w with stack := .seq true true :: w.stack }

/-- writer.rs:554-563 `begin_seq_after_tag`. -/
def Writer.beginSeqAfterTag (w : Writer) : Writer :=
  let w := { w.emit ['('] with forceQuote := false }
  { w with stack := .seq true true :: w.stack }

/-- writer.rs:422-441 `end_seq`; the result is false for `Err`. -/
def Writer.endSeq (w : Writer) : Bool × Writer :=
  let inl := w.shouldInline
  match w.stack with
  | .seq first inlineStart :: st =>
    let w := { w with stack := st }
    let w := if !first && !inlineStart && !inl then w.newlineIndent else w
    (true, w.emit [')'])
  | _ :: st => (false, { w with stack := st })
  | [] => (false, w)

/-- Is `p` a part of `s`? (`str::contains`) -/
def contains (p : List Char) : List Char → Bool
  | [] => p == []
  | c :: s => startsWith (c :: s) p || contains p s

/-- writer.rs:914-919: the number of hashes; `fuel` bounds the search (a run of hashes longer than the text
cannot occur in it). -/
def rawHashes (s : List Char) : Nat → Nat → Nat
  | 0, n => n
  | fuel + 1, n => if contains ('"' :: List.replicate n '#') s then rawHashes s fuel (n + 1) else n

/-- writer.rs:912-931 `write_raw_string`. -/
def rawText (s : List Char) : List Char :=
  let n := rawHashes s (s.length + 1) 0
  'r' :: List.replicate n '#' ++ '"' :: s ++ '"' :: List.replicate n '#'

/-- writer.rs:936: the delimiters. -/
def heredocDelimiters : List (List Char) :=
  [chars! "TEXT", chars! "END", chars! "HEREDOC", chars! "DOC", chars! "STR", chars! "CONTENT"]

/-- writer.rs:937-940: the delimiter for a text. -/
def heredocDelimiter (s : List Char) : List Char :=
  (heredocDelimiters.find? fun d => !contains d s).getD (chars! "TEXT")

/-- writer.rs:934-950 `write_heredoc`. -/
def heredocText (s : List Char) : List Char :=
  let d := heredocDelimiter s
  '<' :: '<' :: d ++ '\n' :: s ++ (if s.getLast? = some '\n' then [] else ['\n']) ++ d

/-- writer.rs:873-901 `write_scalar_string`: the text chosen for a string. -/
def scalarText (o : FormatOptions) (forceQuote : Bool) (s : List Char) : List Char :=
  if !forceQuote && canBeBare s then s
  else if o.heredocThreshold ≤ countNewlines s then heredocText s
  else if 3 < countEscapes s ∧ !contains ['"', '#'] s then rawText s
  else quotedText s

/-- writer.rs:873-901 `write_scalar_string`. -/
def Writer.writeScalarString (w : Writer) (s : List Char) : Writer :=
  { w.emit (scalarText w.options w.forceQuote s) with forceQuote := false }

/-- writer.rs:490-493 `write_string`; `write_scalar` (530-532) and `write_char` (496-501) do the same. -/
def Writer.writeString (w : Writer) (s : List Char) : Writer := w.beforeValue.writeScalarString s

/-- writer.rs:444-447 `write_null`, 450-457 `write_bool`, 460-487 the numbers: a value whose text is fixed by
the caller. -/
def Writer.writeText (w : Writer) (s : List Char) : Writer := w.beforeValue.emit s

/-- writer.rs:504-515 `write_bytes`. -/
def Writer.writeBytes (w : Writer) (bs : List UInt8) : Writer :=
  w.beforeValue.emit ('"' :: bs.flatMap (fun b => [hexDigit (b.toNat / 16), hexDigit (b.toNat % 16)]) ++ ['"'])

/-- writer.rs:518-526 `write_variant_tag`, and 535-537 `write_tag`. -/
def Writer.writeTag (w : Writer) (name : List Char) : Writer :=
  { w.beforeValue.emit ('@' :: name) with skip := true, forceQuote := true }

/-- writer.rs:540-545 `write_tag_chain_segment`. -/
def Writer.writeTagChain (w : Writer) (name : List Char) : Writer :=
  { w.emit ('/' :: '@' :: name) with skip := true, forceQuote := true }

/-- writer.rs:548-551 `clear_skip_before_value`. -/
def Writer.clearSkip (w : Writer) : Writer := { w with skip := false, forceQuote := false }

/-- Split a text at a byte offset, if that is a character boundary. -/
def splitBytes : Nat → List Char → Option (List Char × List Char)
  | 0, s => some ([], s)
  | _ + 1, [] => none
  | n + 1, c :: s =>
    if c.utf8Size ≤ n + 1 then (splitBytes (n + 1 - c.utf8Size) s).map fun (a, b) => (c :: a, b) else none

/-- writer.rs:716-728 and 822-832: replace the comma and space at an offset by a line break and
indentation; nothing happens when the text there is something else. -/
def replaceComma (ins : List Char) (out : List Char) (pos : Nat) : List Char :=
  match splitBytes pos out with
  | some (a, ',' :: ' ' :: b) => a ++ ins ++ b
  | _ => out

/-- writer.rs:801-834 `fix_comma_separators`. -/
def Writer.fixCommas (w : Writer) : Writer :=
  match w.stack with
  | .struct f r m i commas o :: st =>
    let ins := '\n' :: indentText w.options w.indentDepth
    { w with stack := .struct f r m i [] o :: st, out := commas.reverse.foldl (replaceComma ins) w.out }
  | _ => w

/-- writer.rs:694-704: does the context still have to be turned multi-line? -/
def Ctx.pending : Ctx → Bool
  | .struct _ false false true _ _ => true
  | _ => false

/-- The commas of a context. -/
def Ctx.commas : Ctx → List Nat
  | .struct _ _ _ _ c _ => c
  | _ => []

/-- Insertion into an ascending list (for `sort_unstable`, writer.rs:713). -/
def insertAsc (x : Nat) : List Nat → List Nat
  | [] => [x]
  | y :: ys => if x ≤ y then x :: y :: ys else y :: insertAsc x ys

/-- writer.rs:733-740: forget the commas of the contexts to be turned. -/
def Ctx.clearPending : Ctx → Ctx
  | .struct f r m i c o => if (Ctx.struct f r m i c o).pending then .struct f r m i [] o else .struct f r m i c o
  | c => c

/-- writer.rs:743-767: the positions where a line break has to be inserted, with their depth, and the
contexts turned multi-line; the outermost context comes first. -/
def collectFixes : Nat → List Ctx → List (Nat × Nat) × List Ctx
  | _, [] => ([], [])
  | d, .struct f r m i c (some p) :: st =>
    if r then
      let (fs, st') := collectFixes d st
      (fs, .struct f r m i c (some p) :: st')
    else
      let (fs, st') := collectFixes (d + 1) st
      if i && !m then ((p, d + 1) :: fs, .struct f r true i c (some p) :: st')
      else (fs, .struct f r m i c (some p) :: st')
  | d, c :: st =>
    let (fs, st') := collectFixes d st
    (fs, c :: st')

/-- writer.rs:779-795: move the remembered positions after an insertion of `n` bytes at `pos`. -/
def Ctx.shift (pos n : Nat) : Ctx → Ctx
  | .struct f r m i c (some p) =>
    .struct f r m i (c.map fun q => if pos ≤ q then q + n else q) (some (if pos < p then p + n else p))
  | c => c

/-- writer.rs:770-796: one insertion after an opening brace. -/
def Writer.insertBreak (w : Writer) (fix : Nat × Nat) : Writer :=
  let ins := '\n' :: indentText w.options fix.2
  match splitBytes fix.1 w.out with
  | some (a, b) => { w with out := a ++ ins ++ b, stack := w.stack.map (Ctx.shift fix.1 (utf8Len ins)) }
  | none => { w with panicked := true }

/-- writer.rs:687-797 `propagate_multiline_to_parents`. -/
def Writer.propagate (w : Writer) : Writer :=
  let commas := (w.stack.reverse.filter Ctx.pending).flatMap Ctx.commas
  let ins := '\n' :: indentText w.options w.indentDepth
  let out := (commas.foldr insertAsc []).reverse.foldl (replaceComma ins) w.out
  let (fixes, st) := collectFixes 0 (w.stack.reverse.map Ctx.clearPending)
  fixes.reverse.foldl Writer.insertBreak { w with out := out, stack := st.reverse }

/-- `str::lines`: split after every LF, without the line ends (LF or CR LF); no last empty line. -/
def linesAux : List Char → List Char → List (List Char)
  | [], [] => []
  | acc, [] => [acc.reverse]
  | acc, c :: s =>
    if c = '\n' then
      (match acc with
        | '\r' :: acc => acc.reverse
        | acc => acc.reverse) :: linesAux [] s
    else linesAux (c :: acc) s

/-- `str::lines` (writer.rs:601 and 661). -/
def textLines (s : List Char) : List (List Char) := linesAux [] s

/-- writer.rs:601-607 and 661-667: the lines of a doc comment; `need` says whether the first one goes on a
new line. -/
def Writer.docLines (w : Writer) : Bool → List (List Char) → Writer
  | _, [] => w
  | need, l :: ls =>
    let w' := if need then w.newlineIndent else w
    Writer.docLines (w'.emit ('/' :: '/' :: '/' :: ' ' :: l)) true ls

/-- writer.rs:575-583 and 635-643: the context is no longer empty, and is multi-line. -/
def markDoc : List Ctx → List Ctx
  | .struct _ r _ i c o :: st => .struct false r true i c o :: st
  | st => st

/-- writer.rs:627-679 `write_doc_comment_and_key_raw`; `write_doc_comment_and_key` (567-623) is the same up to
the text of the key.  It has no error result. -/
def Writer.docKeyRaw (w : Writer) (doc key : List Char) : Writer :=
  let (isFirst, isRoot) := match w.stack with
    | .struct f r _ _ _ _ :: _ => (f, r)
    | _ => (true, false)
  let w := { w with stack := markDoc w.stack }
  let w := w.fixCommas.propagate
  let w := if !isFirst && isRoot then w.emit ['\n'] else w
  let w := w.docLines (!isFirst || !isRoot) (textLines doc)
  let w := if isFirst && isRoot then w.emit ['\n'] else w.newlineIndent
  w.emit (key ++ [' '])

/-- writer.rs:567-623 `write_doc_comment_and_key`. -/
def Writer.docKey (w : Writer) (doc key : List Char) : Writer := w.docKeyRaw doc (keyText key)

end Styx
