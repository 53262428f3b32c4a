import Verif.Testing.Annotated

/-!
# Specification: annotated sources

How an annotated source is written, line by line, and where an error is.  Nothing here reads a text.
-/

namespace Styx.Testing.Spec

open Styx Styx.Testing

/-- A part of one line. -/
def InLine (s : List Char) : Prop := '\n' ∉ s ∧ '\r' ∉ s

/-- A blank part of a line. -/
def Blank (s : List Char) : Prop := ∀ c ∈ s, isWhitespace c = true

/-- An annotation: carets, below what they are on, the kind of the error, and possibly a remark. -/
structure Caret where
  indent : List Char
  width : Nat
  gap : List Char
  kind : List Char
  remark : List Char

/-- The line of an annotation. -/
def Caret.text (n : Caret) : List Char :=
  n.indent ++ List.replicate n.width '^' ++ n.gap ++ n.kind ++ n.remark

/-- The kind is a word, which ends at white space and does not continue the carets. -/
structure Caret.Ok (n : Caret) : Prop where
  inLine : InLine n.text
  indent : Blank n.indent
  width : 0 < n.width
  gap : Blank n.gap
  word : ∀ c ∈ n.kind, isWhitespace c = false
  apart : n.gap = [] → n.kind.head? ≠ some '^'
  remark : n.remark ≠ [] → n.kind ≠ [] ∧ ∃ c r, n.remark = c :: r ∧ isWhitespace c = true

/-- A line of the source with the annotations below it. -/
structure Lined where
  line : List Char
  notes : List Caret

/-- The line itself does not look like an annotation. -/
structure Lined.Ok (b : Lined) : Prop where
  inLine : InLine b.line
  plain : ∀ indent rest, Blank indent → b.line ≠ indent ++ '^' :: rest
  notes : ∀ n ∈ b.notes, n.Ok

/-- The lines of the annotated source; `top` are annotations above its first line. -/
def allLines (top : List Caret) (bs : List Lined) : List (List Char) :=
  top.map Caret.text ++ bs.flatMap fun b => b.line :: b.notes.map Caret.text

/-- A text with these lines, each ended by `\n` or `\r\n`, but for the last one, which need not be. -/
inductive Ended : List (List Char) → List Char → Prop
  | nil : Ended [] []
  | last {l} : l ≠ [] → Ended [l] l
  | lf {l ls t} : Ended ls t → Ended (l :: ls) (l ++ '\n' :: t)
  | crlf {l ls t} : Ended ls t → Ended (l :: ls) (l ++ '\r' :: '\n' :: t)

/-- `text` has these lines. -/
def Written (top : List Caret) (bs : List Lined) (text : List Char) : Prop := Ended (allLines top bs) text

/-- The lines of the source alone. -/
def sourceLines (bs : List Lined) : List (List Char) := bs.map Lined.line

/-- What the annotations below line `i` say: those that name a kind, with their columns, in bytes. -/
def notesAt (i : Nat) (notes : List Caret) : List ExpectedError :=
  (notes.filter fun n => n.kind ≠ []).map fun n => ⟨i, utf8Len n.indent, utf8Len n.indent + n.width, n.kind⟩

/-- What is expected; lines are counted from `i`. -/
def wantedFrom : Nat → List Lined → List ExpectedError
  | _, [] => []
  | i, b :: bs => notesAt i b.notes ++ wantedFrom (i + 1) bs

/-- What is expected; lines are counted from zero, and annotations above the first line belong to it. -/
def wanted (top : List Caret) (bs : List Lined) : List ExpectedError := notesAt 0 top ++ wantedFrom 0 bs

/-- Where a line starts: after the lines before it and their newlines. -/
def startOf (ls : List (List Char)) (i : Nat) : Nat := ((ls.take i).map fun l => utf8Len l + 1).sum

/-- The error is at this place: it starts in this line or at its newline, and ends where it ends, or right after the
newline of this line if it goes on in the next ones. -/
def At (ls : List (List Char)) (e : ActualError) (x : ExpectedError) : Prop :=
  ∃ line, ls[x.line]? = some line ∧
    e.start = startOf ls x.line + x.start ∧ x.start ≤ utf8Len line ∧
    startOf ls x.line ≤ e.stop ∧ x.stop = min (e.stop - startOf ls x.line) (utf8Len line + 1) ∧
    x.kind = e.kind

/-- Not in an empty last line. -/
def Visible (ls : List (List Char)) (x : ExpectedError) : Prop := x.line + 1 = ls.length → ls[x.line]? ≠ some []

/-- The errors are at these places, one by one. -/
def AllAt (P : ActualError → ExpectedError → Prop) (es : List ActualError) (xs : List ExpectedError) : Prop :=
  xs.length = es.length ∧ ∀ p ∈ es.zip xs, P p.1 p.2

end Styx.Testing.Spec
