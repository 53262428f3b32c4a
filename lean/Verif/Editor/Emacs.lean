import Verif.Basic

/-!
# Model: indentation in Emacs (editors/emacs-styx/styx-mode.el)

A line is its indentation, as a column, and what follows it.  How the indentation is made up of tabs and spaces is left
out, white space other than these two is taken for text, and cursors are not modelled.
-/

namespace Styx.Editor.Emacs

open Styx

/-- A line: the column of its text (`current-indentation`) and its text, which does not begin with a blank. -/
structure Line where
  col : Nat
  text : List Char
  deriving DecidableEq, Repr

/-- editors/emacs-styx/styx-mode.el:81: `looking-at "^\\s-*$"`. -/
def Line.blank (l : Line) : Bool := l.text.isEmpty

/-- A blank. -/
def isBlankChar (c : Char) : Bool := c = ' ' || c = '\t'

/-- editors/emacs-styx/styx-mode.el:86: `looking-back "[{(]\\s-*$"` at the end of the line. -/
def Line.opens (l : Line) : Bool :=
  match l.text.reverse.dropWhile isBlankChar with
  | c :: _ => c = '{' || c = '('
  | [] => false

/-- editors/emacs-styx/styx-mode.el:92: `looking-at "^\\s-*[})]"`. -/
def Line.closes (l : Line) : Bool :=
  match l.text with
  | c :: _ => c = '}' || c = ')'
  | [] => false

/-- editors/emacs-styx/styx-mode.el:80-82: the line the indentation is taken from, and the line below it, which
`forward-line 1` (line 90) goes to.  `above` are the lines above `below`, the nearest first. -/
def walkUp : Line → List Line → Line × Line
  | below, [] => (below, below)
  | below, [p] => (p, below)
  | below, p :: q :: ps => if p.blank then walkUp p (q :: ps) else (p, below)

/-- editors/emacs-styx/styx-mode.el:69-96 `styx-indent-line`: the column the line is indented to. -/
def indentColumn (offset : Nat) (above : List Line) (cur : Line) : Nat :=
  if above.isEmpty then 0
  else
    let r := walkUp cur above
    let indent := if r.1.opens then r.1.col + offset else r.1.col
    if r.2.closes then indent - offset else indent

/-- `indent-region` of Emacs, line by line from the top (`indent-region-line-by-line`): lines that are empty are left
alone, the others are indented with `styx-indent-line` (editors/emacs-styx/styx-mode.el:69-96).  `above` are the
lines that are done, the last first. -/
def indentLines (offset : Nat) (above : List Line) : List Line → List Line
  | [] => []
  | l :: ls =>
    let l' := if l.blank && l.col = 0 then l else { l with col := indentColumn offset above l }
    l' :: indentLines offset (l' :: above) ls

/-- The whole buffer. -/
def indentBuffer (offset : Nat) (ls : List Line) : List Line := indentLines offset [] ls

end Styx.Editor.Emacs
