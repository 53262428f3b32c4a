import Verif.Parse.Parser

/-!
# The reports of syntax errors on the terminal

`styx-tree/src/diagnostic.rs` builds a report with the crate `ariadne`.  What is modelled of a report are its texts and the
ranges of its labels.  `ariadne` is not part of the repository; of it the model has what its documentation says of labels:
a range counts characters (`IndexType::Char`, the default of `Config`, which is not changed anywhere in the repository).
-/

namespace Styx.Cli

open Styx

/-- `ariadne::Label`, with the range as it is passed. -/
structure Label where
  range : Span
  message : List Char
  deriving DecidableEq, Repr

/-- `ariadne::Report`.  (Simplified: without kind, colours, and the name of the file.) -/
structure Report where
  place : Span
  message : List Char
  labels : List Label
  help : Option (List Char)
  deriving DecidableEq, Repr

/-- A report with one label, at the place of the report. -/
def oneLabel (sp : Span) (message label : List Char) (help : Option (List Char)) : Report :=
  ⟨sp, message, [⟨sp, label⟩], help⟩

/-- `[String]::join(".")`. -/
def joinDots : List (List Char) → List Char
  | [] => []
  | [x] => x
  | x :: xs => x ++ '.' :: joinDots xs

/-- crates/styx-tree/src/diagnostic.rs:38-219 `build_report`. -/
def buildReport (sp : Span) : ParseErrorKind → Report
  | .duplicateKey original => ⟨sp, chars! "duplicate key",
      [⟨original, chars! "first defined here"⟩, ⟨sp, chars! "duplicate key"⟩],
      some (chars! "each key must appear only once in an object")⟩
  | .unclosedObject => oneLabel sp (chars! "unclosed object") (chars! "object opened here") (some (chars! "add a closing '}'"))
  | .unclosedSequence => oneLabel sp (chars! "unclosed sequence") (chars! "sequence opened here")
      (some (chars! "add a closing ')'"))
  | .invalidEscape seq => oneLabel sp ((chars! "invalid escape sequence '") ++ seq ++ ['\'']) (chars! "invalid escape")
      (some (chars! "valid escapes are: \\\\, \\\", \\n, \\r, \\t, \\uXXXX, \\u{X...}"))
  | .unexpectedToken => oneLabel sp (chars! "unexpected token") (chars! "unexpected") none
  | .expectedKey => oneLabel sp (chars! "expected key") (chars! "expected a key here") none
  | .expectedValue => oneLabel sp (chars! "expected value") (chars! "expected a value here") none
  | .unexpectedEof => oneLabel sp (chars! "unexpected end of input") (chars! "input ends here") none
  | .invalidTagName => oneLabel sp (chars! "invalid tag name") (chars! "invalid tag")
      (some (chars! "tag names must match @[A-Za-z_][A-Za-z0-9_.-]*"))
  | .invalidKey => oneLabel sp (chars! "invalid key") (chars! "cannot be used as a key")
      (some (chars! "keys must be scalars or unit, optionally tagged (no objects, sequences, or heredocs)"))
  | .danglingDocComment => oneLabel sp (chars! "dangling doc comment") (chars! "doc comment not followed by entry")
      (some (chars! "doc comments (///) must be followed by an entry"))
  | .tooManyAtoms => oneLabel sp (chars! "unexpected atom after value") (chars! "unexpected third atom")
      (some (chars! "did you mean `@tag{}`? whitespace is not allowed between a tag and its payload"))
  | .reopenedPath path => oneLabel sp ((chars! "cannot reopen path `") ++ joinDots path ++ ['`'])
      (chars! "path was closed when sibling appeared")
      (some (chars! "sibling paths must appear contiguously; once you move to a different path, you cannot go back"))
  | .nestIntoTerminal path => oneLabel sp ((chars! "cannot nest into `") ++ joinDots path ++ ['`'])
      (chars! "path has a terminal value")
      (some (chars! "you cannot add children to a path that already has a scalar, sequence, tag, or unit value"))
  | .commaInSequence => oneLabel sp (chars! "unexpected comma in sequence") (chars! "comma not allowed here")
      (some (chars! "sequences are whitespace-separated, not comma-separated"))
  | .missingWhitespaceBeforeBlock => oneLabel sp (chars! "missing whitespace before block")
      (chars! "add whitespace before this")
      (some (chars! "bare keys must be separated from `{` or `(` by whitespace (to distinguish from tags like `@tag{}`)"))
  | .trailingContent => oneLabel sp (chars! "trailing content after explicit root object")
      (chars! "unexpected content here")
      (some (chars! "an explicit root object `{...}` is the entire document; nothing can follow it"))

/-- What a label underlines: the characters before it and the underlined ones.  (The contract of `ariadne`: the ends of the
range count characters; there is nothing to underline if the text has not so many.) -/
def underlined (source : List Char) (range : Span) : Option (List Char × List Char) :=
  if range.start ≤ range.stop ∧ range.stop ≤ source.length then
    some (source.take range.start, (source.drop range.start).take (range.stop - range.start))
  else none

end Styx.Cli
