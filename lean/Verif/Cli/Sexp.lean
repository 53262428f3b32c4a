import Verif.Tree.Builder

/-!
# Model of the S-expressions of the command line

Source: crates/styx-cli/src/main.rs (`styx tree --format sexp`), the format of the compliance suite.

Printing is a function that gives the printed text.  Simplifications: `print_sexp_value` and `print_sexp_payload` have
the same branches for a scalar, a sequence and an object, except that the first takes the place of the value and the
second that of the payload; here they are one function that is given the place.  Which characters Rust prints as they are
in `{:?}` is a parameter; the texts of syntax errors are too.
-/

namespace Styx.Cli

open Styx

/-- One character in `{:?}` of a string (`char::escape_debug_ext` of the standard library). -/
def debugChar (printable : Char → Bool) (c : Char) : List Char :=
  if c = '\x00' then ['\\', '0'] else if c = '\t' then ['\\', 't'] else if c = '\r' then ['\\', 'r']
  else if c = '\n' then ['\\', 'n'] else if c = '"' then ['\\', '"'] else if c = '\\' then ['\\', '\\']
  else if printable c then [c] else ['\\', 'u', '{'] ++ Nat.toDigits 16 c.toNat ++ ['}']

/-- `{:?}` of a string (main.rs:1251, 1269, 1318). -/
def debugStr (printable : Char → Bool) (s : List Char) : List Char :=
  '"' :: s.flatMap (debugChar printable) ++ ['"']

/-- main.rs:1216-1219, 1242-1245: a place, or `[-1, -1]`. -/
def spanText : Option Span → List Char
  | some sp => chars! "[" ++ Nat.toDigits 10 sp.start ++ (chars! ", ") ++ Nat.toDigits 10 sp.stop ++ (chars! "]")
  | none => chars! "[-1, -1]"

/-- main.rs:1213, 1231, 1241, 1301: two spaces for each level. -/
def sexpPad : Nat → List Char
  | 0 => []
  | n + 1 => ' ' :: ' ' :: sexpPad n

/-- main.rs:1263-1268. -/
def kindName : ScalarKind → List Char
  | .bare => chars! "bare"
  | .quoted => chars! "quoted"
  | .raw => chars! "raw"
  | .heredoc => chars! "heredoc"

/-- The place of a payload (main.rs:1304-1307, 1321-1324, 1337-1340). -/
def payloadSpan : Payload → Option Span
  | .scalar _ _ sp => sp
  | .sequence _ sp => sp
  | .object _ sp => sp

mutual
/-- main.rs:1240-1298 `print_sexp_value`. -/
def sexpValue (pr : Char → Bool) (ind : Nat) : Value → List Char
  | .mk none none sp => sexpPad ind ++ (chars! "(unit ") ++ spanText sp ++ (chars! ")")
  | .mk (some t) none sp => sexpPad ind ++ (chars! "(tag ") ++ spanText sp ++ ' ' :: debugStr pr t.name ++ (chars! ")")
  | .mk (some t) (some p) sp => sexpPad ind ++ (chars! "(tag ") ++ spanText sp ++ ' ' :: debugStr pr t.name ++
      '\n' :: sexpPayload pr (ind + 1) (payloadSpan p) p ++ (chars! ")")
  | .mk none (some p) sp => sexpPayload pr ind sp p
/-- main.rs:1262-1296, and 1300-1360 `print_sexp_payload`. -/
def sexpPayload (pr : Char → Bool) (ind : Nat) (sp : Option Span) : Payload → List Char
  | .scalar text kind _ => sexpPad ind ++ (chars! "(scalar ") ++ spanText sp ++ ' ' :: kindName kind ++
      ' ' :: debugStr pr text ++ (chars! ")")
  | .sequence items _ => sexpPad ind ++ (chars! "(sequence ") ++ spanText sp ++ sexpItems pr (ind + 1) items ++ (chars! ")")
  | .object [] _ => sexpPad ind ++ (chars! "(object ") ++ spanText sp ++ (chars! ")")
  | .object (e :: es) _ => sexpPad ind ++ (chars! "(object ") ++ spanText sp ++ '\n' :: sexpEntry pr (ind + 1) e ++
      sexpEntries pr (ind + 1) es ++ sexpPad ind ++ (chars! ")")
/-- main.rs:1275-1282: every item on a line of its own. -/
def sexpItems (pr : Char → Bool) (ind : Nat) : List Value → List Char
  | [] => []
  | v :: vs => '\n' :: sexpValue pr ind v ++ sexpItems pr ind vs
/-- main.rs:1230-1238 `print_sexp_entry`. -/
def sexpEntry (pr : Char → Bool) (ind : Nat) : Entry → List Char
  | .mk k v _ => sexpPad ind ++ (chars! "(entry\n") ++ sexpValue pr (ind + 1) k ++ '\n' :: sexpValue pr (ind + 1) v ++
      (chars! ")\n")
/-- main.rs:1291-1293: the entries of an object. -/
def sexpEntries (pr : Char → Bool) (ind : Nat) : List Entry → List Char
  | [] => []
  | e :: es => sexpEntry pr ind e ++ sexpEntries pr ind es
end

/-- main.rs:1212-1228 `print_sexp` at level 0. -/
def sexpDocument (pr : Char → Bool) (v : Value) : List Char :=
  match v.asObject with
  | some es => chars! "(document " ++ spanText v.span ++ '\n' :: sexpEntries pr 1 es ++ (chars! ")")
  | none => sexpValue pr 0 v

/-- builder.rs:22-33 `Display for BuildError`. -/
def buildErrorText (message : ParseErrorKind → List Char) (unexpected : List Char) : BuildError → List Char
  | .unexpectedEvent => chars! "unexpected event: " ++ unexpected
  | .unclosedStructure => chars! "unclosed structure"
  | .emptyDocument => chars! "empty document"
  | .parse k sp => chars! "parse error at " ++ Nat.toDigits 10 sp.start ++ '-' :: Nat.toDigits 10 sp.stop ++
      (chars! ": ") ++ message k

/-- main.rs:559-562: the place of an error. -/
def buildErrorSpan : BuildError → Span
  | .parse _ sp => sp
  | _ => ⟨0, 0⟩

/-- main.rs:552-566 (`run_tree` with format `sexp`): what is printed for a document with this result. -/
def treeOutput (pr : Char → Bool) (message : ParseErrorKind → List Char) (unexpected filename : List Char) :
    Except BuildError Value → List Char
  | .ok v => chars! "; file: " ++ filename ++ '\n' :: sexpDocument pr v ++ (chars! "\n")
  | .error e => chars! "; file: " ++ filename ++ '\n' :: (chars! "(error ") ++ spanText (some (buildErrorSpan e)) ++
      ' ' :: debugStr pr (buildErrorText message unexpected e) ++ (chars! ")\n")

end Styx.Cli
