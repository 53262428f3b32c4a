import Verif.Cli.Sexp

/-!
# Model of the debug tree of the command line

Source: crates/styx-cli/src/main.rs (`styx tree --format debug`).

Printing is a function that gives the printed text.  Simplification: the branches of `print_tree` for a value without a
tag are, word for word, those of `print_payload` at the same indentation; here they are one function.  As for
S-expressions, which characters Rust prints as they are in `{:?}` is a parameter.
-/

namespace Styx.Cli

open Styx

/-- main.rs:1116, 1150: `{:?}` of the kind of a scalar, which is derived (crates/styx-parse/src/event.rs: `ScalarKind`). -/
def debugKind : ScalarKind → List Char
  | .bare => chars! "Bare"
  | .quoted => chars! "Quoted"
  | .raw => chars! "Raw"
  | .heredoc => chars! "Heredoc"

/-- main.rs:1179-1187 `is_complex_value`. -/
def isComplexValue : Value → Bool
  | .mk (some _) (some _) _ => true
  | .mk _ (some (.object ..)) _ => true
  | .mk _ (some (.sequence ..)) _ => true
  | _ => false

/-- main.rs:1189-1204 `print_tree_inline`. -/
def treeInline (pr : Char → Bool) : Value → List Char
  | .mk (some t) (some _) _ => chars! "Tagged @" ++ t.name ++ (chars! " {...}")
  | .mk (some t) none _ => chars! "Tagged @" ++ t.name
  | .mk none none _ => chars! "Unit"
  | .mk none (some (.scalar text _ _)) _ => chars! "Scalar(" ++ debugStr pr text ++ (chars! ")")
  | .mk none (some (.sequence ..)) _ => chars! "Sequence [...]"
  | .mk none (some (.object ..)) _ => chars! "Object {...}"

mutual
/-- main.rs:1095-1144 `print_tree`. -/
def treeValue (pr : Char → Bool) (ind : Nat) : Value → List Char
  | .mk (some t) none _ => sexpPad ind ++ (chars! "Tagged @") ++ t.name ++ (chars! "\n")
  | .mk (some t) (some p) _ => sexpPad ind ++ (chars! "Tagged @") ++ t.name ++ (chars! " {\n") ++ treePayload pr (ind + 1) p ++
      sexpPad ind ++ (chars! "}\n")
  | .mk none none _ => sexpPad ind ++ (chars! "Unit\n")
  | .mk none (some p) _ => treePayload pr ind p
/-- main.rs:1146-1177 `print_payload`, and 1115-1141 in `print_tree`. -/
def treePayload (pr : Char → Bool) (ind : Nat) : Payload → List Char
  | .scalar text kind _ => sexpPad ind ++ (chars! "Scalar(") ++ debugStr pr text ++ (chars! ", ") ++ debugKind kind ++
      (chars! ")\n")
  | .sequence items _ => sexpPad ind ++ (chars! "Sequence [\n") ++ treeItems pr (ind + 1) items ++ sexpPad ind ++ (chars! "]\n")
  | .object es _ => sexpPad ind ++ (chars! "Object {\n") ++ treeEntries pr ind es ++ sexpPad ind ++ (chars! "}\n")
/-- main.rs:1154-1156: the items of a sequence. -/
def treeItems (pr : Char → Bool) (ind : Nat) : List Value → List Char
  | [] => []
  | v :: vs => treeValue pr ind v ++ treeItems pr ind vs
/-- main.rs:1161-1173: the entries of an object that is printed at indentation `ind`. -/
def treeEntries (pr : Char → Bool) (ind : Nat) : List Entry → List Char
  | [] => []
  | .mk k v _ :: es => sexpPad ind ++ (chars! "  key: ") ++ treeInline pr k ++ (chars! "\n") ++
      sexpPad ind ++ (chars! "  value: ") ++
      (if isComplexValue v then (chars! "\n") ++ treeValue pr (ind + 2) v else treeInline pr v ++ (chars! "\n")) ++
      treeEntries pr ind es
end

/-- main.rs:567-574 (`run_tree` with format `debug`): what is printed for a document with this result.  For a syntax error
nothing is printed here; the diagnostic goes to standard error. -/
def debugOutput (pr : Char → Bool) : Except BuildError Value → List Char
  | .ok v => treeValue pr 0 v
  | .error _ => []

end Styx.Cli
