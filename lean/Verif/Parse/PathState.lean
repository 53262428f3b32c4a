import Verif.Parse.Lexer

/-!
# Model of the dotted-path tracker

Source: crates/styx-parse/src/parser/mod.rs:1631-1798 (`PathState`).
The `HashMap` of closed children is a list of keys (only `insert` and `contains_key` are used; the
stored span is never read).
-/

namespace Styx

/-- parser/mod.rs:1631-1635 `PathValueKind`. -/
inductive PathValueKind where
  | object | terminal
  deriving DecidableEq, Repr

/-- parser/mod.rs:1637-1642 `PathError`. -/
inductive PathError where
  | duplicate (original : Span)
  | reopened (closedPath : List (List Char))
  | nestIntoTerminal (terminalPath : List (List Char))
  deriving DecidableEq, Repr

/-- parser/mod.rs:1650-1659 `PathSegment`. -/
structure PathSegment where
  key : List Char
  span : Span
  valueKind : PathValueKind
  closed : List (List Char)
  deriving DecidableEq, Repr

/-- parser/mod.rs:1668-1672 `PathState`: the stack of segments, root first. -/
abbrev PathState := List PathSegment

/-- parser/mod.rs:1685-1691: length of the common prefix of the current path and `path`. -/
def commonLen : PathState → List (List Char) → Nat
  | seg :: segs, key :: keys => if seg.key = key then commonLen segs keys + 1 else 0
  | _, _ => 0

/-- parser/mod.rs:1705-1716: pop segments beyond `n`, recording each popped key in its parent.
The code pops from the deepest upwards; only the parent of the shallowest popped segment survives,
so this is: keep the first `n` segments and add the key of segment `n` to the closed children of
segment `n - 1`. -/
def truncateTo : Nat → PathState → PathState
  | 0, _ => []
  | _ + 1, [] => []
  | 1, seg :: next :: _ => [{ seg with closed := next.key :: seg.closed }]
  | n + 1, seg :: segs => seg :: truncateTo n segs

/-- parser/mod.rs:1718-1789: push the segments of `keys` (the part of the path beyond the common
prefix) onto `st`.  After the truncation `i = self.segments.len()` holds in every round, so the
branches at 1727-1730 (`unreachable!`), 1732-1739 and 1743-1751 are never taken.  The state is
modified step by step also when an error is returned in the end. -/
def pushSegments (span : Span) (kind : PathValueKind) :
    PathState → List (List Char) → PathState × Option PathError
  | st, [] => (st, none)
  | st, key :: keys =>
    let segKind := if keys = [] then kind else .object
    match st.getLast? with
    | none => pushSegments span kind [⟨key, span, segKind, []⟩] keys
    | some parent =>
      if parent.valueKind = .terminal then (st, some (.nestIntoTerminal (st.map (·.key))))
      else if key ∈ parent.closed then (st, some (.reopened (st.map (·.key) ++ [key])))
      else pushSegments span kind (st ++ [⟨key, span, segKind, []⟩]) keys

/-- parser/mod.rs:1791-1794: set the value kind of the last segment. -/
def setLastKind (kind : PathValueKind) : PathState → PathState
  | [] => []
  | [seg] => [{ seg with valueKind := kind }]
  | seg :: segs => seg :: setLastKind kind segs

/-- parser/mod.rs:1675-1797 `check_and_update`. -/
def PathState.checkAndUpdate (st : PathState) (path : List (List Char)) (span : Span)
    (kind : PathValueKind) : PathState × Option PathError :=
  if path = [] then (st, none)
  else
    let n := commonLen st path
    match st.getLast? with
    | some last =>
      if n = path.length ∧ n = st.length then (st, some (.duplicate last.span))
      else
        match pushSegments span kind (truncateTo n st) (path.drop n) with
        | (st', none) => (setLastKind kind st', none)
        | (st', some e) => (st', some e)
    | none =>
      match pushSegments span kind (truncateTo n st) (path.drop n) with
      | (st', none) => (setLastKind kind st', none)
      | (st', some e) => (st', some e)

end Styx
