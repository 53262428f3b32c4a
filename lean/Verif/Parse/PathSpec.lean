import Verif.Parse.PathState

/-!
# Specification: when a dotted path conflicts with the paths before it

A history is the list of the paths given so far with what they were given (an object or a terminal
value), oldest first.  Nothing here refers to the tracker's stack.
-/

namespace Styx.Spec

/-- A history of paths. -/
abbrev History := List (List (List Char) × PathValueKind)

/-- In the history, `pre` was extended by `k` at some point, all paths since then stayed inside
`pre`, and the last one is no longer inside `pre.k`. -/
def Closed (h : History) (pre : List (List Char)) (k : List Char) : Prop :=
  ∃ h1 q h2, h = h1 ++ q :: h2 ∧ pre ++ [k] <+: q.1 ∧ (∀ x ∈ h2, pre <+: x.1) ∧
    ∃ l, (q :: h2).getLast? = some l ∧ ¬ pre ++ [k] <+: l.1

/-- `path` leads through a closed child. -/
def Reopens (h : History) (path : List (List Char)) : Prop :=
  ∃ pre k, pre ≠ [] ∧ pre ++ [k] <+: path ∧ Closed h pre k

/-- `path` conflicts with the history: it repeats the last path, it extends the last path although
that was given a terminal value, or it leads through a closed child. -/
def Conflict (h : History) (path : List (List Char)) : Prop :=
  ∃ h0 last kind, h = h0 ++ [(last, kind)] ∧
    (path = last ∨ (last <+: path ∧ kind = .terminal) ∨ Reopens h path)

end Styx.Spec
