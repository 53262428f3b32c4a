/-!
# Specification: edit distance

The edit distance of two texts is the least number of single-character insertions, deletions and
replacements that turns the one into the other.  Refers to no function of the model.
-/

namespace Styx.Schema

/-- One single-character edit. -/
inductive Edit : List Char → List Char → Prop where
  | insert (l r : List Char) (c : Char) : Edit (l ++ r) (l ++ c :: r)
  | delete (l r : List Char) (c : Char) : Edit (l ++ c :: r) (l ++ r)
  | replace (l r : List Char) (c d : Char) : Edit (l ++ c :: r) (l ++ d :: r)

/-- `a` can be turned into `b` by `n` edits. -/
inductive Edits : Nat → List Char → List Char → Prop where
  | done (a : List Char) : Edits 0 a a
  | step {n : Nat} {a b c : List Char} : Edit a b → Edits n b c → Edits (n + 1) a c

/-- `n` is the least number of edits turning `a` into `b`. -/
def EditDistance (a b : List Char) (n : Nat) : Prop :=
  Edits n a b ∧ ∀ m, Edits m a b → n ≤ m

end Styx.Schema
