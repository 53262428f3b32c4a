import Verif.Basic

/-!
# Model of the typo suggestions of the schema validator

Source: crates/facet-styx/src/schema_validate.rs:9-55.  Rows are `List Nat` updated by index.
`str::to_lowercase` is a parameter (the Unicode tables are not modelled).
-/

namespace Styx.Schema

/-- schema_validate.rs:26-30: the inner loop over the characters of `b`, from column `j`.
`prev`, `curr` are `prev_row`, `curr_row`; out-of-range reads (which do not happen) give 0. -/
def levInner (ac : Char) (prev : List Nat) : List Char → Nat → List Nat → List Nat
  | [], _, curr => curr
  | bc :: bs, j, curr =>
    let cost := if ac = bc then 0 else 1
    levInner ac prev bs (j + 1)
      (curr.set (j + 1) (min (min (prev.getD (j + 1) 0 + 1) (curr.getD j 0 + 1)) (prev.getD j 0 + cost)))

/-- schema_validate.rs:24-33: the outer loop over the characters of `a`, from row `i`; the two rows
are swapped at the end of each round (32).  Returns `prev_row`. -/
def levOuter (b : List Char) : List Char → Nat → List Nat → List Nat → List Nat
  | [], _, prev, _ => prev
  | ac :: as, i, prev, curr => levOuter b as (i + 1) (levInner ac prev b 0 (curr.set 0 (i + 1))) prev

/-- schema_validate.rs:10-36 `levenshtein`. -/
def levenshtein (a b : List Char) : Nat :=
  if a.length = 0 then b.length
  else if b.length = 0 then a.length
  else (levOuter b a 0 (List.range (b.length + 1)) (List.replicate (b.length + 1) 0)).getD b.length 0

/-- `Iterator::min_by_key` on pairs with key the second component: the first minimum. -/
def minByDist : List (List Char × Nat) → Option (List Char × Nat)
  | [] => none
  | x :: xs => match minByDist xs with
    | none => some x
    | some y => if y.2 < x.2 then some y else some x

/-- schema_validate.rs:39-55 `suggest_similar`; `lower` is `str::to_lowercase`. -/
def suggestSimilar (lower : List Char → List Char) (unknown : List Char) (valid : List (List Char)) :
    Option (List Char) :=
  let ul := lower unknown
  (minByDist (valid.filterMap fun v =>
    let dist := levenshtein ul (lower v)
    if dist ≤ 2 ∧ dist < max (utf8Len unknown) 1 then some (v, dist) else none)).map (·.1)

end Styx.Schema
