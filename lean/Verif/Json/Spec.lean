import Verif.Json.Model
import Verif.Schema.Spec
import Verif.Text.Grammar

/-! # Specification of the JSON conversions -/

namespace Styx.Json

open Styx Styx.Spec

/-- What is assumed of numbers: the text printed for a finite number is not empty, consists of digits and
`-`, `+`, `.`, `e`, is not that of an integer in the range of `i64`, and reads back as the number; `true` and
`false` are no numbers. -/
structure Lawful (L : Lib) : Prop where
  nonempty : ∀ x, L.finite x = true → L.text x ≠ []
  chars : ∀ x, L.finite x = true → ∀ c ∈ L.text x, c.isDigit = true ∨ c = '-' ∨ c = '+' ∨ c = '.' ∨ c = 'e'
  notInt : ∀ x, L.finite x = true → ∀ n, Schema.IsInt (L.text x) n → n < -(2 ^ 63) ∨ 2 ^ 63 ≤ n
  reads : ∀ x, L.finite x = true → L.parse (L.text x) = some x
  noTrue : L.parse (chars! "true") = none
  noFalse : L.parse (chars! "false") = none

/-- A string that looks like nothing else: no number, boolean or null. -/
def OnlyText (L : Lib) (s : List Char) : Prop :=
  (∀ n, Schema.IsInt s n → n < -(2 ^ 63) ∨ 2 ^ 63 ≤ n) ∧ L.parse s = none ∧
  s ≠ chars! "true" ∧ s ≠ chars! "false" ∧ s ≠ chars! "null"

/-- A string that Styx and back does not change: it looks like nothing else, has no `>` and at most one line
break. -/
def StableText (L : Lib) (s : List Char) : Prop :=
  OnlyText L s ∧ '>' ∉ s ∧ s.count '\n' < 2

mutual
/-- JSON values that Styx and back does not change. -/
inductive Stable (L : Lib) : Json L.F → Prop
  | null : Stable L .null
  | bool (b : Bool) : Stable L (.bool b)
  | int {n : Int} : -(2 ^ 63) ≤ n → n < 2 ^ 63 → Stable L (.int n)
  | float {x : L.F} : L.finite x = true → Stable L (.float x)
  | str {s : List Char} : StableText L s → Stable L (.str s)
  | arr {items : List (Json L.F)} : StableItems L items → Stable L (.arr items)
  | obj {ms : List (Member L.F)} : StableMembers L ms → (ms.map Member.name).Pairwise (· ≠ ·) →
      (∀ s, Member.mk (chars! "$tag") (.str s) ∉ ms) → Stable L (.obj ms)
  | tag {t : List Char} : TagName t → Stable L (.obj [.mk (chars! "$tag") (.str t)])
  | tagArr {t : List Char} {items : List (Json L.F)} : TagName t → StableItems L items →
      Stable L (.obj [.mk (chars! "$tag") (.str t), .mk (chars! "$value") (.arr items)])
  | tagObj {t : List Char} {ms : List (Member L.F)} : TagName t → StableMembers L ms →
      (ms.map Member.name).Pairwise (· ≠ ·) → (∀ s, Member.mk (chars! "$tag") (.str s) ∉ ms) →
      Stable L (.obj [.mk (chars! "$tag") (.str t), .mk (chars! "$value") (.obj ms)])
/-- Items: no null, and no tag alone except at the end. -/
inductive StableItems (L : Lib) : List (Json L.F) → Prop
  | nil : StableItems L []
  | cons {j : Json L.F} {js : List (Json L.F)} : Stable L j → j ≠ .null →
      (js ≠ [] → ∀ t, j ≠ .obj [.mk (chars! "$tag") (.str t)]) → StableItems L js → StableItems L (j :: js)
/-- Members: no `>` in names. -/
inductive StableMembers (L : Lib) : List (Member L.F) → Prop
  | nil : StableMembers L []
  | cons {n : List Char} {v : Json L.F} {ms : List (Member L.F)} : '>' ∉ n → Stable L v → StableMembers L ms →
      StableMembers L (.mk n v :: ms)
end

/-- A step into a JSON value. -/
inductive Step where
  | name (n : List Char)
  | index (i : Nat)
  deriving DecidableEq, Repr

/-- Following steps in a JSON value. -/
def follow {F : Type} : List Step → Json F → Option (Json F)
  | [], j => some j
  | .name n :: p, .obj ms => (get n ms).bind (follow p)
  | .index i :: p, .arr js => (js[i]?).bind (follow p)
  | _ :: _, _ => none

/-- `Reaches payload name v p w`: the steps `p` lead from the value `v` to the value `w`: by the index of an
item, by the name of a key (the last entry with this name), and by the name `payload` from a tagged value to
its payload. -/
inductive Reaches (payload : List Char) (name : Value → List Char) : Value → List Step → Value → Prop
  | here (v : Value) : Reaches payload name v [] v
  | item {items : List Value} {sp sp' : Option Span} {i : Nat} {v w : Value} {p : List Step} :
      items[i]? = some v → Reaches payload name v p w →
      Reaches payload name (.mk none (some (.sequence items sp)) sp') (.index i :: p) w
  | entry {pre post : List Entry} {k v w : Value} {d : Option (List Char)} {sp sp' : Option Span} {p : List Step} :
      (∀ e ∈ post, name (entryKey e) ≠ name k) → Reaches payload name v p w →
      Reaches payload name (.mk none (some (.object (pre ++ .mk k v d :: post) sp)) sp') (.name (name k) :: p) w
  | payload {t : Tag} {q : Payload} {sp sp' : Option Span} {w : Value} {p : List Step} :
      Reaches payload name (.mk none (some q) sp') p w →
      Reaches payload name (.mk (some t) (some q) sp) (.name payload :: p) w

/-- `ScalarShows L s j`: how JavaScript sees the scalar `s`: as an integer, as another number, as a boolean, as
null, or as the text itself.  A number that is not finite is seen as null. -/
inductive ScalarShows (L : Lib) (s : List Char) : Json L.F → Prop
  | int {n : Int} : Schema.IsInt s n → -(2 ^ 63) ≤ n → n < 2 ^ 63 → ScalarShows L s (.int n)
  | float {x : L.F} : (∀ n, Schema.IsInt s n → n < -(2 ^ 63) ∨ 2 ^ 63 ≤ n) → L.parse s = some x → L.finite x = true →
      ScalarShows L s (.float x)
  | infinite {x : L.F} : (∀ n, Schema.IsInt s n → n < -(2 ^ 63) ∨ 2 ^ 63 ≤ n) → L.parse s = some x →
      L.finite x = false → ScalarShows L s .null
  | true_ : L.parse s = none → s = chars! "true" → ScalarShows L s (.bool true)
  | false_ : L.parse s = none → s = chars! "false" → ScalarShows L s (.bool false)
  | null : L.parse s = none → s = chars! "null" → ScalarShows L s .null
  | str : OnlyText L s → ScalarShows L s (.str s)

/-- How a value looks at its top in JSON: a unit is null, a scalar as given by `scalar`, a sequence an array with
as many items, an object an object with the same names, each once, and a tagged value an object with its tag and
its payload, if there is one. -/
def Looks {F : Type} (payload : List Char) (name : Value → List Char) (scalar : List Char → Json F → Prop) :
    Value → Json F → Prop
  | .mk none none _, j => j = .null
  | .mk none (some (.scalar s _ _)) _, j => scalar s j
  | .mk none (some (.sequence items _)) _, j => ∃ js, j = .arr js ∧ js.length = items.length
  | .mk none (some (.object es _)) _, j => ∃ ms, j = .obj ms ∧ (ms.map Member.name).Nodup ∧
      ∀ n, n ∈ ms.map Member.name ↔ ∃ e ∈ es, name (entryKey e) = n
  | .mk (some t) q _, j => ∃ ms, j = .obj ms ∧ get (chars! "$tag") ms = some (.str t.name) ∧
      (get payload ms).isSome = q.isSome

/-- The name of a key on the command line: the debug text for a tag. -/
def cliName (L : Lib) : Value → List Char
  | .mk (some t) q sp => L.debug (.mk (some t) q sp)
  | .mk none (some (.scalar s _ _)) _ => s
  | .mk none _ _ => ['@']

end Styx.Json
