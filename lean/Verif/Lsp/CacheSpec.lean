import Verif.Lsp.Cache

/-!
# Specification: the schema cache

Nothing here refers to how a call works, except for the question whether it is in the middle of writing.
-/

namespace Styx.Spec

open Styx Styx.Lsp

/-- A relative path that never leads up: no part between slashes is `..`. -/
def StaysDown (p : List Char) : Prop :=
  ∀ pre post, p = pre ++ ['.', '.'] ++ post → (pre = [] ∨ pre.getLast? = some '/') →
    ¬ (post = [] ∨ post.head? = some '/')

/-- A path inside a directory. -/
def InsideDir (dir p : List Char) : Prop := ∃ rest, p = dir ++ '/' :: rest ∧ StaysDown rest

/-- Nobody has begun; the file is not there, or complete. -/
def CacheStart (content : List UInt8) (s : Cache) : Prop :=
  (∀ i, s.call i = .start) ∧ ∀ f, s.entry = some f → f < s.fresh ∧ s.data f = content

/-- The call is in the middle of writing the file. -/
def WritesTo (s : Cache) (i f : Nat) : Prop := ∃ o, s.call i = .writing f o

/-- In the schedule, no call is stopped in the middle of writing. -/
def NeverCut (content : List UInt8) (s : Cache) (as : List Action) : Prop :=
  ∀ before i after, as = before ++ .stop i :: after → ∀ f, ¬ WritesTo (s.acts content before) i f

/-- Nobody clears the cache. -/
def NoClear (as : List Action) : Prop := ∀ a ∈ as, a ≠ .clear

/-- Every call that has begun has ended. -/
def AllEnded (s : Cache) : Prop := ∀ i, s.call i = .start ∨ s.call i = .returned ∨ s.call i = .stopped

end Styx.Spec
