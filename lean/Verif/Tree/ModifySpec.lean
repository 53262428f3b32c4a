import Verif.Tree.Value

/-!
# Specification: one place of a tree is replaced
-/

namespace Styx.Spec

/-- `Replaced place v old new v'`: the value at the place of `v` is `old`, and `v'` is `v` with `new` there instead.
A place is the way to a value: the numbers of the entries and items on it.  Everything beside the way is the same in
both: entries, keys, doc comments, items, tags and spans. -/
inductive Replaced : List Nat → Value → Value → Value → Value → Prop where
  | here (old new : Value) : Replaced [] old old new new
  | entry {place : List Nat} {x old new x' : Value} (t : Option Tag) (a : List Entry) (k : Value)
      (d : Option (List Char)) (b : List Entry) (o s : Option Span) (h : Replaced place x old new x') :
      Replaced (a.length :: place) (.mk t (some (.object (a ++ .mk k x d :: b) o)) s) old new
        (.mk t (some (.object (a ++ .mk k x' d :: b) o)) s)
  | item {place : List Nat} {x old new x' : Value} (t : Option Tag) (a b : List Value) (o s : Option Span)
      (h : Replaced place x old new x') :
      Replaced (a.length :: place) (.mk t (some (.sequence (a ++ x :: b) o)) s) old new
        (.mk t (some (.sequence (a ++ x' :: b) o)) s)

end Styx.Spec
