import Verif.Tree.Value

/-!
# Specification: two documents that differ in the order of entries of objects
-/

namespace Styx.Schema

mutual
/-- The values differ at most in the order of the entries of objects, at any depth below sequences
and the values of entries. -/
inductive Reordered : Value → Value → Prop where
  | same (v) : Reordered v v
  | items {tag sp sp' xs ys} : ItemsReordered xs ys →
      Reordered (.mk tag (some (.sequence xs sp)) sp') (.mk tag (some (.sequence ys sp)) sp')
  | entries {tag sp sp' es es'} : EntriesReordered es es' →
      Reordered (.mk tag (some (.object es sp)) sp') (.mk tag (some (.object es' sp)) sp')
/-- The same for the items of a sequence, one by one. -/
inductive ItemsReordered : List Value → List Value → Prop where
  | nil : ItemsReordered [] []
  | cons {x y xs ys} : Reordered x y → ItemsReordered xs ys → ItemsReordered (x :: xs) (y :: ys)
/-- The same for entries, which can also be exchanged. -/
inductive EntriesReordered : List Entry → List Entry → Prop where
  | nil : EntriesReordered [] []
  | cons {k v v' d es es'} : Reordered v v' → EntriesReordered es es' →
      EntriesReordered (.mk k v d :: es) (.mk k v' d :: es')
  | swap (e f es) : EntriesReordered (e :: f :: es) (f :: e :: es)
  | trans {es es' es''} : EntriesReordered es es' → EntriesReordered es' es'' →
      EntriesReordered es es''
end

end Styx.Schema
