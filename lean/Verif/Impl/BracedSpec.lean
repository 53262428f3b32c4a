import Verif.Impl.Spec
import Verif.Text.BracedSpec

/-!
# Specification: documents with braces around the root that all implementations read alike

As `SharedRoot` of `Verif.Impl.Spec`, with the entries between `{` and `}`; what stands between the braces is an object
of `SharedValue`.
-/

namespace Styx.Spec

/-- Documents with braces around the root. -/
inductive SharedBraced : List Entry → List Char → Prop
  | mk {g es t g'} : Gap true g → SharedEntries es t → DistinctKeys es → DistinctLabels es → Gap false g' →
      SharedBraced es (g ++ ('{' :: (t ++ g')))

end Styx.Spec
