import Verif.Text.Grammar

/-!
# Specification: the texts of documents with braces around the root

As `RootText` of `Verif.Text.Grammar`, with the entries between `{` and `}`.  Before the opening brace there
may be blanks, line breaks, comments and commas, after the closing brace blanks, line breaks and comments.
-/

namespace Styx.Spec

/-- The texts of root entries with the closing brace. -/
inductive BracedEntries : List RootEntry → List Char → Prop
  | nil {g} : Gap true g → BracedEntries [] (g ++ ['}'])
  | cons {g ls dt ks path ke kt b v e s tr es t} : Gap true g → DocLines ls dt → RootKeyText ks path ke kt →
      Blanks b → b ≠ [] → ValueText v e s → Trailing tr → BracedEntries es t → Follows e (tr ++ t) →
      EntryEnd tr t → BracedEntries (⟨ks, path, v, docOf ls⟩ :: es) (g ++ dt ++ kt ++ b ++ s ++ tr ++ t)
  | lone {g ls dt ks path ke kt tr es t} : Gap true g → DocLines ls dt → RootKeyText ks path ke kt →
      Trailing tr → BracedEntries es t → Follows ke (tr ++ t) → EntryEnd tr t →
      BracedEntries (⟨ks, path, .mk none none none, docOf ls⟩ :: es) (g ++ dt ++ kt ++ tr ++ t)

/-- The texts of documents with braces around the root. -/
inductive BracedText : List RootEntry → List Char → Prop
  | mk {g es t g'} : Gap true g → BracedEntries es t → Gap false g' →
      BracedText es (g ++ ('{' :: (t ++ g')))

/-- What makes the keys of the entries the same that are not dotted. -/
def simpleIds (es : List RootEntry) : List (Option (List Char) × Option (List Char)) :=
  es.filterMap fun e => match e.keys with
    | [k] => some (keyId k)
    | _ => none

/-- No two entries whose keys are not dotted have the same key. -/
def DistinctSimple (es : List RootEntry) : Prop := (simpleIds es).Pairwise (· ≠ ·)

end Styx.Spec
