import Verif.Text.Grammar

/-! # Specification: sequences that consist of one heredoc -/

namespace Styx.Spec

/-- The only item is a heredoc. -/
def LoneHeredoc : List Value → Prop
  | [.mk none (some (.scalar _ .heredoc _)) _] => True
  | _ => False

mutual
/-- Nowhere in the value is there a sequence whose only item is a heredoc. -/
def NoLoneHeredoc : Value → Prop
  | .mk _ (some (.sequence items _)) _ => ¬ LoneHeredoc items ∧ NoLoneItems items
  | .mk _ (some (.object es _)) _ => NoLoneEntries es
  | _ => True
/-- … in all items. -/
def NoLoneItems : List Value → Prop
  | [] => True
  | v :: vs => NoLoneHeredoc v ∧ NoLoneItems vs
/-- … in the values of all entries. -/
def NoLoneEntries : List Entry → Prop
  | [] => True
  | .mk _ v _ :: es => NoLoneHeredoc v ∧ NoLoneEntries es
end

end Styx.Spec
