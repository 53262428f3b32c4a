import Verif.Format.PrintSpec

/-!
# Lemma: trees that are compared and found equal are equal
-/

namespace Styx.Spec

mutual
theorem eq_of_sameValue : (v v' : Value) → sameValue v v' = true → v = v'
  | .mk t p s, .mk t' p' s', h => by
    simp only [sameValue, Bool.and_eq_true, decide_eq_true_eq] at h
    rw [h.1.1, eq_of_samePayload p p' h.1.2, h.2]
theorem eq_of_samePayload : (p p' : Option Payload) → samePayload p p' = true → p = p'
  | none, none, _ => rfl
  | some (.scalar s k sp), some (.scalar s' k' sp'), h => by
    simp only [samePayload, Bool.and_eq_true, decide_eq_true_eq] at h
    rw [h.1.1, h.1.2, h.2]
  | some (.sequence vs sp), some (.sequence vs' sp'), h => by
    simp only [samePayload, Bool.and_eq_true, decide_eq_true_eq] at h
    rw [eq_of_sameItems vs vs' h.1, h.2]
  | some (.object es sp), some (.object es' sp'), h => by
    simp only [samePayload, Bool.and_eq_true, decide_eq_true_eq] at h
    rw [eq_of_sameEntries es es' h.1, h.2]
  | none, some _, h | some _, none, h => by simp [samePayload] at h
  | some (.scalar ..), some (.sequence ..), h | some (.scalar ..), some (.object ..), h
  | some (.sequence ..), some (.scalar ..), h | some (.sequence ..), some (.object ..), h
  | some (.object ..), some (.scalar ..), h | some (.object ..), some (.sequence ..), h => by simp [samePayload] at h
theorem eq_of_sameItems : (vs vs' : List Value) → sameItems vs vs' = true → vs = vs'
  | [], [], _ => rfl
  | v :: vs, v' :: vs', h => by
    simp only [sameItems, Bool.and_eq_true] at h
    rw [eq_of_sameValue v v' h.1, eq_of_sameItems vs vs' h.2]
  | [], _ :: _, h | _ :: _, [], h => by simp [sameItems] at h
theorem eq_of_sameEntries : (es es' : List Entry) → sameEntries es es' = true → es = es'
  | [], [], _ => rfl
  | .mk k v d :: es, .mk k' v' d' :: es', h => by
    simp only [sameEntries, Bool.and_eq_true, decide_eq_true_eq] at h
    rw [eq_of_sameValue k k' h.1.1.1, eq_of_sameValue v v' h.1.1.2, h.1.2, eq_of_sameEntries es es' h.2]
  | [], _ :: _, h | _ :: _, [], h => by simp [sameEntries] at h
end

end Styx.Spec
