import Verif.Swift.Spec

/-! # The documents of `Verif.Swift.Spec` are shared documents -/

namespace Styx.Swift

open Styx.Spec

theorem gap_commas {g : List Char} (h : Gap false g) : Gap true g := by
  induction h with
  | nil => exact .nil
  | blank h _ ih => exact .blank h ih
  | newline h _ ih => exact .newline h ih
  | comment h1 h2 _ ih => exact .comment h1 h2 ih
  | comma h => cases h

theorem gap_append {b : Bool} {g g' : List Char} (h : Gap b g) (h' : Gap b g') : Gap b (g ++ g') := by
  induction h with
  | nil => exact h'
  | blank h _ ih => exact .blank h ih
  | newline h _ ih => rw [List.append_assoc]; exact .newline h ih
  | comment h1 h2 _ ih => rw [List.append_assoc, List.append_assoc]; exact .comment h1 h2 ih
  | comma h _ ih => exact .comma h ih

theorem entrySpace_gap {c : Bool} {g : List Char} (h : EntrySpace c g) : Gap true g := by
  rcases h with h | ⟨-, g1, g2, rfl, h1, h2⟩
  · exact gap_commas h.1
  · exact gap_append (gap_commas h1.1) (.comma rfl (gap_commas h2.1))

theorem docLines {ls : List (List Char)} {dt : List Char} (h : LfDocLines ls dt) : DocLines ls dt := by
  induction h with
  | nil => exact .nil
  | cons h1 h2 h3 _ ih => exact .cons h1 h2 (.inl rfl) (gap_commas h3.1) ih

theorem shared_scalar {v k e s} (h : SwiftScalar v k e s) : SharedScalar v k e s := by
  cases h with
  | bare h => exact .bare h
  | quoted h1 h2 h3 h4 _ => exact .quoted h1 h2 h3 h4
  | raw h1 h2 => exact .raw h1 h2
  | heredoc h1 _ h2 h3 h4 =>
    refine .heredoc h1 h2 h3 fun l hl => ⟨(h4 l hl).1, ?_⟩
    rintro ⟨ind, hi, h⟩
    rcases h with rfl | h
    · refine (h4 _ hl).2.2 ⟨ind, ?_, rfl⟩
      intro c hc
      rcases hi c hc with rfl | rfl <;> rfl
    · refine (h4 _ hl).2.1 ?_
      rw [h]
      simp

theorem shared_payload {n s} (h : SwiftPayload n s) : SharedPayload n s := by
  obtain ⟨c, r, rfl, h⟩ := h
  refine ⟨c, r, rfl, ?_⟩
  rcases h with h | h | ⟨h1, h2⟩
  · exact .inl h
  · exact .inr (.inl h)
  · refine .inr (.inr ⟨h1, fun h => h2 ?_⟩)
    cases n with
    | nil => simp at h
    | cons x n =>
      cases n with
      | nil => simp at h
      | cons y n => simpa using h

theorem shared_key {k e s} (h : SwiftKey k e s) : SharedKey k e s := by
  cases h with
  | scalar h1 h2 => exact .scalar (shared_scalar h1) h2
  | unit => exact .unit
  | tag h => exact .tag h
  | tagged h1 h2 h3 h4 => exact .tagged h1 (shared_scalar h2) (shared_payload h3) h4

mutual
theorem shared_value : ∀ {v e s}, SwiftValue v e s → SharedValue v e s
  | _, _, _, .scalar h => .scalar (shared_scalar h)
  | _, _, _, .unit => .unit
  | _, _, _, .tag h => .tag h
  | _, _, _, .tagged h1 h2 h3 => .tagged h1 (shared_value h2) (shared_payload h3)
  | _, _, _, .sequence h => .sequence (shared_items h)
  | _, _, _, .object h1 h2 h3 => .object (shared_entries h1) h2 h3
  | _, _, _, .attributes h => .attributes (shared_attrs h)
theorem shared_items : ∀ {vs t}, SwiftItems vs t → SharedItems vs t
  | _, _, .nil h => .nil h.1
  | _, _, .cons h1 h2 h3 h4 => .cons h1.1 (shared_value h2) (shared_items h3) h4
theorem shared_entries : ∀ {c es t}, SwiftEntries c es t → SharedEntries es t
  | _, _, _, .nil h => .nil (entrySpace_gap h)
  | _, _, _, .cons h1 h2 h3 h4 h5 h6 h7 h8 h9 h10 h11 =>
    .cons (entrySpace_gap h1) (docLines h2) (shared_key h3) h4 h5 h6 (shared_value h7) h8 (shared_entries h9) h10 h11
theorem shared_attrs : ∀ {es e t}, SwiftAttrs es e t → SharedAttrs es e t
  | _, _, _, .one h1 h2 h3 => .one h1 (shared_value h2) h3
  | _, _, _, .cons h1 h2 h3 h4 _ h5 h6 => .cons h1 (shared_value h2) h3 h4 (shared_attrs h5) h6
end

theorem shared_rootKey {ks path e s} (h : SwiftRootKey ks path e s) : SharedRootKey ks path e s := by
  cases h with
  | path h1 h2 h3 => exact .path h1 h2 h3
  | other h1 h2 h3 h4 => exact .other (shared_key h1) h2 h3 h4

/-- A document for Swift is a shared document. -/
theorem shared_root {es s} (h : SwiftRoot es s) : SharedRoot es s := by
  induction h with
  | nil h => exact .nil (gap_commas h.1)
  | cons h1 h2 h3 h4 h5 h6 h7 _ h9 h10 ih =>
    exact .cons (gap_commas h1.1) (docLines h2) (shared_rootKey h3) h4 h5 (shared_value h6) h7 ih h9 h10
  | lone h1 h2 h3 h4 _ h6 h7 ih =>
    exact .lone (gap_commas h1.1) (docLines h2) (shared_rootKey h3) h4 ih h6 h7

end Styx.Swift
