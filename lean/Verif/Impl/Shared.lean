import Verif.Impl.Spec
import Verif.Props.Text

/-! # The shared documents are documents -/

namespace Styx.Spec

theorem SharedFollows.follows {e : Tail} {rest : List Char} (h : SharedFollows e rest) : Follows e rest := by
  induction e with
  | closed => exact h
  | word => exact h
  | line =>
    rcases h with rfl | ⟨r, rfl⟩
    · exact .inl rfl
    · exact .inr (.inl ⟨r, rfl⟩)
  | attrs last ih => exact ⟨ih h.1, h.2⟩

theorem SharedScalar.scalar {v k e s} (h : SharedScalar v k e s) : ScalarText v k e s := by
  cases h with
  | bare h => exact .bare h
  | quoted h1 _ _ h2 => exact .quoted h1 h2
  | raw h1 h2 => exact .raw h1 h2
  | heredoc h1 h2 h3 h4 => exact .heredoc h1 h2 (.inl rfl) h3 h4

theorem SharedPayload.payload {n s} (h : SharedPayload n s) : PayloadStart n s := by
  obtain ⟨c, r, rfl, h⟩ := h
  exact ⟨c, r, rfl, by rcases h with h | h | h <;> simp [h]⟩

theorem SharedKey.key {k e s} (h : SharedKey k e s) : KeyText k e s := by
  cases h with
  | scalar h1 h2 => exact .scalar h1.scalar h2
  | unit => exact .unit
  | tag h => exact .tag h
  | tagged h1 h2 h3 h4 => exact .tagged h1 h2.scalar h3.payload h4

theorem LoneEnd.entryEnd {tr t} (h : LoneEnd tr t) : EntryEnd tr t := by
  unfold LoneEnd at h
  unfold EntryEnd
  split
  · rw [if_pos ‹_›] at h
    obtain ⟨b, u, h1, h2, h3⟩ := h
    refine ⟨b, u, h1, h2, ?_⟩
    rcases h3 with h3 | ⟨r, rfl⟩
    · exact .inl h3
    · exact .inr ⟨'}', r, rfl, .inr rfl⟩
  · rwa [if_neg ‹_›] at h

theorem SharedValue.value {v e s} (h : SharedValue v e s) : ValueText v e s := by
  refine SharedValue.rec (motive_1 := fun v e s _ => ValueText v e s) (motive_2 := fun vs t _ => ItemsText vs t)
    (motive_3 := fun es t _ => EntriesText es t) (motive_4 := fun es e t _ => AttrsText es e t)
    ?_ ?_ ?_ ?_ ?_ ?_ ?_ ?_ ?_ ?_ ?_ ?_ ?_ ?_ h
  · intro v k e s h; exact .scalar h.scalar
  · exact .unit
  · intro n h; exact .tag h
  · intro n p e s h1 _ h3 ih; exact .tagged h1 ih h3.payload
  · intro vs t _ ih; exact .sequence ih
  · intro es t _ h1 _ ih; exact .object ih h1
  · intro es e t _ ih; exact .attributes ih
  · intro g h; exact .nil h
  · intro g v e s vs t h1 _ _ h2 ih1 ih2; exact .cons h1 ih1 ih2 h2.follows
  · intro g h; exact .nil h
  · intro g ls dt k ke ks b v e s tr es t h1 h2 h3 _ h5 h6 _ h7 _ h8 h9 ih1 ih2
    exact .cons h1 h2 h3.key h5 h6 ih1 h7 ih2 h8.follows h9
  · intro g ls dt k ke ks tr es t h1 h2 h3 _ h5 _ h6 h7 ih
    exact .lone h1 h2 h3.key h5 ih h6.follows h7.entryEnd
  · intro k v e s h1 _ h2 ih; exact .one h1 ih h2
  · intro k v e s b es e' t h1 _ h2 h3 _ h4 ih1 ih2; exact .cons h1 ih1 h2 h3 ih2 h4.follows

theorem SharedRootKey.rootKey {ks path e s} (h : SharedRootKey ks path e s) : RootKeyText ks path e s := by
  cases h with
  | path h1 h2 h3 => exact .path h1 h2 h3
  | other h1 h2 _ _ => exact .other h1.key h2

theorem SharedRoot.root {es t} (h : SharedRoot es t) : RootText es t := by
  induction h with
  | nil h => exact .nil h
  | cons h1 h2 h3 h4 h5 h6 h7 _ h8 h9 ih => exact .cons h1 h2 h3.rootKey h4 h5 h6.value h7 ih h8.follows h9
  | lone h1 h2 h3 h4 _ h5 h6 ih => exact .lone h1 h2 h3.rootKey h4 ih h5.follows h6.entryEnd

theorem PathsInOrder.sublist {h h' : History} (ho : PathsInOrder h) (hs : h'.Sublist h) : PathsInOrder h' :=
  ⟨fun x y hxy => ho.1 x y (hxy.trans hs), fun x y z q hz => ho.2 x y z q (hz.trans hs)⟩

theorem PathsInOrder.consistent {h : History} (ho : PathsInOrder h) : Props.Consistent h := by
  rintro h1 p k h2 rfl ⟨h0, last, kind, rfl, hc⟩
  have hpair : [(last, kind), (p, k)].Sublist (h0 ++ [(last, kind)] ++ (p, k) :: h2) := by
    rw [List.append_assoc]
    exact ((List.nil_sublist h2).cons_cons _ |>.cons_cons _).trans (List.sublist_append_right ..)
  obtain ⟨g1, g2⟩ := ho.1 _ _ hpair
  rcases hc with rfl | ⟨hp, rfl⟩ | ⟨pre, k', hpre, hpk, h3, q, h4, he, hq, hall, l, hl, hnl⟩
  · exact g1 (List.prefix_refl _)
  · cases g2 hp
  · -- the closed child was entered by `q`, left by `l`
    have hql : ∃ h5, h4 = h5 ++ [l] := by
      rcases List.eq_nil_or_concat h4 with rfl | ⟨h5, l', rfl⟩
      · simp at hl; subst hl; exact (hnl hq).elim
      · rw [List.concat_eq_append, ← List.cons_append, List.getLast?_concat] at hl
        cases hl
        rw [List.concat_eq_append]
        exact ⟨h5, rfl⟩
    obtain ⟨h5, rfl⟩ := hql
    rw [he] at ho
    refine hnl (ho.2 q l (p, k) (pre ++ [k']) ?_ (by simp) hq hpk)
    rw [List.append_assoc]
    refine List.Sublist.trans ?_ (List.sublist_append_right ..)
    rw [List.cons_append]
    refine List.Sublist.cons_cons _ ?_
    rw [List.append_assoc]
    refine List.Sublist.trans ?_ (List.sublist_append_right ..)
    exact ((List.nil_sublist h2).cons_cons _ |>.cons_cons _)

/-! ## Spans and doc comments -/

mutual
theorem shed_erase : ∀ v, shed (erase v) = shed v
  | .mk t p sp => by
    rw [erase, shed, shed, shedPayload_erase p]
    cases t <;> rfl
theorem shedPayload_erase : ∀ p, shedPayload (erasePayload p) = shedPayload p
  | none => rfl
  | some (.scalar ..) => rfl
  | some (.sequence items _) => by rw [erasePayload, shedPayload, shedPayload, shedAll_erase items]
  | some (.object es _) => by rw [erasePayload, shedPayload, shedPayload, shedEntries_erase es]
theorem shedAll_erase : ∀ vs, shedAll (eraseAll vs) = shedAll vs
  | [] => rfl
  | v :: vs => by rw [eraseAll, shedAll, shedAll, shed_erase v, shedAll_erase vs]
theorem shedEntries_erase : ∀ es, shedEntries (eraseEntries es) = shedEntries es
  | [] => rfl
  | .mk k v d :: es => by
    rw [eraseEntries, shedEntries, shedEntries, shed_erase k, shed_erase v, shedEntries_erase es]
end

end Styx.Spec
