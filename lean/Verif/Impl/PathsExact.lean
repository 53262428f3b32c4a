import Verif.Impl.ReadPaths

/-! # The path check of the other implementations accepts nothing but paths in order -/

namespace Styx.Impl

open Styx.Spec

/-- The state `ps` knows all about the paths `h` seen so far. -/
structure Knows (h : History) (ps : Paths) : Prop where
  assigned : ∀ x ∈ h, ∀ q, q ≠ [] → q <+: x.1 → ps.assigned.lookup (joinDots q) ≠ none
  terminal : ∀ x ∈ h, x.2 = .terminal → ps.assigned.lookup (joinDots x.1) = some .terminal
  closed : ∀ x y q, [x, y].Sublist h → q ≠ [] → q <+: x.1 → ¬ q <+: y.1 → joinDots q ∈ ps.closed
  current : ∀ h0 x, h = h0 ++ [x] → ps.current = x.1

theorem knows_empty : Knows [] ⟨[], [], []⟩ where
  assigned := by simp
  terminal := by simp
  closed := by intro x y q h; simp at h
  current := by intro h0 x h; simp at h

theorem lookup_ne_none {α : Type} {k : List Char} {v : α} : ∀ {l : List (List Char × α)}, (k, v) ∈ l → l.lookup k ≠ none
  | (k', v') :: l, h => by
    rw [List.lookup_cons]
    split
    · simp
    · rename_i hk
      rcases List.mem_cons.1 h with h | h
      · cases h; simp at hk
      · exact lookup_ne_none h

theorem sublist_one {α : Type} {l : List α} {z : α} (h : l.Sublist [z]) : l = [] ∨ l = [z] := by
  cases h with
  | cons _ h => exact .inl (List.sublist_nil.1 h)
  | cons_cons _ h => rw [List.sublist_nil.1 h]; exact .inr rfl

theorem pair_split {α : Type} {h : List α} {x y z : α} (hs : [x, y].Sublist (h ++ [z])) :
    [x, y].Sublist h ∨ (x ∈ h ∧ y = z) := by
  obtain ⟨l1, l2, he, h1, h2⟩ := List.sublist_append_iff.1 hs
  rcases sublist_one h2 with rfl | rfl
  · rw [List.append_nil] at he; subst he; exact .inl h1
  · obtain ⟨e1, e2⟩ := List.append_inj' (s₁ := [x]) (t₁ := [y]) he rfl
    cases e1; cases e2
    exact .inr ⟨List.singleton_sublist.1 h1, rfl⟩

theorem triple_split {α : Type} {h : List α} {x y z w : α} (hs : [x, y, z].Sublist (h ++ [w])) :
    [x, y, z].Sublist h ∨ ([x, y].Sublist h ∧ z = w) := by
  obtain ⟨l1, l2, he, h1, h2⟩ := List.sublist_append_iff.1 hs
  rcases sublist_one h2 with rfl | rfl
  · rw [List.append_nil] at he; subst he; exact .inl h1
  · obtain ⟨e1, e2⟩ := List.append_inj' (s₁ := [x, y]) (t₁ := [z]) he rfl
    cases e1; cases e2
    exact .inr ⟨h1, rfl⟩

theorem prefix_take {p q : List (List Char)} (h : q <+: p) : q = p.take q.length ∧ q.length ≤ p.length :=
  ⟨(List.prefix_iff_eq_take.1 h), h.length_le⟩

theorem joinedPrefixes_mem {p : List (List Char)} {i j k : Nat} (h1 : i ≤ k) (h2 : k < j) :
    joinDots (p.take k) ∈ joinedPrefixes p i j := by
  unfold joinedPrefixes
  exact List.mem_map.2 ⟨k, by rw [List.mem_range'_1]; omega, rfl⟩

theorem take_commonLen : ∀ (p c : List (List Char)), c.take (commonLen p c) <+: p
  | [], [] => by simp [commonLen]
  | [], b :: bs => by simp [commonLen]
  | a :: as, [] => by simp
  | a :: as, b :: bs => by
    rw [commonLen]
    split
    · rename_i h
      rw [List.take_succ_cons, h, List.cons_prefix_cons]
      exact ⟨rfl, take_commonLen as bs⟩
    · simp

theorem checkPath_ok {d : Dialect} {ps ps' : Paths} {p : List (List Char)} {k : PathValueKind}
    (h : checkPath d ps p k = .ok ps') :
    ps.assigned.lookup (joinDots p) = none ∧ (∀ q ∈ joinedPrefixes p 1 p.length, prefixError ps q = none) ∧
    ps'.current = p ∧
    ps'.closed = joinedPrefixes ps.current (commonLen p ps.current + 1) (ps.current.length + 1) ++ ps.closed ∧
    ps'.assigned = (joinDots p, k) ::
      (((joinedPrefixes p 1 p.length).filter fun p => (ps.assigned.lookup p).isNone).map (·, .object) ++
        ps.assigned) := by
  unfold checkPath at h
  split at h
  · cases h
  · cases h
  · rename_i hl
    split at h
    · cases h
    · rename_i hf
      cases h
      exact ⟨hl, List.findSome?_eq_none_iff.1 hf, rfl, rfl, rfl⟩

/-- What is accepted is in order. -/
theorem order_of_ok {d : Dialect} {h : History} {ps ps' : Paths} {p : List (List Char)} {k : PathValueKind}
    (hk : Knows h ps) (hg : ∀ x ∈ h, GoodPath x.1) (ho : PathsInOrder h) (hp : GoodPath p)
    (hc : checkPath d ps p k = .ok ps') :
    PathsInOrder (h ++ [(p, k)]) := by
  obtain ⟨h1, h2, -⟩ := checkPath_ok hc
  have hnew : ∀ x ∈ h, ¬ p <+: x.1 := fun x hx hpx => hk.assigned x hx p hp.1 hpx h1
  -- a part of `p` that is a part of an earlier path too is a proper part of `p`
  have hmem : ∀ x ∈ h, ∀ q, q ≠ [] → q <+: x.1 → q <+: p → joinDots q ∈ joinedPrefixes p 1 p.length := by
    intro x hx q hq hqx hqp
    obtain ⟨e1, e2⟩ := prefix_take hqp
    have h3 : q.length ≠ 0 := fun h0 => hq (List.length_eq_zero_iff.1 h0)
    have h4 : q.length ≠ p.length := by
      intro he
      have : q = p := hqp.eq_of_length he
      subst this
      exact hnew x hx hqx
    rw [e1]
    exact joinedPrefixes_mem (by omega) (by omega)
  constructor
  · intro x y hxy
    rcases pair_split hxy with hxy | ⟨hx, rfl⟩
    · exact ho.1 x y hxy
    · refine ⟨hnew x hx, fun hxp => ?_⟩
      cases hkind : x.2 with
      | object => rfl
      | terminal =>
        exfalso
        have hl := hk.terminal x hx hkind
        have he := h2 _ (hmem x hx x.1 (hg x hx).1 (List.prefix_refl _) hxp)
        unfold prefixError at he
        split at he
        · cases he
        · simp at he
  · intro x y z q hxyz hq hqx hqz
    rcases triple_split hxyz with hxyz | ⟨hxy, rfl⟩
    · exact ho.2 x y z q hxyz hq hqx hqz
    · refine Classical.byContradiction fun hqy => ?_
      have hx : x ∈ h := hxy.subset (by simp)
      have he := h2 _ (hmem x hx q hq hqx hqz)
      unfold prefixError at he
      rw [if_pos (hk.closed x y q hxy hq hqx hqy)] at he
      cases he

theorem knows_step {d : Dialect} {h : History} {ps ps' : Paths} {p : List (List Char)} {k : PathValueKind}
    (hk : Knows h ps) (hg : ∀ x ∈ h, GoodPath x.1) (hp : GoodPath p) (hc : checkPath d ps p k = .ok ps') :
    Knows (h ++ [(p, k)]) ps' := by
  obtain ⟨h1, -, h3, h4, h5⟩ := checkPath_ok hc
  have hold : ∀ q, ps.assigned.lookup q ≠ none → ps'.assigned.lookup q = ps.assigned.lookup q := by
    intro q hq
    rw [h5, List.lookup_cons]
    split
    · rename_i he
      simp at he
      subst he
      exact (hq h1).elim
    · rw [List.lookup_append]
      cases hm : List.lookup q (((joinedPrefixes p 1 p.length).filter fun p =>
          (ps.assigned.lookup p).isNone).map (·, PathValueKind.object)) with
      | none => rfl
      | some v =>
        obtain ⟨y, hy, he⟩ := List.mem_map.1 (lookup_mem hm)
        cases he
        have := (List.mem_filter.1 hy).2
        exact (hq (Option.isNone_iff_eq_none.1 this)).elim
  constructor
  · intro x hx q hq hqx
    rcases List.mem_append.1 hx with hx | hx
    · have := hk.assigned x hx q hq hqx
      rw [hold _ this]
      exact this
    · simp at hx
      subst hx
      simp only at hqx
      obtain ⟨e1, e2⟩ := prefix_take hqx
      have h0 : q.length ≠ 0 := fun h0 => hq (List.length_eq_zero_iff.1 h0)
      by_cases he : q.length = p.length
      · have : q = p := hqx.eq_of_length he
        subst this
        rw [h5]
        exact lookup_ne_none (List.mem_cons_self ..)
      · by_cases hl : ps.assigned.lookup (joinDots q) = none
        · rw [h5]
          refine lookup_ne_none (v := .object) (List.mem_cons_of_mem _ (List.mem_append_left _ ?_))
          refine List.mem_map.2 ⟨joinDots q, List.mem_filter.2 ⟨?_, by simp [hl]⟩, rfl⟩
          have := joinedPrefixes_mem (p := p) (i := 1) (j := p.length) (k := q.length) (by omega) (by omega)
          rwa [← e1] at this
        · rw [hold _ hl]
          exact hl
  · intro x hx hxk
    rcases List.mem_append.1 hx with hx | hx
    · have := hk.terminal x hx hxk
      rw [hold _ (by rw [this]; simp)]
      exact this
    · simp at hx
      subst hx
      simp only at hxk
      rw [h5, List.lookup_cons, hxk]
      simp
  · intro x y q hxy hq hqx hqy
    rw [h4]
    rcases pair_split hxy with hxy | ⟨hx, rfl⟩
    · exact List.mem_append_right _ (hk.closed x y q hxy hq hqx hqy)
    · -- the last path before
      rcases List.eq_nil_or_concat h with rfl | ⟨h0, z, rfl⟩
      · cases hx
      · rw [List.concat_eq_append] at hx hk hg
        have hcur := hk.current h0 z rfl
        by_cases hqz : q <+: z.1
        · refine List.mem_append_left _ ?_
          obtain ⟨e1, e2⟩ := prefix_take hqz
          rw [← hcur] at e1 e2
          rw [e1]
          refine joinedPrefixes_mem ?_ (by omega)
          refine Nat.lt_of_not_le fun hle => hqy ?_
          have h6 := take_commonLen p ps.current
          rw [e1]
          exact (List.take_prefix_take_left hle).trans h6
        · refine List.mem_append_right _ ?_
          rcases List.mem_append.1 hx with hx | hx
          · exact hk.closed x z q (pair_sublist hx) hq hqx hqz
          · simp at hx; subst hx; exact (hqz hqx).elim
  · intro h0 x he
    have := List.append_inj_right' he rfl
    simp at this
    rw [h3, ← this]

end Styx.Impl
