import Verif.Impl.ReadEntries

/-! # The path check of the other implementations accepts paths in order -/

namespace Styx.Impl

open Styx.Spec

/-! ## Paths and their joined texts -/

/-- A path: not empty, and without dots in its segments. -/
def GoodPath (p : List (List Char)) : Prop := p ≠ [] ∧ ∀ seg ∈ p, '.' ∉ seg

theorem splitDots_dotless {s : List Char} (h : '.' ∉ s) : splitDots s = [s] := by
  induction s with
  | nil => rfl
  | cons c cs ih =>
    simp only [List.mem_cons, not_or] at h
    rw [splitDots, if_neg (by simp; exact fun hc => h.1 hc.symm), ih h.2]

theorem splitDots_append {s : List Char} (h : '.' ∉ s) (x : List Char) :
    splitDots (s ++ '.' :: x) = s :: splitDots x := by
  induction s with
  | nil => rfl
  | cons c cs ih =>
    simp only [List.mem_cons, not_or] at h
    rw [List.cons_append, splitDots, if_neg (by simp; exact fun hc => h.1 hc.symm), ih h.2]

theorem splitDots_join : ∀ {p : List (List Char)}, GoodPath p → splitDots (joinDots p) = p
  | [], h => (h.1 rfl).elim
  | [s], h => splitDots_dotless (h.2 s (by simp))
  | s :: s' :: ss, h => by
    rw [joinDots, splitDots_append (h.2 s (by simp)),
      splitDots_join (p := s' :: ss) ⟨by simp, fun seg hs => h.2 seg (List.mem_cons_of_mem _ hs)⟩]
    simp

theorem join_inj {p q : List (List Char)} (hp : GoodPath p) (hq : GoodPath q) (h : joinDots p = joinDots q) : p = q := by
  rw [← splitDots_join hp, h, splitDots_join hq]

theorem goodPath_take {p : List (List Char)} (h : GoodPath p) {i : Nat} (hi : 1 ≤ i) : GoodPath (p.take i) := by
  refine ⟨?_, fun seg hs => h.2 seg (List.mem_of_mem_take hs)⟩
  intro hn
  rcases List.take_eq_nil_iff.1 hn with h0 | h0
  · omega
  · exact h.1 h0

theorem mem_joinedPrefixes {p : List (List Char)} {i j : Nat} {x : List Char} (h : x ∈ joinedPrefixes p i j) :
    ∃ k, i ≤ k ∧ k < j ∧ x = joinDots (p.take k) := by
  unfold joinedPrefixes at h
  obtain ⟨k, hk, rfl⟩ := List.mem_map.1 h
  rw [List.mem_range'_1] at hk
  exact ⟨k, hk.1, by omega, rfl⟩

theorem commonLen_prefix : ∀ {p c : List (List Char)} {i : Nat}, i ≤ c.length → c.take i <+: p → i ≤ commonLen p c
  | p, [], i, hi, _ => by simp at hi; omega
  | p, b :: bs, 0, _, _ => Nat.zero_le _
  | [], b :: bs, i + 1, _, h => by simp at h
  | a :: as, b :: bs, i + 1, hi, h => by
    rw [List.take_succ_cons, List.cons_prefix_cons] at h
    rw [commonLen, if_pos h.1.symm]
    have := commonLen_prefix (p := as) (c := bs) (i := i) (by simpa using hi) h.2
    omega

theorem lookup_mem {α : Type} {k : List Char} {v : α} : ∀ {l : List (List Char × α)}, l.lookup k = some v → (k, v) ∈ l
  | (k', v') :: l, h => by
    rw [List.lookup_cons] at h
    split at h
    · rename_i hk
      cases h
      simp at hk
      subst hk
      exact List.mem_cons_self ..
    · exact List.mem_cons_of_mem _ (lookup_mem h)

/-! ## The state after some paths -/

/-- What the state `ps` says about the paths `h` seen so far. -/
structure Tracks (h : History) (ps : Paths) : Prop where
  good : ∀ x ∈ h, GoodPath x.1
  assigned : ∀ q k, GoodPath q → ps.assigned.lookup (joinDots q) = some k →
    (∃ x ∈ h, q <+: x.1) ∧ (k = .terminal → ∃ x ∈ h, x.1 = q ∧ x.2 = .terminal)
  closed : ∀ q, GoodPath q → joinDots q ∈ ps.closed → ∃ x y, [x, y].Sublist h ∧ q <+: x.1 ∧ ¬ q <+: y.1
  current : ps.current = [] ∨ ∃ h0 x, h = h0 ++ [x] ∧ ps.current = x.1

theorem tracks_empty : Tracks [] ⟨[], [], []⟩ where
  good := by simp
  assigned := by simp
  closed := by simp
  current := .inl rfl

theorem pair_sublist {α : Type} {h : List α} {x y : α} (hx : x ∈ h) : [x, y].Sublist (h ++ [y]) := by
  have : [x].Sublist h := List.singleton_sublist.2 hx
  exact this.append (List.Sublist.refl [y])

theorem tracks_step {d : Dialect} {h : History} {ps : Paths} {p : List (List Char)} {k k' : PathValueKind}
    (ht : Tracks h ps) (ho : PathsInOrder (h ++ [(p, k)])) (hp : GoodPath p)
    (hk : k' = .terminal → k = .terminal) : ∃ ps', checkPath d ps p k' = .ok ps' ∧ Tracks (h ++ [(p, k)]) ps' := by
  have h1 : ps.assigned.lookup (joinDots p) = none := by
    cases hl : ps.assigned.lookup (joinDots p) with
    | none => rfl
    | some kk =>
      obtain ⟨⟨x, hx, hpx⟩, -⟩ := ht.assigned p kk hp hl
      exact ((ho.1 x (p, k) (pair_sublist hx)).1 hpx).elim
  have h2 : (joinedPrefixes p 1 p.length).findSome? (prefixError ps) = none := by
    rw [List.findSome?_eq_none_iff]
    intro q hq
    obtain ⟨i, hi, -, rfl⟩ := mem_joinedPrefixes hq
    have hg := goodPath_take hp hi
    unfold prefixError
    rw [if_neg, if_neg]
    · intro hl
      obtain ⟨-, ht2⟩ := ht.assigned _ _ hg hl
      obtain ⟨x, hx, hxq, hxk⟩ := ht2 rfl
      have := (ho.1 x (p, k) (pair_sublist hx)).2 (by rw [hxq]; exact List.take_prefix i p)
      rw [hxk] at this
      cases this
    · intro hc
      obtain ⟨x, y, hxy, hqx, hqy⟩ := ht.closed _ hg hc
      exact hqy (ho.2 x y (p, k) _ (hxy.append (List.Sublist.refl [(p, k)])) hg.1 hqx (List.take_prefix i p))
  unfold checkPath
  rw [h1]
  simp only [h2]
  refine ⟨_, rfl, ?_, ?_, ?_, .inr ⟨h, (p, k), rfl, rfl⟩⟩
  · intro x hx
    rcases List.mem_append.1 hx with hx | hx
    · exact ht.good x hx
    · simp at hx; subst hx; exact hp
  · intro q kk hq hl
    simp only [List.cons_append, List.lookup_cons, List.lookup_append] at hl
    split at hl
    · rename_i he
      simp at he
      have := join_inj hq hp he
      subst this
      cases hl
      exact ⟨⟨(q, k), by simp, List.prefix_refl _⟩, fun hkk => ⟨(q, k), by simp, rfl, hk hkk⟩⟩
    · cases hm : List.lookup (joinDots q)
        (((joinedPrefixes p 1 p.length).filter fun p => (ps.assigned.lookup p).isNone).map (·, PathValueKind.object)) with
      | some v =>
        rw [hm] at hl
        simp at hl
        subst hl
        have hmem := lookup_mem hm
        obtain ⟨y, hy, he⟩ := List.mem_map.1 hmem
        cases he
        obtain ⟨i, hi, -, hji⟩ := mem_joinedPrefixes (List.mem_filter.1 hy).1
        have := join_inj hq (goodPath_take hp hi) hji
        subst this
        exact ⟨⟨(p, k), by simp, List.take_prefix i p⟩, nofun⟩
      | none =>
        rw [hm] at hl
        simp at hl
        obtain ⟨⟨x, hx, hqx⟩, ht2⟩ := ht.assigned q kk hq hl
        refine ⟨⟨x, List.mem_append_left _ hx, hqx⟩, fun hkk => ?_⟩
        obtain ⟨y, hy, hy2⟩ := ht2 hkk
        exact ⟨y, List.mem_append_left _ hy, hy2⟩
  · intro q hq hm
    rcases List.mem_append.1 hm with hm | hm
    · obtain ⟨i, hi, hi2, hji⟩ := mem_joinedPrefixes hm
      rcases ht.current with hc | ⟨h0, x, rfl, hc⟩
      · rw [hc] at hi2; simp at hi2; omega
      · have hgx : GoodPath ps.current := by rw [hc]; exact ht.good x (by simp)
        have := join_inj hq (goodPath_take hgx (by omega)) hji
        subst this
        refine ⟨x, (p, k), pair_sublist (by simp), by rw [hc]; exact List.take_prefix i _, ?_⟩
        intro hpre
        have := commonLen_prefix (p := p) (c := ps.current) (i := i) (by omega) hpre
        omega
    · obtain ⟨x, y, hxy, h3, h4⟩ := ht.closed q hq hm
      exact ⟨x, y, hxy.trans (List.sublist_append_left ..), h3, h4⟩

end Styx.Impl
