import Verif.Swift.ReadEntries
import Verif.Impl.PathsExact

/-! # The path check of the Swift implementation accepts the paths in order, and nothing else -/

namespace Styx.Swift

open Styx.Spec
open Styx.Impl (commonLen_prefix pair_sublist pair_split triple_split prefix_take take_commonLen)

theorem mem_prefixes {p : List (List Char)} {i j : Nat} {x : List (List Char)} :
    x ∈ prefixes p i j ↔ ∃ k, i ≤ k ∧ k < j ∧ x = p.take k := by
  unfold prefixes
  rw [List.mem_map]
  constructor
  · rintro ⟨k, hk, rfl⟩
    rw [List.mem_range'_1] at hk
    exact ⟨k, hk.1, by omega, rfl⟩
  · rintro ⟨k, h1, h2, rfl⟩
    exact ⟨k, by rw [List.mem_range'_1]; omega, rfl⟩

theorem lookup_mem {α β : Type} [BEq β] [LawfulBEq β] {k : β} {v : α} :
    ∀ {l : List (β × α)}, l.lookup k = some v → (k, v) ∈ l
  | (k', v') :: l, h => by
    rw [List.lookup_cons] at h
    split at h
    · rename_i hk
      cases h
      simp at hk
      subst hk
      exact List.mem_cons_self ..
    · exact List.mem_cons_of_mem _ (lookup_mem h)

theorem lookup_ne_none {α β : Type} [BEq β] [LawfulBEq β] {k : β} {v : α} :
    ∀ {l : List (β × α)}, (k, v) ∈ l → l.lookup k ≠ none
  | (k', v') :: l, h => by
    rw [List.lookup_cons]
    split
    · simp
    · rename_i hk
      rcases List.mem_cons.1 h with h | h
      · cases h; simp at hk
      · exact lookup_ne_none h

/-- What the state `ps` says about the paths `h` seen so far. -/
structure Tracks (h : History) (ps : Paths) : Prop where
  good : ∀ x ∈ h, x.1 ≠ []
  assigned : ∀ q k, ps.assigned.lookup q = some k →
    (∃ x ∈ h, q <+: x.1) ∧ (k = .terminal → ∃ x ∈ h, x.1 = q ∧ x.2 = .terminal)
  closed : ∀ q, q ∈ ps.closed → ∃ x y, [x, y].Sublist h ∧ q <+: x.1 ∧ ¬ q <+: y.1
  current : ps.current = [] ∨ ∃ h0 x, h = h0 ++ [x] ∧ ps.current = x.1

/-- The state `ps` knows all about the paths `h` seen so far. -/
structure Knows (h : History) (ps : Paths) : Prop where
  assigned : ∀ x ∈ h, ∀ q, q ≠ [] → q <+: x.1 → ps.assigned.lookup q ≠ none
  terminal : ∀ x ∈ h, x.2 = .terminal → ps.assigned.lookup x.1 = some .terminal
  closed : ∀ x y q, [x, y].Sublist h → q ≠ [] → q <+: x.1 → ¬ q <+: y.1 → q ∈ ps.closed
  current : ∀ h0 x, h = h0 ++ [x] → ps.current = x.1

theorem tracks_empty : Tracks [] ⟨[], [], []⟩ where
  good := by simp
  assigned := by simp
  closed := by simp
  current := .inl rfl

theorem knows_empty : Knows [] ⟨[], [], []⟩ where
  assigned := by simp
  terminal := by simp
  closed := by intro x y q h; simp at h
  current := by intro h0 x h; simp at h

theorem take_ne_nil {p : List (List Char)} {i : Nat} (hp : p ≠ []) (hi : 1 ≤ i) : p.take i ≠ [] := by
  intro hn
  rcases List.take_eq_nil_iff.1 hn with h0 | h0
  · omega
  · exact hp h0

theorem tracks_step {h : History} {ps : Paths} {p : List (List Char)} {k : PathValueKind}
    (ht : Tracks h ps) (ho : PathsInOrder (h ++ [(p, k)])) (hp : p ≠ []) :
    ∃ ps', checkPath ps p k = .ok ps' ∧ Tracks (h ++ [(p, k)]) ps' := by
  have h1 : ps.assigned.lookup p = none := by
    cases hl : ps.assigned.lookup p with
    | none => rfl
    | some kk =>
      obtain ⟨⟨x, hx, hpx⟩, -⟩ := ht.assigned p kk hl
      exact ((ho.1 x (p, k) (pair_sublist hx)).1 hpx).elim
  have h2 : (prefixes p 1 p.length).findSome? (prefixError ps) = none := by
    rw [List.findSome?_eq_none_iff]
    intro q hq
    obtain ⟨i, hi, -, rfl⟩ := mem_prefixes.1 hq
    unfold prefixError
    rw [if_neg, if_neg]
    · intro hl
      obtain ⟨-, ht2⟩ := ht.assigned _ _ hl
      obtain ⟨x, hx, hxq, hxk⟩ := ht2 rfl
      have := (ho.1 x (p, k) (pair_sublist hx)).2 (by rw [hxq]; exact List.take_prefix i p)
      rw [hxk] at this
      cases this
    · intro hc
      obtain ⟨x, y, hxy, hqx, hqy⟩ := ht.closed _ hc
      exact hqy (ho.2 x y (p, k) _ (hxy.append (List.Sublist.refl [(p, k)])) (take_ne_nil hp hi) hqx
        (List.take_prefix i p))
  unfold checkPath
  rw [h1]
  simp only [h2]
  refine ⟨_, rfl, ?_, ?_, ?_, .inr ⟨h, (p, k), rfl, rfl⟩⟩
  · intro x hx
    rcases List.mem_append.1 hx with hx | hx
    · exact ht.good x hx
    · simp at hx; subst hx; exact hp
  · intro q kk hl
    simp only [List.cons_append, List.lookup_cons, List.lookup_append] at hl
    split at hl
    · rename_i he
      simp at he
      subst he
      cases hl
      exact ⟨⟨(q, k), by simp, List.prefix_refl _⟩, fun hkk => ⟨(q, k), by simp, rfl, hkk⟩⟩
    · cases hm : List.lookup q
        (((prefixes p 1 p.length).filter fun p => (ps.assigned.lookup p).isNone).map (·, PathValueKind.object)) with
      | some v =>
        rw [hm] at hl
        simp at hl
        subst hl
        have hmem := lookup_mem hm
        obtain ⟨y, hy, he⟩ := List.mem_map.1 hmem
        cases he
        obtain ⟨i, hi, -, rfl⟩ := mem_prefixes.1 (List.mem_filter.1 hy).1
        exact ⟨⟨(p, k), by simp, List.take_prefix i p⟩, nofun⟩
      | none =>
        rw [hm] at hl
        simp at hl
        obtain ⟨⟨x, hx, hqx⟩, ht2⟩ := ht.assigned q kk hl
        refine ⟨⟨x, List.mem_append_left _ hx, hqx⟩, fun hkk => ?_⟩
        obtain ⟨y, hy, hy2⟩ := ht2 hkk
        exact ⟨y, List.mem_append_left _ hy, hy2⟩
  · intro q hm
    rcases List.mem_append.1 hm with hm | hm
    · obtain ⟨i, hi, hi2, rfl⟩ := mem_prefixes.1 hm
      rcases ht.current with hc | ⟨h0, x, rfl, hc⟩
      · rw [hc] at hi2; simp at hi2; omega
      · refine ⟨x, (p, k), pair_sublist (by simp), by rw [hc]; exact List.take_prefix i _, ?_⟩
        intro hpre
        have := commonLen_prefix (p := p) (c := ps.current) (i := i) (by omega) hpre
        omega
    · obtain ⟨x, y, hxy, h3, h4⟩ := ht.closed q hm
      exact ⟨x, y, hxy.trans (List.sublist_append_left ..), h3, h4⟩

theorem checkPath_ok {ps ps' : Paths} {p : List (List Char)} {k : PathValueKind} (h : checkPath ps p k = .ok ps') :
    ps.assigned.lookup p = none ∧ (∀ q ∈ prefixes p 1 p.length, prefixError ps q = none) ∧
    ps'.current = p ∧
    ps'.closed = prefixes ps.current (Impl.commonLen p ps.current + 1) (ps.current.length + 1) ++ ps.closed ∧
    ps'.assigned = (p, k) ::
      (((prefixes p 1 p.length).filter fun p => (ps.assigned.lookup p).isNone).map (·, .object) ++
        ps.assigned) := by
  unfold checkPath at h
  split at h
  · cases h
  · rename_i hl
    split at h
    · cases h
    · rename_i hf
      cases h
      exact ⟨hl, List.findSome?_eq_none_iff.1 hf, rfl, rfl, rfl⟩

/-- What is accepted is in order. -/
theorem order_of_ok {h : History} {ps ps' : Paths} {p : List (List Char)} {k : PathValueKind}
    (hk : Knows h ps) (hg : ∀ x ∈ h, x.1 ≠ []) (ho : PathsInOrder h) (hp : p ≠ [])
    (hc : checkPath ps p k = .ok ps') : PathsInOrder (h ++ [(p, k)]) := by
  obtain ⟨h1, h2, -⟩ := checkPath_ok hc
  have hnew : ∀ x ∈ h, ¬ p <+: x.1 := fun x hx hpx => hk.assigned x hx p hp hpx h1
  -- a part of `p` that is a part of an earlier path too is a proper part of `p`
  have hmem : ∀ x ∈ h, ∀ q, q ≠ [] → q <+: x.1 → q <+: p → q ∈ prefixes p 1 p.length := by
    intro x hx q hq hqx hqp
    obtain ⟨e1, e2⟩ := prefix_take hqp
    have h3 : q.length ≠ 0 := fun h0 => hq (List.length_eq_zero_iff.1 h0)
    have h4 : q.length ≠ p.length := by
      intro he
      have : q = p := hqp.eq_of_length he
      subst this
      exact hnew x hx hqx
    exact mem_prefixes.2 ⟨q.length, by omega, by omega, e1⟩
  constructor
  · intro x y hxy
    rcases pair_split hxy with hxy | ⟨hx, rfl⟩
    · exact ho.1 x y hxy
    · refine ⟨hnew x hx, fun hxp => ?_⟩
      cases hkind : x.2 with
      | object => rfl
      | terminal =>
        exfalso
        have hl := hk.terminal x hx hkind
        have he := h2 _ (hmem x hx x.1 (hg x hx) (List.prefix_refl _) hxp)
        unfold prefixError at he
        split at he
        · cases he
        · simp at he
  · intro x y z q hxyz hq hqx hqz
    rcases triple_split hxyz with hxyz | ⟨hxy, rfl⟩
    · exact ho.2 x y z q hxyz hq hqx hqz
    · refine Classical.byContradiction fun hqy => ?_
      have hx : x ∈ h := hxy.subset (by simp)
      have he := h2 _ (hmem x hx q hq hqx hqz)
      unfold prefixError at he
      rw [if_pos (hk.closed x y q hxy hq hqx hqy)] at he
      cases he

theorem knows_step {h : History} {ps ps' : Paths} {p : List (List Char)} {k : PathValueKind}
    (hk : Knows h ps) (hc : checkPath ps p k = .ok ps') : Knows (h ++ [(p, k)]) ps' := by
  obtain ⟨h1, -, h3, h4, h5⟩ := checkPath_ok hc
  have hold : ∀ q, ps.assigned.lookup q ≠ none → ps'.assigned.lookup q = ps.assigned.lookup q := by
    intro q hq
    rw [h5, List.lookup_cons]
    split
    · rename_i he
      simp at he
      subst he
      exact (hq h1).elim
    · rw [List.lookup_append]
      cases hm : List.lookup q (((prefixes p 1 p.length).filter fun p =>
          (ps.assigned.lookup p).isNone).map (·, PathValueKind.object)) with
      | none => rfl
      | some v =>
        obtain ⟨y, hy, he⟩ := List.mem_map.1 (lookup_mem hm)
        cases he
        have := (List.mem_filter.1 hy).2
        exact (hq (Option.isNone_iff_eq_none.1 this)).elim
  constructor
  · intro x hx q hq hqx
    rcases List.mem_append.1 hx with hx | hx
    · have := hk.assigned x hx q hq hqx
      rw [hold _ this]
      exact this
    · simp at hx
      subst hx
      simp only at hqx
      obtain ⟨e1, e2⟩ := prefix_take hqx
      have h0 : q.length ≠ 0 := fun h0 => hq (List.length_eq_zero_iff.1 h0)
      by_cases he : q.length = p.length
      · have : q = p := hqx.eq_of_length he
        subst this
        rw [h5]
        exact lookup_ne_none (List.mem_cons_self ..)
      · by_cases hl : ps.assigned.lookup q = none
        · rw [h5]
          refine lookup_ne_none (v := .object) (List.mem_cons_of_mem _ (List.mem_append_left _ ?_))
          refine List.mem_map.2 ⟨q, List.mem_filter.2 ⟨?_, by simp [hl]⟩, rfl⟩
          exact mem_prefixes.2 ⟨q.length, by omega, by omega, e1⟩
        · rw [hold _ hl]
          exact hl
  · intro x hx hxk
    rcases List.mem_append.1 hx with hx | hx
    · have := hk.terminal x hx hxk
      rw [hold _ (by rw [this]; simp)]
      exact this
    · simp at hx
      subst hx
      simp only at hxk
      rw [h5, List.lookup_cons, hxk]
      simp
  · intro x y q hxy hq hqx hqy
    rw [h4]
    rcases pair_split hxy with hxy | ⟨hx, rfl⟩
    · exact List.mem_append_right _ (hk.closed x y q hxy hq hqx hqy)
    · -- the last path before
      rcases List.eq_nil_or_concat h with rfl | ⟨h0, z, rfl⟩
      · cases hx
      · rw [List.concat_eq_append] at hx hk
        have hcur := hk.current h0 z rfl
        by_cases hqz : q <+: z.1
        · refine List.mem_append_left _ ?_
          obtain ⟨e1, e2⟩ := prefix_take hqz
          rw [← hcur] at e1 e2
          refine mem_prefixes.2 ⟨q.length, ?_, by omega, e1⟩
          refine Nat.lt_of_not_le fun hle => hqy ?_
          have h6 := take_commonLen p ps.current
          rw [e1]
          exact (List.take_prefix_take_left hle).trans h6
        · refine List.mem_append_right _ ?_
          rcases List.mem_append.1 hx with hx | hx
          · exact hk.closed x z q (pair_sublist hx) hq hqx hqz
          · simp at hx; subst hx; exact (hqz hqx).elim
  · intro h0 x he
    have := List.append_inj_right' he rfl
    simp at this
    rw [h3, ← this]

/-- What the path check does with an entry. -/
theorem track_cases {h : History} {ps : Paths} {p : List (List Char)} {k : PathValueKind} (ht : Tracks h ps)
    (hkn : Knows h ps) (hio : PathsInOrder h) (hp : p ≠ []) :
    (PathsInOrder (h ++ [(p, k)]) ∧ ∃ ps', (∀ st, track ps p k st = .ok ps' st) ∧
      Tracks (h ++ [(p, k)]) ps' ∧ Knows (h ++ [(p, k)]) ps') ∨
    (¬ PathsInOrder (h ++ [(p, k)]) ∧ ∃ e, ∀ st, track ps p k st = .fail e) := by
  cases hc : checkPath ps p k with
  | ok ps' =>
    have ho := order_of_ok hkn ht.good hio hp hc
    obtain ⟨ps2, h1, h2⟩ := tracks_step ht ho hp
    rw [hc] at h1
    cases h1
    refine .inl ⟨ho, ps', ?_, h2, knows_step hkn hc⟩
    intro st
    simp only [track, hc]
    rfl
  | error e =>
    refine .inr ⟨?_, e, ?_⟩
    · intro ho
      obtain ⟨ps2, h1, -⟩ := tracks_step ht ho hp
      rw [hc] at h1
      cases h1
    · intro st
      simp only [track, hc]
      rfl

end Styx.Swift
