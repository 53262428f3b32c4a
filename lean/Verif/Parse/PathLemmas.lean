import Verif.Parse.PathSpec

/-! # The path tracker against its specification -/

namespace Styx

open Spec

theorem commonLen_spec (st : PathState) (p : List (List Char)) :
    commonLen st p ≤ st.length ∧ commonLen st p ≤ p.length ∧
    (st.map (·.key)).take (commonLen st p) = p.take (commonLen st p) ∧
    ∀ seg k, st[commonLen st p]? = some seg → p[commonLen st p]? = some k → seg.key ≠ k := by
  fun_induction commonLen st p with
  | case1 seg segs keys ih =>
    obtain ⟨h1, h2, h3, h4⟩ := ih
    refine ⟨by simp; omega, by simp; omega, by simp [h3], ?_⟩
    intro s k hs hk
    simp only [List.getElem?_cons_succ] at hs hk
    exact h4 s k hs hk
  | case2 seg segs key keys h =>
    refine ⟨by simp, by simp, by simp, ?_⟩
    intro s k hs hk
    simp only [List.getElem?_cons_zero, Option.some.injEq] at hs hk
    subst hs hk
    exact h
  | case3 st p h =>
    refine ⟨by simp, by simp, by simp, ?_⟩
    intro s k hs hk
    cases st with
    | nil => cases hs
    | cons a st =>
      cases p with
      | nil => cases hk
      | cons b p => exact absurd rfl (h a st b p rfl)

/-- The truncated state by position. -/
theorem truncateTo_spec (n : Nat) (st : PathState) (hn : n ≤ st.length) :
    (truncateTo n st).length = n ∧ ∀ i seg, (truncateTo n st)[i]? = some seg →
      ∃ seg0, st[i]? = some seg0 ∧ seg.key = seg0.key ∧ seg.valueKind = seg0.valueKind ∧
        ∀ k, k ∈ seg.closed ↔ k ∈ seg0.closed ∨ (i + 1 = n ∧ ∃ s1, st[n]? = some s1 ∧ s1.key = k) := by
  fun_induction truncateTo n st with
  | case1 st => simp
  | case2 n => simp at hn
  | case3 seg next rest =>
    refine ⟨rfl, ?_⟩
    intro i s hs
    cases i with
    | zero =>
      simp only [List.getElem?_cons_zero, Option.some.injEq] at hs
      subst hs
      refine ⟨seg, rfl, rfl, rfl, ?_⟩
      intro k
      simp only [List.mem_cons, Nat.zero_add, true_and, List.getElem?_cons_succ, List.getElem?_cons_zero,
        Option.some.injEq, exists_eq_left']
      constructor
      · rintro (rfl | h)
        · exact Or.inr rfl
        · exact Or.inl h
      · rintro (h | rfl)
        · exact Or.inr h
        · exact Or.inl rfl
    | succ i => simp at hs
  | case4 n seg segs h ih =>
    obtain ⟨h1, h2⟩ := ih (by simpa using hn)
    refine ⟨by simp [h1], ?_⟩
    intro i s hs
    cases i with
    | zero =>
      simp only [List.getElem?_cons_zero, Option.some.injEq] at hs
      subst hs
      refine ⟨seg, rfl, rfl, rfl, ?_⟩
      intro k
      constructor
      · exact Or.inl
      · rintro (h' | ⟨h3, s1, h4, h5⟩)
        · exact h'
        · have hn0 : n = 0 := by omega
          subst hn0
          cases segs with
          | nil => simp at h4
          | cons a b => exact absurd rfl (h a b rfl)
    | succ i =>
      simp only [List.getElem?_cons_succ] at hs
      obtain ⟨s0, g1, g2, g3, g4⟩ := h2 i s hs
      refine ⟨s0, by simpa using g1, g2, g3, ?_⟩
      intro k
      rw [g4]
      simp only [List.getElem?_cons_succ, Nat.succ_eq_add_one, Nat.add_right_cancel_iff]

/-- The segments pushed for `keys`. -/
def freshSegs (sp : Span) (kind : PathValueKind) : List (List Char) → PathState
  | [] => []
  | k :: ks => ⟨k, sp, if ks = [] then kind else .object, []⟩ :: freshSegs sp kind ks

theorem freshSegs_length (sp : Span) (kind : PathValueKind) (ks : List (List Char)) :
    (freshSegs sp kind ks).length = ks.length := by
  induction ks with
  | nil => rfl
  | cons k ks ih => simp [freshSegs, ih]

theorem freshSegs_get (sp : Span) (kind : PathValueKind) (ks : List (List Char)) (i : Nat) (seg : PathSegment)
    (h : (freshSegs sp kind ks)[i]? = some seg) :
    seg.closed = [] ∧ (i + 1 < ks.length → seg.valueKind = .object) := by
  induction ks generalizing i with
  | nil => simp [freshSegs] at h
  | cons k ks ih =>
    cases i with
    | zero =>
      simp only [freshSegs, List.getElem?_cons_zero, Option.some.injEq] at h
      subst h
      refine ⟨rfl, ?_⟩
      intro h
      have : ks ≠ [] := by rintro rfl; simp at h
      simp [this]
    | succ i =>
      simp only [freshSegs, List.getElem?_cons_succ] at h
      obtain ⟨h1, h2⟩ := ih i h
      exact ⟨h1, fun h => h2 (by simpa using h)⟩

theorem freshSegs_keys (sp : Span) (kind : PathValueKind) (ks : List (List Char)) :
    (freshSegs sp kind ks).map (·.key) = ks := by
  induction ks with
  | nil => rfl
  | cons k ks ih => simp [freshSegs, ih]

/-- Pushing onto a state whose last segment is a fresh object succeeds. -/
theorem push_fresh (sp : Span) (kind : PathValueKind) (ks : List (List Char)) (st : PathState)
    (h : ks ≠ [] → st = [] ∨ ∃ last, st.getLast? = some last ∧ last.valueKind = .object ∧ last.closed = []) :
    pushSegments sp kind st ks = (st ++ freshSegs sp kind ks, none) := by
  induction ks generalizing st with
  | nil => simp [pushSegments, freshSegs]
  | cons k ks ih =>
    rw [pushSegments]
    rcases h (by simp) with rfl | ⟨last, h1, h2, h3⟩
    · simp only [List.getLast?_nil]
      rw [ih]
      · simp [freshSegs]
      · intro hne
        exact Or.inr ⟨_, rfl, by simp [hne], rfl⟩
    · rw [h1]
      simp only [h2, h3, reduceCtorEq, if_false, List.not_mem_nil]
      rw [ih]
      · simp [freshSegs]
      · intro hne
        exact Or.inr ⟨_, List.getLast?_concat .., by simp [hne], rfl⟩

/-- Pushing in general: only the first key can fail. -/
theorem push_cases (sp : Span) (kind : PathValueKind) (st : PathState) (ks : List (List Char)) :
    (pushSegments sp kind st ks).2 = none ∧
      pushSegments sp kind st ks = (st ++ freshSegs sp kind ks, none) ∧
      (∀ k ks' last, ks = k :: ks' → st.getLast? = some last → last.valueKind = .object ∧ k ∉ last.closed) ∨
    (∃ e, (pushSegments sp kind st ks).2 = some e) ∧
      ∃ k ks' last, ks = k :: ks' ∧ st.getLast? = some last ∧ (last.valueKind = .terminal ∨ k ∈ last.closed) := by
  cases ks with
  | nil => left; simp [pushSegments, freshSegs]
  | cons k ks =>
    cases hl : st.getLast? with
    | none =>
      have : st = [] := by simpa using hl
      subst this
      left
      rw [push_fresh _ _ _ _ (fun _ => Or.inl rfl)]
      simp
    | some last =>
      rw [pushSegments]
      simp only [hl]
      by_cases ht : last.valueKind = .terminal
      · right
        rw [if_pos ht]
        exact ⟨⟨_, rfl⟩, k, ks, last, rfl, rfl, Or.inl ht⟩
      · rw [if_neg ht]
        by_cases hc : k ∈ last.closed
        · right
          rw [if_pos hc]
          exact ⟨⟨_, rfl⟩, k, ks, last, rfl, rfl, Or.inr hc⟩
        · left
          rw [if_neg hc]
          rw [push_fresh]
          · refine ⟨rfl, by simp [freshSegs], ?_⟩
            rintro k' ks' last' he hl'
            cases he; cases hl'
            refine ⟨?_, hc⟩
            cases hv : last.valueKind with
            | object => rfl
            | terminal => exact absurd hv ht
          · intro hne
            exact Or.inr ⟨_, List.getLast?_concat .., by simp [hne], rfl⟩

theorem setLastKind_get (kind : PathValueKind) (st : PathState) (i : Nat) (seg : PathSegment)
    (h : (setLastKind kind st)[i]? = some seg) : ∃ seg0, st[i]? = some seg0 ∧ seg.key = seg0.key ∧
      seg.closed = seg0.closed ∧ seg.valueKind = if i + 1 = st.length then kind else seg0.valueKind := by
  fun_induction setLastKind kind st generalizing i with
  | case1 => simp at h
  | case2 s =>
    cases i with
    | zero =>
      simp only [List.getElem?_cons_zero, Option.some.injEq] at h
      subst h
      exact ⟨s, rfl, rfl, rfl, by simp⟩
    | succ i => simp at h
  | case3 s segs hne ih =>
    have hlen : segs ≠ [] := fun he => hne he
    cases i with
    | zero =>
      simp only [List.getElem?_cons_zero, Option.some.injEq] at h
      subst h
      refine ⟨s, rfl, rfl, rfl, ?_⟩
      rw [if_neg]
      simp [hlen]
    | succ i =>
      simp only [List.getElem?_cons_succ] at h
      obtain ⟨s0, h1, h2, h3, h4⟩ := ih i h
      refine ⟨s0, by simpa using h1, h2, h3, ?_⟩
      rw [h4]
      simp

theorem setLastKind_length (kind : PathValueKind) (st : PathState) :
    (setLastKind kind st).length = st.length ∧ (setLastKind kind st).map (·.key) = st.map (·.key) := by
  fun_induction setLastKind kind st with
  | case1 => simp
  | case2 s => simp
  | case3 s segs hne ih => simp [ih]

theorem prefix_snoc {α} (pre l : List α) (k : α) : pre ++ [k] <+: l ↔ pre <+: l ∧ l[pre.length]? = some k := by
  constructor
  · rintro ⟨t, rfl⟩
    exact ⟨⟨k :: t, by simp⟩, by simp⟩
  · rintro ⟨⟨t, rfl⟩, h⟩
    cases t with
    | nil => simp at h
    | cons a t => simp at h; exact ⟨t, by simp [h]⟩

/-- Some path of the history extended `pre` by `k`, and all paths since then stayed inside `pre`. -/
def Ever (h : History) (pre : List (List Char)) (k : List Char) : Prop :=
  ∃ h1 q h2, h = h1 ++ q :: h2 ∧ pre ++ [k] <+: q.1 ∧ ∀ x ∈ h2, pre <+: x.1

theorem snoc_split {α} {h h1 h2 : List α} {x q : α} (e : h ++ [x] = h1 ++ q :: h2) :
    (h2 = [] ∧ h = h1 ∧ q = x) ∨ ∃ h3, h2 = h3 ++ [x] ∧ h = h1 ++ q :: h3 := by
  cases List.eq_nil_or_concat h2 with
  | inl h0 =>
    subst h0
    have := List.append_inj' e rfl
    exact Or.inl ⟨rfl, this.1, by simpa using this.2.symm⟩
  | inr h0 =>
    obtain ⟨h3, y, rfl⟩ := h0
    have : h ++ [x] = (h1 ++ q :: h3) ++ [y] := by simpa using e
    have := List.append_inj' this rfl
    have hy : x = y := by simpa using this.2
    subst hy
    exact Or.inr ⟨h3, by simp, this.1⟩

theorem closed_snoc (h : History) (p pre : List (List Char)) (kd : PathValueKind) (k : List Char) :
    Closed (h ++ [(p, kd)]) pre k ↔ pre <+: p ∧ ¬ pre ++ [k] <+: p ∧ Ever h pre k := by
  constructor
  · rintro ⟨h1, q, h2, he, hq, hall, l, hl, hnot⟩
    rcases snoc_split he with ⟨rfl, rfl, rfl⟩ | ⟨h3, rfl, rfl⟩
    · simp at hl; subst hl; exact absurd hq hnot
    · have : (q :: (h3 ++ [(p, kd)])).getLast? = some (p, kd) := by
        rw [← List.cons_append]; exact List.getLast?_concat ..
      rw [this] at hl; cases hl
      exact ⟨hall (p, kd) (by simp), hnot, h1, q, h3, rfl, hq, fun x hx => hall x (by simp [hx])⟩
  · rintro ⟨hp, hnot, h1, q, h2, rfl, hq, hall⟩
    refine ⟨h1, q, h2 ++ [(p, kd)], by simp, hq, ?_, (p, kd), ?_, hnot⟩
    · intro x hx
      rcases List.mem_append.1 hx with hx | hx
      · exact hall x hx
      · simp at hx; subst hx; exact hp
    · rw [← List.cons_append]; exact List.getLast?_concat ..

theorem ever_snoc (h : History) (l pre : List (List Char)) (kd : PathValueKind) (k : List Char) :
    Ever (h ++ [(l, kd)]) pre k ↔ pre ++ [k] <+: l ∨ Closed (h ++ [(l, kd)]) pre k := by
  rw [closed_snoc]
  constructor
  · rintro ⟨h1, q, h2, he, hq, hall⟩
    by_cases hc : pre ++ [k] <+: l
    · exact Or.inl hc
    rcases snoc_split he with ⟨rfl, rfl, rfl⟩ | ⟨h3, rfl, rfl⟩
    · exact Or.inl hq
    · exact Or.inr ⟨hall (l, kd) (by simp), hc, h1, q, h3, rfl, hq, fun x hx => hall x (by simp [hx])⟩
  · rintro (hc | ⟨hl, hnot, h1, q, h2, rfl, hq, hall⟩)
    · exact ⟨h, (l, kd), [], rfl, hc, by simp⟩
    · refine ⟨h1, q, h2 ++ [(l, kd)], by simp, hq, ?_⟩
      intro x hx
      rcases List.mem_append.1 hx with hx | hx
      · exact hall x hx
      · simp at hx; subst hx; exact hl

/-- The tracker's state after an accepted history ending in `l`. -/
structure PathInv (h : History) (l : List (List Char)) (kd : PathValueKind) (st : PathState) : Prop where
  keys : st.map (·.key) = l
  kinds : ∀ i seg, st[i]? = some seg → seg.valueKind = if i + 1 = l.length then kd else .object
  closed : ∀ i seg, st[i]? = some seg → ∀ k, k ∈ seg.closed ↔ Closed h (l.take (i + 1)) k

theorem path_first (p : List (List Char)) (sp : Span) (kd : PathValueKind) (hp : p ≠ []) :
    ∃ st', PathState.checkAndUpdate [] p sp kd = (st', none) ∧ PathInv [(p, kd)] p kd st' := by
  unfold PathState.checkAndUpdate
  rw [if_neg hp]
  have hc : commonLen [] p = 0 := by cases p <;> rfl
  simp only [hc, List.getLast?_nil, List.drop_zero, truncateTo]
  rw [push_fresh _ _ _ _ (fun _ => Or.inl rfl)]
  refine ⟨_, rfl, ?_, ?_, ?_⟩
  · rw [(setLastKind_length _ _).2]; simp [freshSegs_keys]
  · intro i seg hi
    obtain ⟨s0, h1, h2, h3, h4⟩ := setLastKind_get _ _ _ _ hi
    simp only [List.nil_append, freshSegs_length] at h1 h4
    rw [h4]
    split
    · rfl
    · refine (freshSegs_get _ _ _ _ _ h1).2 ?_
      have : i < p.length := by
        rw [← freshSegs_length sp kd p]
        exact (List.getElem?_eq_some_iff.1 h1).1
      omega
  · intro i seg hi k
    obtain ⟨s0, h1, h2, h3, h4⟩ := setLastKind_get _ _ _ _ hi
    rw [h3, (freshSegs_get _ _ _ _ _ h1).1]
    have := closed_snoc [] p (p.take (i + 1)) kd k
    rw [List.nil_append] at this
    rw [this]
    simp [Ever]

theorem take_prefix_get {l p : List (List Char)} {n i : Nat} (ht : l.take n = p.take n) (hi : i < n) :
    l[i]? = p[i]? := by
  have := congrArg (·[i]?) ht
  simpa [List.getElem?_take, hi] using this

theorem path_step (h : History) (l p : List (List Char)) (kd kd' : PathValueKind) (sp : Span)
    (st : PathState) (h0 : History) (hh : h = h0 ++ [(l, kd)]) (hp : p ≠ []) (hl : l ≠ []) (inv : PathInv h l kd st) :
    (∃ st', st.checkAndUpdate p sp kd' = (st', none) ∧ PathInv (h ++ [(p, kd')]) p kd' st' ∧ ¬ Conflict h p) ∨
    (∃ st' e, st.checkAndUpdate p sp kd' = (st', some e) ∧ Conflict h p) := by
  obtain ⟨hkeys, hkinds, hclosed⟩ := inv
  have hlen : st.length = l.length := by rw [← hkeys]; simp
  obtain ⟨hn1, hn2, hn3, hn4⟩ := commonLen_spec st p
  unfold PathState.checkAndUpdate
  rw [if_neg hp]
  simp only
  generalize hn : commonLen st p = n at *
  rw [hkeys] at hn3
  have hmax : ∀ k, l[n]? = some k → p[n]? = some k → False := by
    intro k h1 h2
    rw [← hkeys, List.getElem?_map] at h1
    cases hs : st[n]? with
    | none => rw [hs] at h1; cases h1
    | some seg =>
      rw [hs] at h1
      have h1 : seg.key = k := by simpa using h1
      exact hn4 seg k hs h2 h1
  have hmaxp : ∀ pre : List (List Char), pre <+: l → pre <+: p → pre.length ≤ n := by
    rintro pre ⟨t, rfl⟩ ⟨t', rfl⟩
    refine Nat.le_of_not_lt fun hlt => ?_
    exact hmax (pre[n]) (by simp [List.getElem?_append, hlt]) (by simp [List.getElem?_append, hlt])
  have hstne : st ≠ [] := by rintro rfl; simp at hkeys; exact hl hkeys
  obtain ⟨last, hlast⟩ : ∃ last, st.getLast? = some last := by
    cases hg : st.getLast? with
    | none => simp at hg; exact absurd hg hstne
    | some x => exact ⟨x, rfl⟩
  rw [hlast]
  simp only
  by_cases hdup : n = p.length ∧ n = st.length
  · rw [if_pos hdup]
    refine Or.inr ⟨_, _, rfl, h0, l, kd, hh, Or.inl ?_⟩
    rw [List.take_of_length_le (by omega), List.take_of_length_le (by omega)] at hn3
    exact hn3.symm
  rw [if_neg hdup]
  have hpl : p ≠ l := by
    rintro rfl
    have := hmaxp p (List.prefix_refl _) (List.prefix_refl _)
    exact hdup ⟨by omega, by omega⟩
  obtain ⟨ht1, ht2⟩ := truncateTo_spec n st hn1
  have hcl : ∀ pre k, Closed h pre k → pre <+: l ∧ ¬ pre ++ [k] <+: l := by
    intro pre k hc
    rw [hh, closed_snoc] at hc
    exact ⟨hc.1, hc.2.1⟩
  -- the closed children of the truncated state
  have htr : ∀ i seg, (truncateTo n st)[i]? = some seg → ∀ k, k ∈ seg.closed ↔
      Closed h (p.take (i + 1)) k ∨ (i + 1 = n ∧ l[n]? = some k) := by
    intro i seg hi k
    obtain ⟨s0, g1, g2, g3, g4⟩ := ht2 i seg hi
    have hin : i < n := by rw [← ht1]; exact (List.getElem?_eq_some_iff.1 hi).1
    have htk : l.take (i + 1) = p.take (i + 1) := by
      have := congrArg (List.take (i + 1)) hn3
      rwa [List.take_take, List.take_take, Nat.min_eq_left (by omega)] at this
    rw [g4, hclosed i s0 g1, htk]
    have : (∃ s1, st[n]? = some s1 ∧ s1.key = k) ↔ l[n]? = some k := by
      rw [← hkeys, List.getElem?_map]
      cases st[n]? <;> simp
    rw [this]
  have hlastT : ∀ lst, (truncateTo n st).getLast? = some lst → 0 < n ∧ (truncateTo n st)[n - 1]? = some lst := by
    intro lst hg
    rw [List.getLast?_eq_getElem?, ht1] at hg
    refine ⟨Nat.pos_of_ne_zero ?_, hg⟩
    rintro rfl
    simp [truncateTo] at hg
  have hdrop : ∀ k ks, p.drop n = k :: ks → p[n]? = some k := by
    intro k ks hd
    have := congrArg (·[0]?) hd
    simpa using this
  have hprefn : p.take n <+: l := by rw [← hn3]; exact List.take_prefix ..
  rcases push_cases sp kd' (truncateTo n st) (p.drop n) with ⟨-, he, hok⟩ | ⟨⟨e, he⟩, k, ks, lst, hd, hg, hbad⟩
  · left
    rw [he]
    refine ⟨_, rfl, ?_, ?_⟩
    · have hst2 : (truncateTo n st ++ freshSegs sp kd' (p.drop n)).length = p.length := by
        rw [List.length_append, ht1, freshSegs_length, List.length_drop]; omega
      have hokc : ∀ k, p[n]? = some k → 0 < n → ∀ seg, (truncateTo n st)[n - 1]? = some seg →
          seg.valueKind = .object ∧ k ∉ seg.closed := by
        intro k hk hpos seg hseg
        have hlt : n < p.length := (List.getElem?_eq_some_iff.1 hk).1
        have hd := List.drop_eq_getElem_cons hlt
        have hk' : p[n] = k := (List.getElem?_eq_some_iff.1 hk).2
        rw [hk'] at hd
        refine hok k _ seg hd ?_
        rw [List.getLast?_eq_getElem?, ht1]; exact hseg
      refine ⟨?_, ?_, ?_⟩
      · rw [(setLastKind_length _ _).2, List.map_append, freshSegs_keys]
        have : (truncateTo n st).map (·.key) = p.take n := by
          apply List.ext_getElem?
          intro i
          rw [List.getElem?_map, ← hn3, List.getElem?_take, ← hkeys]
          by_cases hi : i < n
          · rw [if_pos hi]
            obtain ⟨seg, hseg⟩ : ∃ seg, (truncateTo n st)[i]? = some seg :=
              ⟨_, List.getElem?_eq_getElem (by rw [ht1]; exact hi)⟩
            obtain ⟨s0, g1, g2, -, -⟩ := ht2 i seg hseg
            rw [hseg, List.getElem?_map, g1]
            simp [g2]
          · rw [if_neg hi, List.getElem?_eq_none (by rw [ht1]; omega)]
            rfl
        rw [this, List.take_append_drop]
      · intro i seg hi
        obtain ⟨s0, h1, h2, h3, h4⟩ := setLastKind_get _ _ _ _ hi
        rw [hst2] at h4
        rw [h4]
        split
        · rfl
        · rename_i hne
          have hilt : i < p.length := by rw [← hst2]; exact (List.getElem?_eq_some_iff.1 h1).1
          by_cases hin : i < n
          · rw [List.getElem?_append_left (by rw [ht1]; exact hin)] at h1
            obtain ⟨s1, g1, g2, g3, g4⟩ := ht2 i s0 h1
            have hk1 := hkinds i s1 g1
            by_cases hil : i + 1 = l.length
            · have hnn : n = i + 1 := by omega
              have := hokc (p[n]'(by omega)) (List.getElem?_eq_getElem ..) (by omega) s0
                (by rw [show n - 1 = i by omega]; exact h1)
              exact this.1
            · rw [g3, hk1, if_neg hil]
          · rw [List.getElem?_append_right (by rw [ht1]; omega), ht1] at h1
            refine (freshSegs_get _ _ _ _ _ h1).2 ?_
            rw [List.length_drop]; omega
      · intro i seg hi k
        obtain ⟨s0, h1, h2, h3, h4⟩ := setLastKind_get _ _ _ _ hi
        have hilt : i < p.length := by rw [← hst2]; exact (List.getElem?_eq_some_iff.1 h1).1
        rw [h3, closed_snoc, hh, ever_snoc, ← hh]
        have hpp : p.take (i + 1) <+: p := List.take_prefix ..
        have hpl1 : (p.take (i + 1)).length = i + 1 := by simp; omega
        rw [prefix_snoc, prefix_snoc, hpl1]
        simp only [hpp, true_and]
        by_cases hin : i < n
        · rw [List.getElem?_append_left (by rw [ht1]; exact hin)] at h1
          rw [htr i s0 h1 k]
          have hpre : p.take (i + 1) <+: l := by
            refine List.IsPrefix.trans ?_ hprefn
            have : p.take (i + 1) = (p.take n).take (i + 1) := by
              rw [List.take_take, Nat.min_eq_left (by omega)]
            rw [this]; exact List.take_prefix ..
          simp only [hpre, true_and]
          constructor
          · rintro (hc | ⟨hi1, hc⟩)
            · refine ⟨?_, Or.inr hc⟩
              intro hk
              have hnl := (hcl _ _ hc).2
              rw [prefix_snoc, hpl1] at hnl
              by_cases hlt : i + 1 < n
              · exact hnl ⟨hpre, by rw [take_prefix_get hn3 hlt]; exact hk⟩
              · have hnn : n = i + 1 := by omega
                have := hokc k (by rw [hnn]; exact hk) (by omega) s0 (by rw [show n - 1 = i by omega]; exact h1)
                refine this.2 ?_
                rw [htr i s0 h1 k]
                exact Or.inl hc
            · rw [hi1]
              exact ⟨fun hk => hmax k hc hk, Or.inl hc⟩
          · rintro ⟨hk, hc | hc⟩
            · right
              have hnlt : ¬ i + 1 < n := fun hlt => hk (by rw [← take_prefix_get hn3 hlt]; exact hc)
              have hnn : i + 1 = n := by omega
              exact ⟨hnn, by rw [← hnn]; exact hc⟩
            · exact Or.inl hc
        · rw [List.getElem?_append_right (by rw [ht1]; omega)] at h1
          rw [(freshSegs_get _ _ _ _ _ h1).1]
          have hno : ¬ p.take (i + 1) <+: l := by
            intro hc
            have := hmaxp _ hc hpp
            rw [hpl1] at this
            omega
          constructor
          · intro hc; cases hc
          · rintro ⟨-, hc | hc⟩
            · exact absurd hc.1 hno
            · exact absurd (hcl _ _ hc).1 hno
    · -- no conflict
      rintro ⟨h0', l', kd1, hh', hconf⟩
      rw [hh] at hh'
      have hcc := List.append_inj' hh' rfl
      have hll : l = l' ∧ kd = kd1 := by simpa using hcc.2
      obtain ⟨rfl, rfl⟩ := hll
      have hokc : ∀ k, p[n]? = some k → 0 < n → ∀ seg, (truncateTo n st)[n - 1]? = some seg →
          seg.valueKind = .object ∧ k ∉ seg.closed := by
        intro k hk hpos seg hseg
        have hlt : n < p.length := (List.getElem?_eq_some_iff.1 hk).1
        have hd := List.drop_eq_getElem_cons hlt
        have hk' : p[n] = k := (List.getElem?_eq_some_iff.1 hk).2
        rw [hk'] at hd
        refine hok k _ seg hd ?_
        rw [List.getLast?_eq_getElem?, ht1]; exact hseg
      have hget : 0 < n → ∃ seg, (truncateTo n st)[n - 1]? = some seg := fun hpos =>
        ⟨_, List.getElem?_eq_getElem (by rw [ht1]; omega)⟩
      rcases hconf with hc | ⟨hc, hterm⟩ | ⟨pre, k, hne, hpk, hc⟩
      · exact hpl hc
      · have hnl := hmaxp l (List.prefix_refl _) hc
        have hlp := hc.length_le
        have hlpos : 0 < l.length := List.length_pos_iff.2 hl
        have hnlt : n < p.length := by
          refine Nat.lt_of_le_of_ne hn2 fun he => hdup ⟨he, by omega⟩
        obtain ⟨seg, hseg⟩ := hget (by omega)
        have h1 := hokc (p[n]) (List.getElem?_eq_getElem hnlt) (by omega) seg hseg
        obtain ⟨s0, g1, g2, g3, g4⟩ := ht2 _ _ hseg
        have h2 := hkinds _ _ g1
        rw [if_pos (by omega)] at h2
        rw [g3, h2, hterm] at h1
        exact absurd h1.1 (by simp)
      · obtain ⟨hpl2, hnl⟩ := hcl pre k hc
        rw [prefix_snoc] at hpk hnl
        have hle := hmaxp pre hpl2 hpk.1
        have hge : ¬ pre.length < n := fun hlt => hnl ⟨hpl2, by rw [take_prefix_get hn3 hlt]; exact hpk.2⟩
        have heq : pre.length = n := by omega
        have hpos : 0 < n := by rw [← heq]; exact List.length_pos_iff.2 hne
        obtain ⟨seg, hseg⟩ := hget hpos
        have h1 := hokc k (by rw [← heq]; exact hpk.2) hpos seg hseg
        refine h1.2 ?_
        rw [htr _ _ hseg k]
        left
        have : p.take (n - 1 + 1) = pre := by
          rw [show n - 1 + 1 = pre.length by omega]
          exact (List.prefix_iff_eq_take.1 hpk.1).symm
        rw [this]; exact hc
  · right
    refine ⟨(pushSegments sp kd' (truncateTo n st) (p.drop n)).1, e, ?_, h0, l, kd, hh, ?_⟩
    · generalize pushSegments sp kd' (truncateTo n st) (p.drop n) = r at *
      obtain ⟨r1, r2⟩ := r
      simp only at he
      subst he
      rfl
    · obtain ⟨hpos, hg⟩ := hlastT lst hg
      have hpn := hdrop k ks hd
      have hnlt : n < p.length := (List.getElem?_eq_some_iff.1 hpn).1
      rcases hbad with hb | hb
      · right; left
        obtain ⟨s0, g1, g2, g3, g4⟩ := ht2 _ _ hg
        have h2 := hkinds _ _ g1
        rw [← g3, hb] at h2
        by_cases hnl : n - 1 + 1 = l.length
        · rw [if_pos hnl] at h2
          refine ⟨?_, h2.symm⟩
          rw [List.take_of_length_le (by omega)] at hn3
          rw [hn3]; exact List.take_prefix ..
        · rw [if_neg hnl] at h2
          cases h2
      · right; right
        rw [htr _ _ hg k] at hb
        rcases hb with hb | ⟨-, hb⟩
        · refine ⟨p.take (n - 1 + 1), k, ?_, ?_, hb⟩
          · intro hc
            have := congrArg List.length hc
            simp at this
            exact hp this
          · rw [prefix_snoc]
            refine ⟨List.take_prefix .., ?_⟩
            rw [List.length_take, Nat.min_eq_left (by omega), show n - 1 + 1 = n by omega]
            exact hpn
        · exact absurd hpn (fun hpn => hmax k hb hpn)

end Styx
