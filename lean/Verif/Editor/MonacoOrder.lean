import Verif.Editor.MonacoAtom

/-!
# The tokens of a line are in order
-/

namespace Styx.Monaco

open Styx.Spec

/-- The tokens start from `a` on, in order, before `b`. -/
def Within (a b : Nat) (ts : List Token) : Prop :=
  (ts.map (·.1)).Pairwise (· ≤ ·) ∧ ∀ t ∈ ts, a ≤ t.1 ∧ t.1 < b

theorem Within.nil (a b : Nat) : Within a b [] := ⟨by simp, by simp⟩

theorem Within.one {a b k : Nat} (h : a ≤ k) (h' : k < b) (s : Scope) : Within a b [(k, s)] := ⟨by simp, by simp [h, h']⟩

theorem Within.append {a b c : Nat} {ts us : List Token} (h : Within a b ts) (h' : Within b c us) (hbc : b ≤ c) (hab : a ≤ b) :
    Within a c (ts ++ us) := by
  refine ⟨?_, ?_⟩
  · rw [List.map_append, List.pairwise_append]
    refine ⟨h.1, h'.1, ?_⟩
    intro x hx y hy
    obtain ⟨t, ht, rfl⟩ := List.mem_map.1 hx
    obtain ⟨u, hu, rfl⟩ := List.mem_map.1 hy
    have := (h.2 t ht).2
    have := (h'.2 u hu).1
    omega
  · intro t ht
    rcases List.mem_append.1 ht with ht | ht
    · have := h.2 t ht; omega
    · have := h'.2 t ht; omega

theorem Within.cons {a b k : Nat} {us : List Token} (hk : a ≤ k) (hkb : k < b) (s : Scope) (h : Within k b us) :
    Within a b ((k, s) :: us) := by
  refine ⟨?_, ?_⟩
  · rw [List.map_cons, List.pairwise_cons]
    refine ⟨?_, h.1⟩
    intro y hy
    obtain ⟨u, hu, rfl⟩ := List.mem_map.1 hy
    exact (h.2 u hu).1
  · intro t ht
    rcases List.mem_cons.1 ht with rfl | ht
    · exact ⟨hk, hkb⟩
    · have := h.2 t ht; omega

theorem Within.mono {a b a' b' : Nat} {ts : List Token} (h : Within a b ts) (ha : a' ≤ a) (hb : b ≤ b') : Within a' b' ts :=
  ⟨h.1, fun t ht => by have := h.2 t ht; omega⟩

theorem Within.shift {a b : Nat} {ts : List Token} (h : Within a b ts) (k : Nat) : Within (k + a) (k + b) (shift k ts) := by
  refine ⟨?_, ?_⟩
  · simp only [Monaco.shift, List.map_map, Function.comp_def]
    have := h.1
    rw [List.pairwise_map] at this ⊢
    exact this.imp (by intros; omega)
  · intro t ht
    obtain ⟨u, hu, rfl⟩ := List.mem_map.1 ht
    have := h.2 u hu
    simp only
    omega

theorem quotedLoop_within (scope : Scope) (pos : Nat) (cs : List Char) :
    Within pos (pos + (cs.length - (quotedLoop scope pos cs).2.1.length)) (quotedLoop scope pos cs).1 := by
  fun_induction quotedLoop scope pos cs with
  | case1 pos => exact .nil ..
  | case2 pos cs => exact .one (Nat.le_refl _) (by simp only [List.length_cons]; omega) _
  | case3 pos x cs ts r hq ih =>
    have hl := quotedLoop_length scope (pos + 2) cs
    rw [hq] at ih hl
    simp only at ih hl
    simp only [List.length_cons]
    refine .cons (Nat.le_refl _) (by omega) _ ?_
    split
    · rename_i hc
      have hts : Within pos (pos + 2) [] := .nil ..
      refine .cons (by omega) ?_ _ (ih.mono (Nat.le_refl _) (by omega))
      cases cs with
      | nil => exact absurd rfl hc.1
      | cons c cs =>
        simp only [List.head?_cons, ne_eq, Option.some.injEq] at hc
        have : r.1.length < (c :: cs).length := by
          have hr : r = (quotedLoop scope (pos + 2) (c :: cs)).2 := by rw [hq]
          rw [hr]
          by_cases hb : ∃ y cs', c :: cs = '\\' :: y :: cs'
          · obtain ⟨y, cs', he⟩ := hb
            rw [he]
            simp only [quotedLoop]
            have := quotedLoop_length scope (pos + 2 + 2) cs'
            simp only [List.length_cons]
            generalize quotedLoop scope (pos + 2 + 2) cs' = q at *
            obtain ⟨_, _, _⟩ := q
            simp only at this ⊢
            omega
          · rw [quotedLoop.eq_4 _ _ _ _ hc.2 (fun y cs' h1 h2 => hb ⟨y, cs', by rw [h1, h2]⟩)]
            have := quotedLoop_length scope (pos + 2 + 1) cs
            simp only [List.length_cons]
            omega
        simp only [List.length_cons] at this ⊢
        omega
    · exact ih.mono (by omega) (by omega)
  | case4 pos c cs h1 h2 ih =>
    have := quotedLoop_length scope (pos + 1) cs
    exact ih.mono (by omega) (by simp only [List.length_cons]; omega)

theorem indexOf_bound {pat l : List Char} {i : Nat} (h : indexOf pat l = some i) : i + pat.length ≤ l.length := by
  induction l generalizing i with
  | nil =>
    simp only [indexOf] at h
    split at h
    · rename_i hp
      have := List.IsPrefix.length_le (List.isPrefixOf_iff_prefix.1 hp)
      cases h; simpa using this
    · cases h
  | cons c l ih =>
    simp only [indexOf] at h
    split at h
    · rename_i hp
      have := List.IsPrefix.length_le (List.isPrefixOf_iff_prefix.1 hp)
      cases h; simpa using this
    · simp only [Option.map_eq_some_iff] at h
      obtain ⟨j, hj, rfl⟩ := h
      have := ih hj
      simp only [List.length_cons]
      omega

theorem takeWhile_length_le (p : Char → Bool) (l : List Char) : (l.takeWhile p).length ≤ l.length :=
  List.IsPrefix.length_le (List.takeWhile_prefix p)

theorem heredocStart_bound {s d n} (h : heredocStart s = some (d, n)) : n ≤ s.length := by
  unfold heredocStart at h
  split at h
  · rename_i c cs
    split at h
    · have hsum : (cs.takeWhile delimChar).length + (cs.dropWhile delimChar).length = cs.length := by
        rw [← List.length_append, List.takeWhile_append_dropWhile]
      simp only at h
      split at h
      · rename_i l ls hd
        rw [hd] at hsum
        simp only [List.length_cons] at hsum
        have := takeWhile_length_le langChar ls
        split at h
        all_goals
          simp only [Option.some.injEq, Prod.mk.injEq] at h
          obtain ⟨rfl, rfl⟩ := h
          simp only [List.length_cons]
          omega
      · simp only [Option.some.injEq, Prod.mk.injEq] at h
        obtain ⟨rfl, rfl⟩ := h
        simp only [List.length_cons]
        omega
    · cases h
  · cases h

/-- A round stays within the line, and its tokens within the round. -/
theorem step_within (st : St) (c : Char) (cs : List Char) :
    (step st (c :: cs)).used ≤ (c :: cs).length ∧ Within 0 (step st (c :: cs)).used (step st (c :: cs)).tokens := by
  have hpos := step_pos st c cs
  have hone : ∀ (n : Nat) s, 0 < n → Within 0 n [(0, s)] := fun n s h => .one (Nat.le_refl _) h s
  revert hpos
  simp only [step]
  by_cases h1 : blank c = true
  · rw [if_pos h1]
    exact fun hpos => ⟨by have := takeWhile_length_le blank cs; simp only [List.length_cons]; omega, hone _ _ hpos⟩
  rw [if_neg h1]
  by_cases h2 : ['/', '/', '/'].isPrefixOf (c :: cs) = true
  · rw [if_pos h2]
    refine fun hpos => ⟨?_, hone _ _ hpos⟩
    have h3 := List.IsPrefix.length_le (List.isPrefixOf_iff_prefix.1 h2)
    have := takeWhile_length_le dot (cs.drop 2)
    simp only [List.length_cons, List.length_nil, List.length_drop] at h3 this ⊢
    omega
  rw [if_neg h2]
  by_cases h3 : ['/', '/'].isPrefixOf (c :: cs) = true
  · rw [if_pos h3]
    refine fun hpos => ⟨?_, hone _ _ hpos⟩
    have h4 := List.IsPrefix.length_le (List.isPrefixOf_iff_prefix.1 h3)
    have := takeWhile_length_le dot (cs.drop 1)
    simp only [List.length_cons, List.length_nil, List.length_drop] at h4 this ⊢
    omega
  rw [if_neg h3]
  have hl : 1 ≤ (c :: cs).length := by simp
  by_cases h4 : c = '{'
  · rw [if_pos h4]; exact fun hpos => ⟨hl, hone _ _ hpos⟩
  rw [if_neg h4]
  by_cases h5 : c = '}'
  · rw [if_pos h5]; exact fun hpos => ⟨hl, hone _ _ hpos⟩
  rw [if_neg h5]
  by_cases h6 : c = '('
  · rw [if_pos h6]; exact fun hpos => ⟨hl, hone _ _ hpos⟩
  rw [if_neg h6]
  by_cases h7 : c = ')'
  · rw [if_pos h7]; exact fun hpos => ⟨hl, hone _ _ hpos⟩
  rw [if_neg h7]
  by_cases h8 : c = ','
  · rw [if_pos h8]; exact fun hpos => ⟨hl, hone _ _ hpos⟩
  rw [if_neg h8]
  cases h9 : heredocStart (c :: cs) with
  | some p =>
    obtain ⟨d, n⟩ := p
    exact fun hpos => ⟨heredocStart_bound h9, hone _ _ hpos⟩
  | none =>
    simp only
    cases h10 : rawStart (c :: cs) with
    | some n =>
      simp only [rawStep]
      split
      · rename_i i hi
        refine fun hpos => ⟨?_, hone _ _ hpos⟩
        have := indexOf_bound hi
        simp only [closePattern, List.length_cons, List.length_replicate, List.length_drop] at this ⊢
        omega
      · exact fun hpos => ⟨Nat.le_refl _, hone _ _ hpos⟩
    | none =>
      simp only
      by_cases h11 : c = '"'
      · rw [if_pos h11]
        intro _
        have h := quotedLoop_length (stringScope (isKey st)) 1 cs
        have hw := quotedLoop_within (stringScope (isKey st)) 1 cs
        simp only [quotedStep]
        generalize quotedLoop (stringScope (isKey st)) 1 cs = q at *
        obtain ⟨ts, r, e⟩ := q
        simp only at h hw ⊢
        exact ⟨by simp only [List.length_cons]; omega, .cons (Nat.le_refl _) (by omega) _
          (hw.mono (by omega) (by omega))⟩
      rw [if_neg h11]
      by_cases h12 : c = '@'
      · rw [if_pos h12]
        by_cases h13 : cs.head?.any tagStart = true
        · rw [if_pos h13]
          simp only [tagStep]
          refine fun hpos => ⟨?_, hone _ _ hpos⟩
          have := takeWhile_length_le tagChar cs
          simp only [List.length_cons]
          omega
        · rw [if_neg h13]; exact fun hpos => ⟨hl, hone _ _ hpos⟩
      rw [if_neg h12]
      by_cases h14 : bareFirst c = true
      · rw [if_pos h14]
        refine fun hpos => ⟨?_, hone _ _ hpos⟩
        have := takeWhile_length_le bareCont cs
        simp only [List.length_cons]
        omega
      · rw [if_neg h14]; exact fun hpos => ⟨hl, hone _ _ hpos⟩

theorem mainLoop_within (n : Nat) : ∀ (pos : Nat) (rest : List Char) (st : St),
    Within pos (pos + rest.length) (mainLoop n pos rest st).1 := by
  induction n with
  | zero => intros; exact .nil ..
  | succ n ih =>
    intro pos rest st
    simp only [mainLoop]
    split
    · exact .nil ..
    · rename_i hr
      cases rest with
      | nil => exact absurd rfl hr
      | cons c cs =>
        obtain ⟨h1, h2⟩ := step_within st c cs
        have h3 := h2.shift pos
        split
        · exact h3.mono (by omega) (by omega)
        · have h4 := ih (pos + (step st (c :: cs)).used) ((c :: cs).drop (step st (c :: cs)).used) (step st (c :: cs)).st
          simp only [List.length_drop] at h4
          refine (h3.mono (a' := pos) (by omega) (Nat.le_refl _)).append (h4.mono (Nat.le_refl _) (by omega)) (by omega) (by omega)

theorem continuedLoop_within (scope : Scope) (ts : List Token) (pos : Nat) (cs : List Char) (hts : Within 0 (pos + 1) ts)
    (hcs : cs = [] → Within 0 pos ts) (h0 : 0 < pos → ∃ s us, ts = (0, s) :: us) :
    (continuedLoop scope ts pos cs).2.1 + (continuedLoop scope ts pos cs).2.2.1.length = pos + cs.length ∧
      Within 0 (continuedLoop scope ts pos cs).2.1 (continuedLoop scope ts pos cs).1 ∧
      (cs ≠ [] ∨ 0 < pos → ∃ s us, (continuedLoop scope ts pos cs).1 = (0, s) :: us) := by
  have hhead : ∀ {ts : List Token} {s}, (∃ s us, ts = (0, s) :: us) → ∃ s' us, ts ++ [s] = (0, s') :: us := by
    rintro _ s ⟨s', us, rfl⟩
    exact ⟨s', us ++ [s], rfl⟩
  have happ : ∀ {ts : List Token} {pos : Nat} (s : Scope), Within 0 (pos + 1) ts → Within 0 (pos + 1) (ts ++ [(pos, s)]) := by
    intro ts pos s h
    refine ⟨?_, ?_⟩
    · rw [List.map_append, List.pairwise_append]
      refine ⟨h.1, by simp, ?_⟩
      intro x hx y hy
      obtain ⟨t, ht, rfl⟩ := List.mem_map.1 hx
      simp at hy
      have := (h.2 t ht).2
      omega
    · intro t ht
      rcases List.mem_append.1 ht with ht | ht
      · exact h.2 t ht
      · simp at ht; subst ht; simp
  fun_induction continuedLoop scope ts pos cs with
  | case1 ts pos => exact ⟨by simp, hcs rfl, fun h => h0 (h.resolve_left (by simp))⟩
  | case2 ts pos cs =>
    refine ⟨by simp; omega, happ _ hts, fun _ => ?_⟩
    by_cases hp : 0 < pos
    · exact hhead (h0 hp)
    · have : pos = 0 := by omega
      subst this
      cases ts with
      | nil => exact ⟨_, _, rfl⟩
      | cons t ts =>
        have := (hts.2 t (by simp)).2
        obtain ⟨k, s⟩ := t
        simp only at this
        have : k = 0 := by omega
        subst this
        exact ⟨_, _, rfl⟩
  | case3 ts pos x cs ts' ih =>
    have hts' : Within 0 (pos + 1) ts' := by
      show Within 0 (pos + 1) (if ts.getLast?.map (·.1) ≠ some pos then ts ++ [(pos, .stringEscape)] else ts)
      split
      · exact happ _ hts
      · exact hts
    have h0' : ∃ s us, ts' = (0, s) :: us := by
      show ∃ s us, (if ts.getLast?.map (·.1) ≠ some pos then ts ++ [(pos, .stringEscape)] else ts) = (0, s) :: us
      by_cases hp : 0 < pos
      · split
        · exact hhead (h0 hp)
        · exact h0 hp
      · have : pos = 0 := by omega
        subst this
        cases ts with
        | nil => simp
        | cons t ts =>
          have := (hts.2 t (by simp)).2
          obtain ⟨k, s⟩ := t
          simp only at this
          have : k = 0 := by omega
          subst this
          split
          · exact ⟨_, _, rfl⟩
          · exact ⟨_, _, rfl⟩
    have hgo := ih
      (by
        split
        · exact happ _ (hts'.mono (Nat.le_refl _) (by omega))
        · exact hts'.mono (Nat.le_refl _) (by omega))
      (fun hc => by rw [if_neg (by simp [hc])]; exact hts'.mono (Nat.le_refl _) (by omega))
      (fun _ => by
        split
        · exact hhead h0'
        · exact h0')
    obtain ⟨h1, h2, h3⟩ := hgo
    exact ⟨by rw [h1]; simp; omega, h2, fun _ => h3 (.inr (by omega))⟩
  | case4 ts pos c cs hc1 hc2 ih =>
    have hgo := ih
      (by
        split
        · exact .one (by omega) (by omega) _
        · exact hts.mono (Nat.le_refl _) (by omega))
      (fun _ => by
        split
        · exact .one (by omega) (by omega) _
        · exact hts)
      (fun _ => by
        by_cases hp : 0 < pos
        · have := h0 hp
          obtain ⟨s, us, rfl⟩ := this
          exact ⟨s, us, by simp⟩
        · have : pos = 0 := by omega
          subst this
          cases ts with
          | nil => exact ⟨scope, [], by simp⟩
          | cons t ts =>
            have := (hts.2 t (by simp)).2
            obtain ⟨k, s⟩ := t
            simp only at this
            have : k = 0 := by omega
            subst this
            exact ⟨s, ts, by simp⟩)
    obtain ⟨h1, h2, h3⟩ := hgo
    exact ⟨by rw [h1]; simp; omega, h2, fun _ => h3 (.inr (by omega))⟩

theorem mainLoop_head {pos : Nat} {rest : List Char} {st : St} (h : rest ≠ []) :
    ∃ s vs, (mainLoop rest.length pos rest st).1 = (pos, s) :: vs := by
  obtain ⟨s, vs, hl⟩ := loop_head (st := st) h
  rw [mainLoop_shift]
  refine ⟨s, shift pos vs, ?_⟩
  show shift pos (loop st rest).1 = _
  rw [hl]; simp [shift]

theorem tokenizeRaw_within (pos : Nat) (rest : List Char) (st : St) :
    Within pos (pos + rest.length) (tokenizeRaw pos rest st).1 ∧
      (rest ≠ [] → ∃ s vs, (tokenizeRaw pos rest st).1 = (pos, s) :: vs) := by
  unfold tokenizeRaw
  split
  · split
    · exact ⟨mainLoop_within .., fun h => mainLoop_head h⟩
    · rename_i hr
      have hlen : 0 < rest.length := by cases rest with | nil => exact absurd rfl hr | cons => simp
      split
      · rename_i n _ _ i hi
        have hb := indexOf_bound hi
        simp only [closePattern, List.length_cons, List.length_replicate] at hb
        have h := mainLoop_within rest.length (pos + (i + (n + 1))) (rest.drop (i + (n + 1))) (afterAtom { st with raw := none })
        simp only [List.length_drop] at h
        exact ⟨.cons (Nat.le_refl _) (by omega) _ (h.mono (by omega) (by omega)), fun _ => ⟨_, _, rfl⟩⟩
      · exact ⟨.one (Nat.le_refl _) (by omega) _, fun _ => ⟨_, _, rfl⟩⟩
  · exact ⟨mainLoop_within .., fun h => mainLoop_head h⟩

/-- The tokens of a line that is not empty: they begin with the line, are in order and end with the line. -/
theorem tokenize_within (l : List Char) (hl : l ≠ []) (st : St) :
    Within 0 l.length (tokenize l st).1 ∧ ∃ s vs, (tokenize l st).1 = (0, s) :: vs := by
  have hlen : 0 < l.length := by cases l with | nil => exact absurd rfl hl | cons => simp
  unfold tokenize
  split
  · split <;> exact ⟨.one (Nat.le_refl _) hlen _, _, _, rfl⟩
  · split
    · obtain ⟨h1, h2, h3⟩ := continuedLoop_within (stringScope st.stringIsKey) [] 0 l (.nil ..) (fun _ => .nil ..)
        (fun h => by omega)
      have h3 := h3 (.inl hl)
      simp only
      generalize hq : continuedLoop (stringScope st.stringIsKey) [] 0 l = q at h1 h2 h3
      obtain ⟨ts, pos, rest, e⟩ := q
      simp only at h1 h2 h3
      cases e with
      | false =>
        obtain ⟨s, us, hts⟩ := h3
        simp only
        rw [if_neg (by rw [hts]; simp)]
        exact ⟨h2.mono (Nat.le_refl _) (by omega), s, us, hts⟩
      | true =>
        obtain ⟨s, us, hts⟩ := h3
        obtain ⟨h4, _⟩ := tokenizeRaw_within pos rest (afterAtom { st with inString := false })
        simp only
        refine ⟨h2.append (h4.mono (Nat.le_refl _) (by omega)) (by omega) (by omega), s, ?_⟩
        rw [hts]
        exact ⟨_, rfl⟩
    · have h := tokenizeRaw_within 0 l st
      rw [Nat.zero_add] at h
      exact ⟨h.1, h.2 hl⟩

end Styx.Monaco
