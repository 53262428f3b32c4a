import Verif.Lsp.Locks

/-!
# Lemmas about the requests that wait for the documents
-/

namespace Styx.Lsp.Locks

/-! ## Every step brings the end closer -/

/-- What is left to do, counting a request that waits as half a step further. -/
def measure (s : System) : Nat := 2 * (s.threads.map fun t => t.todo.length).sum - s.queue.length

theorem sum_set : ∀ {l : List Thread} {i : Nat} {t u : Thread}, l[i]? = some t →
    ((l.set i u).map fun t => t.todo.length).sum + t.todo.length = (l.map fun t => t.todo.length).sum + u.todo.length
  | [], _, _, _, h => by simp at h
  | a :: l, 0, t, u, h => by
    simp only [List.getElem?_cons_zero, Option.some.injEq] at h
    subst h
    simp only [List.set_cons_zero, List.map_cons, List.sum_cons]
    omega
  | a :: l, i + 1, t, u, h => by
    have := sum_set (l := l) (i := i) (t := t) (u := u) (by simpa using h)
    simp only [List.set_cons_succ, List.map_cons, List.sum_cons]
    omega

theorem mem_set {α : Type} {l : List α} {i : Nat} {a b : α} (h : b ∈ l.set i a) : b = a ∨ b ∈ l := by
  rcases List.mem_or_eq_of_mem_set h with h | h
  · exact .inr h
  · exact .inl h

theorem lt_of_some {α : Type} {l : List α} {i : Nat} {a : α} (h : l[i]? = some a) : i < l.length := by
  rcases Nat.lt_or_ge i l.length with hl | hl
  · exact hl
  · rw [List.getElem?_eq_none hl] at h; cases h

/-- Those that wait are different requests, and each of them wants the lock. -/
structure Waiting (s : System) : Prop where
  wants : ∀ p ∈ s.queue, ∃ t rest, s.threads[p.1]? = some t ∧ t.todo = .acquire p.2 :: rest
  nodup : (s.queue.map (·.1)).Nodup

theorem Waiting.start (rs : List Request) : Waiting (Locks.start rs) :=
  ⟨fun _ hp => (nomatch hp), List.nodup_nil⟩

/-- A step of a request leaves the others alone. -/
theorem get_set_ne {l : List Thread} {i j : Nat} (h : i ≠ j) (u : Thread) : (l.set i u)[j]? = l[j]? :=
  List.getElem?_set_ne h

theorem not_waiting {s : System} (h : Waiting s) {i : Nat} {t : Thread} (ht : s.threads[i]? = some t)
    (hr : ∀ m rest, t.todo ≠ .acquire m :: rest) : ∀ p ∈ s.queue, p.1 ≠ i := by
  intro p hp he
  obtain ⟨u, rest, h1, h2⟩ := h.wants p hp
  rw [he, ht] at h1
  cases h1
  exact hr _ _ h2

theorem Waiting.step {s : System} (h : Waiting s) (i : Nat) : Waiting (step s i) := by
  unfold Locks.step
  split
  · exact h
  · rename_i t ht
    split
    · exact h
    · rename_i rest hr
      refine ⟨fun p hp => ?_, h.nodup⟩
      obtain ⟨u, r, h1, h2⟩ := h.wants p hp
      have := not_waiting h ht (by rw [hr]; simp) p hp
      exact ⟨u, r, by simpa [get_set_ne (Ne.symm this)] using h1, h2⟩
    · rename_i m rest hr
      split
      · split
        · exact ⟨fun p hp => (nomatch hp), List.nodup_nil⟩
        · refine ⟨fun p hp => ?_, by simp⟩
          rw [List.mem_singleton.mp hp]
          exact ⟨t, rest, ht, hr⟩
      · rename_i j n waiting hq
        split
        · rename_i hij
          subst hij
          split
          · have hn := h.nodup
            rw [hq] at hn
            simp only [List.map_cons, List.nodup_cons] at hn
            refine ⟨fun p hp => ?_, hn.2⟩
            have hp : p ∈ waiting := hp
            obtain ⟨u, r, h1, h2⟩ := h.wants p (by rw [hq]; exact List.mem_cons_of_mem _ hp)
            have hne : i ≠ p.1 := fun he => hn.1 (he ▸ List.mem_map_of_mem hp)
            exact ⟨u, r, by simpa [grant, get_set_ne hne] using h1, h2⟩
          · exact h
        · rename_i hij
          split
          · exact h
          · rename_i hw
            refine ⟨fun p hp => ?_, ?_⟩
            · rcases List.mem_append.mp hp with hp | hp
              · exact h.wants p (by rw [hq]; exact hp)
              · rw [List.mem_singleton.mp hp]
                exact ⟨t, rest, ht, hr⟩
            · have hn := h.nodup
              rw [hq] at hn
              show (((j, n) :: waiting ++ [(i, m)]).map (·.1)).Nodup
              rw [List.map_append, List.nodup_append]
              refine ⟨hn, by simp, ?_⟩
              intro a ha b hb
              simp only [List.map_cons, List.map_nil, List.mem_singleton] at hb
              subst hb
              simp only [List.map_cons, List.mem_cons, List.mem_map] at ha
              rcases ha with rfl | ⟨p, hp, rfl⟩
              · exact fun he => hij he.symm
              · intro he
                apply hw
                rw [List.any_eq_true]
                exact ⟨p, hp, by simp [he]⟩

theorem sum_pos_of_wants : ∀ {q : List (Nat × Mode)} {l : List Thread}, (q.map (·.1)).Nodup →
    (∀ p ∈ q, ∃ t rest, l[p.1]? = some t ∧ t.todo = .acquire p.2 :: rest) →
    q.length ≤ (l.map fun t => t.todo.length).sum
  | [], _, _, _ => Nat.zero_le _
  | (i, m) :: q, l, hn, hw => by
    simp only [List.map_cons, List.nodup_cons] at hn
    obtain ⟨t, rest, h1, h2⟩ := hw (i, m) (List.mem_cons_self ..)
    have hs := sum_set (u := ⟨[], []⟩) h1
    have := sum_pos_of_wants (q := q) (l := l.set i ⟨[], []⟩) hn.2 (by
      intro p hp
      obtain ⟨u, r, g1, g2⟩ := hw p (List.mem_cons_of_mem _ hp)
      have hne : i ≠ p.1 := fun he => hn.1 (he ▸ List.mem_map_of_mem hp)
      exact ⟨u, r, by simpa [get_set_ne hne] using g1, g2⟩)
    simp only [h2, List.length_cons, List.length_nil] at hs
    simp only [List.length_cons]
    omega

theorem Waiting.length {s : System} (h : Waiting s) : s.queue.length ≤ (s.threads.map fun t => t.todo.length).sum :=
  sum_pos_of_wants h.nodup h.wants

theorem step_measure {s : System} (h : Waiting s) (i : Nat) : step s i = s ∨ measure (step s i) < measure s := by
  have hl := h.length
  have hl' := (h.step i).length
  unfold Locks.step at hl' ⊢
  split
  · exact .inl rfl
  · rename_i t ht
    simp only [ht] at hl'
    split
    · exact .inl rfl
    · rename_i rest hr
      right
      have := sum_set (u := ⟨rest, t.held.tail⟩) ht
      simp only [hr, List.length_cons] at this
      simp only [measure]
      omega
    · rename_i m rest hr
      simp only [hr] at hl'
      have hs := sum_set (u := ⟨t.todo.tail, m :: t.held⟩) ht
      simp only [hr, List.length_cons, List.tail_cons] at hs
      split
      · rename_i hq
        simp only [hq] at hl'
        split
        · right
          simp only [measure, grant, hr, List.tail_cons, hq, List.length_nil]
          omega
        · rename_i hf
          right
          simp only [hf] at hl'
          simp only [measure, hq, List.length_nil, List.length_cons]
          simp at hl'
          omega
      · rename_i j n waiting hq
        simp only [hq] at hl'
        split
        · rename_i hij
          simp only [hij, if_true] at hl'
          split
          · right
            rw [hq] at hl
            simp only [List.length_cons] at hl
            simp only [measure, grant, hr, List.tail_cons, hq, List.length_cons]
            omega
          · exact .inl rfl
        · rename_i hij
          simp only [hij, if_false] at hl'
          split
          · exact .inl rfl
          · rename_i hw
            right
            rw [if_neg hw] at hl'
            simp only [List.length_append, List.length_cons, List.length_nil] at hl'
            simp only [measure, hq, List.length_append, List.length_cons, List.length_nil]
            omega

/-! ## Fair schedules -/

/-- Every request has its turn again and again. -/
def Turns (count : Nat) (f : Nat → Nat) : Prop := ∀ i, i < count → ∀ n, ∃ m, n ≤ m ∧ f m = i

/-- All requests are answered. -/
def Done (s : System) : Prop := ∀ t ∈ s.threads, t.todo = []

theorem step_length (s : System) (i : Nat) : (step s i).threads.length = s.threads.length := by
  unfold step grant
  split
  · rfl
  · split
    · rfl
    · simp
    · split
      · split <;> simp
      · split
        · split <;> simp
        · split <;> simp

theorem lt_of_step {s : System} {i : Nat} (h : step s i ≠ s) : i < s.threads.length := by
  rcases Nat.lt_or_ge i s.threads.length with hl | hl
  · exact hl
  · refine absurd ?_ h
    unfold step
    rw [List.getElem?_eq_none hl]

theorem after_inv {P : System → Prop} {s : System} (hs : P s) (hstep : ∀ s i, P s → P (step s i)) (f : Nat → Nat) (n : Nat) :
    P (after s f n) := by
  induction n with
  | zero => exact hs
  | succ n ih => exact hstep _ _ ih

/-- When a property holds from now on, and with it some request can move until all are answered, then all are
answered in every fair schedule. -/
theorem fair_done {P : System → Prop} {s : System} (hs : P s) (hw : Waiting s) (hstep : ∀ s i, P s → P (step s i))
    (hmove : ∀ s, Waiting s → P s → ¬ Done s → ∃ i, step s i ≠ s) {f : Nat → Nat}
    (hf : Turns s.threads.length f) :
    ∃ n, Done (after s f n) := by
  have hW : ∀ n, Waiting (after s f n) := after_inv hw (fun s i h => h.step i) f
  have hP : ∀ n, P (after s f n) := after_inv hs hstep f
  have hlen : ∀ n, (after s f n).threads.length = s.threads.length :=
    after_inv (P := fun u => u.threads.length = s.threads.length) rfl (fun u i h => (step_length u i).trans h) f
  have key : ∀ (k n : Nat), measure (after s f n) = k → ∃ m, Done (after s f m) := by
    intro k
    induction k using Nat.strongRecOn with
    | ind k ih =>
      intro n hk
      by_cases hd : Done (after s f n)
      · exact ⟨n, hd⟩
      obtain ⟨i, hi⟩ := hmove _ (hW n) (hP n) hd
      obtain ⟨m, hnm, hfm⟩ := hf i (hlen n ▸ lt_of_step hi) n
      -- until step `m` the state is the same, or the measure has gone down
      have hsame : ∀ d, after s f (n + d) = after s f n ∨ measure (after s f (n + d)) < k := by
        intro d
        induction d with
        | zero => exact .inl rfl
        | succ d ihd =>
          show step (after s f (n + d)) (f (n + d)) = _ ∨ measure (step (after s f (n + d)) (f (n + d))) < k
          have hst := step_measure (hW (n + d)) (f (n + d))
          rcases ihd with ihd | ihd
          · rcases hst with hst | hst
            · exact .inl (hst.trans ihd)
            · right; rw [ihd] at hst ⊢; omega
          · right
            rcases hst with hst | hst
            · rw [hst]; exact ihd
            · omega
      obtain ⟨d, rfl⟩ : ∃ d, m = n + d := ⟨m - n, by omega⟩
      rcases hsame d with h | h
      · have h1 : after s f (n + d + 1) = step (after s f n) i := by
          show step (after s f (n + d)) (f (n + d)) = _
          rw [h, hfm]
        have h2 := step_measure (hW n) i
        rcases h2 with h2 | h2
        · exact absurd h2 hi
        · exact ih (measure (after s f (n + d + 1))) (by rw [h1]; omega) _ rfl
      · exact ih _ h _ rfl
  exact key _ 0 rfl

/-! ## Requests that do not take the lock twice -/

/-- Taking and dropping the lock, again and again. -/
def flat : List Mode → List Op
  | [] => []
  | m :: ms => .acquire m :: .release :: flat ms

/-- No request takes the lock while it holds it. -/
def Flat (s : System) : Prop :=
  ∀ t ∈ s.threads, (t.held = [] ∧ ∃ ms, t.todo = flat ms) ∨ (∃ m, t.held = [m] ∧ ∃ ms, t.todo = .release :: flat ms)

theorem flat_append (ms ns : List Mode) : flat (ms ++ ns) = flat ms ++ flat ns := by
  induction ms with
  | nil => rfl
  | cons m ms ih => simp [flat, ih]

theorem callbacks_flat (k : Nat) : callbacks k = flat (List.replicate k .read) := by
  induction k with
  | zero => rfl
  | succ k ih => simp [callbacks, callback, List.replicate_succ, flat, ih]

theorem Flat.set {s : System} (h : Flat s) {i : Nat} {u : Thread}
    (hu : (u.held = [] ∧ ∃ ms, u.todo = flat ms) ∨ (∃ m, u.held = [m] ∧ ∃ ms, u.todo = .release :: flat ms)) (q) :
    Flat ⟨s.threads.set i u, q⟩ := by
  intro t ht
  rcases mem_set ht with rfl | ht
  · exact hu
  · exact h t ht

theorem Flat.grant {s : System} (h : Flat s) {i : Nat} {t : Thread} (ht : s.threads[i]? = some t) {m : Mode} {rest : List Op}
    (hr : t.todo = .acquire m :: rest) (q) : Flat (grant s i t m q) := by
  refine h.set ?_ _
  rcases h t (List.mem_of_getElem? ht) with ⟨h1, ms, h2⟩ | ⟨n, h1, ms, h2⟩
  · right
    rw [h2] at hr
    cases ms with
    | nil => simp [flat] at hr
    | cons n ms =>
      refine ⟨m, by simp [h1], ms, ?_⟩
      simp [h2, flat]
  · rw [h2] at hr; simp at hr

theorem Flat.step {s : System} (h : Flat s) (i : Nat) : Flat (step s i) := by
  unfold Locks.step
  split
  · exact h
  · rename_i t ht
    split
    · exact h
    · rename_i rest hr
      refine h.set ?_ _
      rcases h t (List.mem_of_getElem? ht) with ⟨h1, ms, h2⟩ | ⟨n, h1, ms, h2⟩
      · rw [h2] at hr; cases ms <;> simp [flat] at hr
      · rw [h2] at hr
        simp only [List.cons.injEq, true_and] at hr
        exact .inl ⟨by simp [h1], ms, hr.symm⟩
    · rename_i m rest hr
      split
      · split
        · exact h.grant ht hr _
        · exact h
      · split
        · split
          · exact h.grant ht hr _
          · exact h
        · split
          · exact h
          · exact h

theorem set_ne {l : List Thread} {i : Nat} {t u : Thread} (ht : l[i]? = some t) (h : u.todo.length ≠ t.todo.length) :
    l.set i u ≠ l := by
  intro he
  have : (l.set i u)[i]? = some u := by simp [lt_of_some ht]
  rw [he, ht] at this
  cases this
  exact h rfl

theorem grant_ne {s : System} {i : Nat} {t : Thread} (ht : s.threads[i]? = some t) {m : Mode} {rest : List Op}
    (hr : t.todo = .acquire m :: rest) (q) : grant s i t m q ≠ s := by
  intro he
  have : s.threads.set i ⟨t.todo.tail, m :: t.held⟩ = s.threads := congrArg System.threads he
  exact set_ne ht (by simp [hr]) this

theorem Flat.move {s : System} (hw : Waiting s) (h : Flat s) (hd : ¬ Done s) : ∃ i, Locks.step s i ≠ s := by
  by_cases hh : ∃ t ∈ s.threads, t.held ≠ []
  · obtain ⟨t, ht, hne⟩ := hh
    obtain ⟨i, hi⟩ := List.mem_iff_getElem?.mp ht
    refine ⟨i, ?_⟩
    rcases h t ht with ⟨h1, _⟩ | ⟨m, h1, ms, h2⟩
    · exact absurd h1 hne
    · unfold Locks.step
      simp only [hi, h2]
      intro he
      exact set_ne hi (by simp [h2]) (congrArg System.threads he)
  · have hfree : ∀ m, free s m = true := by
      intro m
      have hnil : ∀ t ∈ s.threads, t.held = [] := fun t ht => Classical.not_not.mp fun hc => hh ⟨t, ht, hc⟩
      cases m
      · simp only [free, List.all_eq_true]
        intro t ht
        simp [hnil t ht]
      · simp only [free, List.all_eq_true]
        intro t ht
        simp [hnil t ht]
    cases hq : s.queue with
    | nil =>
      have : ∃ t ∈ s.threads, t.todo ≠ [] := by
        refine Classical.not_not.mp fun hc => hd fun t ht => Classical.not_not.mp fun hn => hc ⟨t, ht, hn⟩
      obtain ⟨t, ht, hne⟩ := this
      obtain ⟨i, hi⟩ := List.mem_iff_getElem?.mp ht
      refine ⟨i, ?_⟩
      rcases h t ht with ⟨h1, ms, h2⟩ | ⟨m, h1, _⟩
      · cases ms with
        | nil => exact absurd h2 hne
        | cons m ms =>
          have hr : t.todo = .acquire m :: .release :: flat ms := h2
          unfold Locks.step
          simp only [hi, hr, hq, hfree, if_true]
          exact grant_ne hi hr _
      · exact absurd ⟨t, ht, by simp [h1]⟩ hh
    | cons p waiting =>
      obtain ⟨j, n⟩ := p
      obtain ⟨t, rest, h1, h2⟩ := hw.wants (j, n) (by rw [hq]; exact List.mem_cons_self ..)
      refine ⟨j, ?_⟩
      unfold Locks.step
      simp only [h1, h2, hq, if_true, hfree]
      exact grant_ne h1 h2 _

/-! ## Requests that only read -/

/-- Nobody writes. -/
def Readers (s : System) : Prop :=
  s.queue = [] ∧ ∀ t ∈ s.threads, .acquire .write ∉ t.todo ∧ .write ∉ t.held

theorem Readers.free {s : System} (h : Readers s) : free s .read = true := by
  simp only [Locks.free, List.all_eq_true]
  intro t ht
  simp [(h.2 t ht).2]

theorem Readers.set {s : System} (h : Readers s) {i : Nat} {u : Thread} (hu : .acquire .write ∉ u.todo ∧ .write ∉ u.held) :
    Readers ⟨s.threads.set i u, []⟩ := by
  refine ⟨rfl, fun t ht => ?_⟩
  rcases mem_set ht with rfl | ht
  · exact hu
  · exact h.2 t ht

theorem Readers.step {s : System} (h : Readers s) (i : Nat) : Readers (step s i) := by
  unfold Locks.step
  split
  · exact h
  · rename_i t ht
    obtain ⟨g1, g2⟩ := h.2 t (List.mem_of_getElem? ht)
    split
    · exact h
    · rename_i rest hr
      rw [h.1]
      refine h.set ⟨?_, fun hm => g2 (List.mem_of_mem_tail hm)⟩
      rw [hr] at g1
      exact fun hm => g1 (List.mem_cons_of_mem _ hm)
    · rename_i m rest hr
      rw [hr] at g1
      have hm : m = .read := by
        cases m with
        | read => rfl
        | write => exact absurd (List.mem_cons_self ..) g1
      subst hm
      simp only [h.1, h.free, if_true]
      refine h.set ⟨?_, ?_⟩
      · rw [hr]; exact fun hm => g1 (List.mem_cons_of_mem _ hm)
      · simp [g2]

theorem Readers.move {s : System} (h : Readers s) (hd : ¬ Done s) : ∃ i, Locks.step s i ≠ s := by
  have : ∃ t ∈ s.threads, t.todo ≠ [] :=
    Classical.not_not.mp fun hc => hd fun t ht => Classical.not_not.mp fun hn => hc ⟨t, ht, hn⟩
  obtain ⟨t, ht, hne⟩ := this
  obtain ⟨i, hi⟩ := List.mem_iff_getElem?.mp ht
  refine ⟨i, ?_⟩
  obtain ⟨g1, g2⟩ := h.2 t ht
  unfold Locks.step
  match hr : t.todo with
  | [] => exact absurd hr hne
  | .release :: rest =>
    simp only [hi, hr]
    intro he
    exact set_ne hi (by simp [hr]) (congrArg System.threads he)
  | .acquire .write :: rest => rw [hr] at g1; exact absurd (List.mem_cons_self ..) g1
  | .acquire .read :: rest =>
    simp only [hi, hr, h.1, h.free, if_true]
    exact grant_ne hi hr _

/-! ## A request that takes the lock twice -/

/-- The first request holds the lock and waits behind the second one, which waits for the first; everybody else
wants the lock too. -/
structure Stuck (s : System) : Prop where
  first : ∃ t, s.threads[0]? = some t ∧ t.held ≠ []
  queue : ∃ q, s.queue = (1, .write) :: q ∧ ∃ m, (0, m) ∈ q
  want : ∀ t ∈ s.threads, ∃ m rest, t.todo = .acquire m :: rest
  writer : ∃ t rest, s.threads[1]? = some t ∧ t.todo = .acquire .write :: rest

theorem Stuck.step {s : System} (h : Stuck s) (i : Nat) : Stuck (step s i) := by
  have hkeep := h
  obtain ⟨⟨t0, h1, h2⟩, ⟨q, h3, m0, h4⟩, h5, ⟨t1, r1, h6, h7⟩⟩ := h
  unfold Locks.step
  split
  · exact hkeep
  · rename_i t ht
    obtain ⟨m, rest, hr⟩ := h5 t (List.mem_of_getElem? ht)
    simp only [hr, h3]
    split
    · rename_i hi
      subst hi
      rw [h6] at ht
      cases ht
      rw [h7] at hr
      simp only [List.cons.injEq, Op.acquire.injEq] at hr
      rw [← hr.1]
      have hf : free s .write = false := by
        simp only [free, List.all_eq_false]
        exact ⟨t0, List.mem_of_getElem? h1, by simpa using h2⟩
      rw [hf]
      exact hkeep
    · split
      · exact hkeep
      · exact ⟨⟨t0, h1, h2⟩, ⟨q ++ [(i, m)], rfl, m0, List.mem_append_left _ h4⟩, h5, ⟨t1, r1, h6, h7⟩⟩

theorem Stuck.run {s : System} (h : Stuck s) (l : List Nat) : Stuck (run s l) := by
  induction l generalizing s with
  | nil => exact h
  | cons i l ih => exact ih (h.step i)

end Styx.Lsp.Locks
