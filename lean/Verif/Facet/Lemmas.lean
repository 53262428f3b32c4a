import Verif.Facet.Spec
import Verif.Tree.BuilderLemmas

/-! # Lemmas about the facet parser -/

namespace Styx.Facet

open Styx Styx.Spec

/-- `next` gives these events one after the other and then is in the state `st'`. -/
inductive Steps (S : Src) : Core → List FEvent → Core → Prop
  | nil (st : Core) : Steps S st [] st
  | cons {st st1 st2 : Core} {e : FEvent} {es : List FEvent} : next S st = .ok (some e) st1 →
      Steps S st1 es st2 → Steps S st (e :: es) st2

/-- `next` gives events of these kinds and then goes on as from `st'`. -/
def Reads (S : Src) (st : Core) (fs : List FKind) (st' : Core) : Prop :=
  ∃ es st1, fkinds es = fs ∧ Steps S st es st1 ∧ next S st1 = next S st'

theorem Steps.append {S : Src} {st st1 st2 : Core} {es es' : List FEvent} (h : Steps S st es st1)
    (h' : Steps S st1 es' st2) : Steps S st (es ++ es') st2 := by
  induction h with
  | nil => exact h'
  | cons h1 _ ih => exact .cons h1 (ih h')

theorem Reads.refl (S : Src) (st : Core) : Reads S st [] st := ⟨[], st, rfl, .nil _, rfl⟩

theorem Reads.trans {S : Src} {st st1 st2 : Core} {fs gs : List FKind} (h : Reads S st fs st1)
    (h' : Reads S st1 gs st2) : Reads S st (fs ++ gs) st2 := by
  obtain ⟨es, s1, h1, h2, h3⟩ := h
  obtain ⟨es', s2, h4, h5, h6⟩ := h'
  cases h5 with
  | nil =>
    refine ⟨es, s1, ?_, h2, h3.trans h6⟩
    rw [← h4, h1]; simp [fkinds]
  | cons h7 h8 =>
    refine ⟨es ++ _ :: _, s2, ?_, h2.append (.cons (h3.trans h7) h8), h6⟩
    rw [← h4, ← h1]; simp [fkinds]

theorem Reads.silent {S : Src} {st st1 st2 : Core} {fs : List FKind} (h : next S st = next S st1)
    (h' : Reads S st1 fs st2) : Reads S st fs st2 :=
  Reads.trans (fs := []) ⟨[], st, rfl, .nil _, h⟩ h'

theorem convert_rest {S : Src} {e : Event} {st st' : Core} {o : Option FEvent}
    (h : convert S e st = .ok o st') : st'.rest.length ≤ st.rest.length := by
  have hs : ∀ d es rest, skipSchema d es = .ok rest → rest.length ≤ es.length := by
    intro d es
    induction es generalizing d with
    | nil => intro rest h; simp only [skipSchema, Skipped.ok.injEq] at h; simp [← h]
    | cons e es ih =>
      intro rest h
      rw [skipSchema] at h
      split at h <;> try (first | (have := ih _ _ h; simp; omega) | cases h)
      · split at h
        · cases h; simp
        · have := ih _ _ h; simp; omega
      · split at h
        · cases h; simp
        · have := ih _ _ h; simp; omega
      · split at h
        · cases h; simp
        · have := ih _ _ h; simp; omega
      · split at h
        · cases h; simp
        · have := ih _ _ h; simp; omega
      · split at h
        · cases h; simp
        · have := ih _ _ h; simp; omega
  unfold convert at h
  split at h
  all_goals first
    | (cases h; exact Nat.le_refl _)
    | (cases h; done)
    | skip
  · split at h
    · cases h
    · cases h; exact Nat.le_refl _
  · split at h
    · cases h
    · cases h; exact Nat.le_refl _
  · split at h
    · split at h
      · rename_i rest hr
        cases h
        exact hs _ _ _ hr
      · cases h
      · cases h
    · cases h; exact Nat.le_refl _
  · split at h
    · cases h
    · cases h; exact Nat.le_refl _
  · split at h
    · cases h
    · split at h <;> (cases h; exact Nat.le_refl _)
  · split at h <;> (cases h; exact Nat.le_refl _)

theorem nextLoop_fuel (S : Src) : ∀ (n m : Nat) (st : Core), st.rest.length < n → st.rest.length < m →
    nextLoop S n st = nextLoop S m st
  | 0, _, _, h, _ => by omega
  | _, 0, _, _, h => by omega
  | n + 1, m + 1, st, hn, hm => by
    rw [nextLoop, nextLoop]
    match hr : st.rest with
    | [] => rfl
    | e :: es =>
      rw [hr] at hn hm
      simp only [List.length_cons] at hn hm
      have key : ∀ {st' : Core} , convert S e { st with rest := es } = .ok none st' →
          nextLoop S n st' = nextLoop S m st' := by
        intro st' h
        have := convert_rest h
        simp only at this
        exact nextLoop_fuel S n m st' (by omega) (by omega)
      simp only
      split
      · rfl
      · rfl
      · split
        · rename_i h; exact key h
        · rfl

/-- The state has no queued event and is not done. -/
structure Ready (st : Core) : Prop where
  queue : st.queue = []
  complete : st.complete = false

/-- An event the inner parser gives. -/
def Gives (k : EventKind) : Prop := (∀ x, k ≠ .error x) ∧ k ≠ .panic

theorem next_ready {S : Src} {st : Core} (h : Ready st) : next S st = nextLoop S (st.rest.length + 1) st := by
  rw [next, h.queue]
  simp [h.complete]

theorem nextLoop_cons {S : Src} {st : Core} {e : Event} {es : List Event} {n : Nat} (hr : st.rest = e :: es)
    (hk : Gives e.kind) : nextLoop S (n + 1) st =
      match convert S e { st with rest := es } with
      | .ok none st' => nextLoop S n st'
      | r => r := by
  rw [nextLoop, hr]
  simp only
  split
  · rename_i h; exact absurd h (hk.1 _)
  · rename_i h; exact absurd h hk.2
  · rfl

theorem reads_none {S : Src} {st st' : Core} {e : Event} {es : List Event} (h : Ready st)
    (hr : st.rest = e :: es) (hk : Gives e.kind) (hc : convert S e { st with rest := es } = .ok none st')
    (h' : Ready st') : Reads S st [] st' := by
  refine ⟨[], st, rfl, .nil _, ?_⟩
  rw [next_ready h, nextLoop_cons hr hk, hc, next_ready h']
  have := convert_rest hc
  simp only at this
  exact nextLoop_fuel _ _ _ _ (by rw [hr]; simp; omega) (by omega)

theorem reads_some {S : Src} {st st' : Core} {e : Event} {es : List Event} {f : FEvent} (h : Ready st)
    (hr : st.rest = e :: es) (hk : Gives e.kind) (hc : convert S e { st with rest := es } = .ok (some f) st') :
    Reads S st [f.kind] st' := by
  refine ⟨[f], st', rfl, .cons ?_ (.nil _), rfl⟩
  rw [next_ready h, nextLoop_cons hr hk, hc]

theorem event_kind (st : Core) (k : FKind) : (st.event k).kind = k := by
  unfold Core.event; split <;> rfl

theorem mark_mark (ts : List Bool) : mark (mark ts) = mark ts := by cases ts <;> rfl

end Styx.Facet
