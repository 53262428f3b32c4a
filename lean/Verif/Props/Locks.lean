import Verif.Lsp.LocksLemmas

/-!
# C76: every request is answered

The handlers share one lock on the open documents.  Whatever requests arrive and however their handlers are
interleaved, every request should be answered, as long as every handler has its turn again and again.
-/

namespace Styx.Props

open Styx.Lsp.Locks

/-- The extension calls the host back while the request holds the documents. -/
def CallsBack : Request → Prop
  | .ask k | .actions k | .allow k => 0 < k
  | .hints _ | .look | .update _ | .close => False

/-- The request changes the open documents. -/
def Writes : Request → Prop
  | .update _ | .close => True
  | .ask _ | .actions _ | .allow _ | .hints _ | .look => False

/-- Every request is answered in every fair schedule when no extension calls back while the documents are held.
Missing: extensions that do, which is false as soon as one document is opened, changed or closed at the same time
(`C76_deadlock_false`). -/
theorem C76_answered_partial (rs : List Request) (h : ∀ r ∈ rs, ¬ CallsBack r) (f : Nat → Nat)
    (hf : ∀ i, i < rs.length → ∀ n, ∃ m, n ≤ m ∧ f m = i) : ∃ n, ∀ t ∈ (after (start rs) f n).threads, t.todo = [] := by
  refine fair_done (P := Flat) ?_ (Waiting.start rs) (fun s i hs => hs.step i) (fun s hw hs hd => hs.move hw hd)
    (by simpa [Turns, start] using hf)
  intro t ht
  simp only [start, List.mem_map] at ht
  obtain ⟨r, hr, rfl⟩ := ht
  refine .inl ⟨rfl, ?_⟩
  have hr := h r hr
  cases r with
  | ask k =>
    have : k = 0 := by simp only [CallsBack] at hr; omega
    subst this; exact ⟨[.read], rfl⟩
  | actions k =>
    have : k = 0 := by simp only [CallsBack] at hr; omega
    subst this; exact ⟨[.read, .read], rfl⟩
  | allow k =>
    have : k = 0 := by simp only [CallsBack] at hr; omega
    subst this; exact ⟨[.read], rfl⟩
  | hints k => exact ⟨.read :: List.replicate k .read, by simp [ops, flat, callbacks_flat]⟩
  | look => exact ⟨[.read], rfl⟩
  | update k => exact ⟨List.replicate k .read ++ [.write], by simp [ops, flat, callbacks_flat, flat_append]⟩
  | close => exact ⟨[.write], rfl⟩

/-- Every request is answered in every fair schedule when no document is opened, changed or closed. -/
theorem C76_readers_partial (rs : List Request) (h : ∀ r ∈ rs, ¬ Writes r) (f : Nat → Nat)
    (hf : ∀ i, i < rs.length → ∀ n, ∃ m, n ≤ m ∧ f m = i) : ∃ n, ∀ t ∈ (after (start rs) f n).threads, t.todo = [] := by
  refine fair_done (P := Readers) ?_ (Waiting.start rs) (fun s i hs => hs.step i) (fun s _ hs hd => hs.move hd)
    (by simpa [Turns, start] using hf)
  refine ⟨rfl, fun t ht => ?_⟩
  simp only [start, List.mem_map] at ht
  obtain ⟨r, hr, rfl⟩ := ht
  refine ⟨?_, by simp⟩
  have hc : ∀ k, Op.acquire .write ∉ callbacks k := by
    intro k
    induction k with
    | zero => simp [callbacks]
    | succ k ih => simp [callbacks, callback, ih]
  have hr := h r hr
  cases r with
  | ask k => simp [ops, hc]
  | actions k => simp [ops, hc]
  | allow k => simp [ops, hc]
  | hints k => simp [ops, hc]
  | look => simp [ops]
  | update k => exact absurd trivial hr
  | close => exact absurd trivial hr

/-! ## What goes wrong -/

theorem run_callbacks (a b : Thread) (rest : List Thread) (q : List Op) (hb : b.held = []) (ha : a.held = [])
    (hrest : ∀ t ∈ rest, t.held = []) : ∀ n, b.todo = callbacks n ++ q →
    run ⟨a :: b :: rest, []⟩ (List.replicate (2 * n) 1) = ⟨a :: ⟨q, []⟩ :: rest, []⟩ := by
  intro n
  induction n generalizing b with
  | zero =>
    intro h
    obtain ⟨todo, held⟩ := b
    simp only [callbacks, List.nil_append] at h hb
    subst h hb
    rfl
  | succ n ih =>
    intro h
    obtain ⟨todo, held⟩ := b
    simp only [callbacks, callback, List.cons_append, List.nil_append] at h hb
    subst h hb
    have hf : free ⟨a :: ⟨.acquire .read :: .release :: (callbacks n ++ q), []⟩ :: rest, []⟩ .read = true := by
      simp only [free, List.all_eq_true]
      intro t ht
      simp only [List.mem_cons] at ht
      rcases ht with rfl | rfl | ht
      · simp [ha]
      · rfl
      · simp [hrest t ht]
    show run _ (1 :: 1 :: List.replicate (2 * n) 1) = _
    rw [run, List.foldl_cons, List.foldl_cons]
    have e1 : step ⟨a :: ⟨.acquire .read :: .release :: (callbacks n ++ q), []⟩ :: rest, []⟩ 1 =
        ⟨a :: ⟨.release :: (callbacks n ++ q), [.read]⟩ :: rest, []⟩ := by
      unfold step
      simp only [List.getElem?_cons_succ, List.getElem?_cons_zero, hf, if_true, grant, List.set_cons_succ,
        List.set_cons_zero, List.tail_cons]
    rw [e1]
    exact ih ⟨callbacks n ++ q, []⟩ rfl rfl

/-- Every request takes the lock first. -/
theorem ops_acquire (r : Request) : ∃ m rest, ops r = .acquire m :: rest := by
  cases r with
  | update k => cases k <;> exact ⟨_, _, rfl⟩
  | ask k => exact ⟨_, _, rfl⟩
  | actions k => exact ⟨_, _, rfl⟩
  | allow k => exact ⟨_, _, rfl⟩
  | hints k => exact ⟨_, _, rfl⟩
  | look => exact ⟨_, _, rfl⟩
  | close => exact ⟨_, _, rfl⟩

/-- One request during which the extension calls back, and one change of a document: there is a schedule after
which neither of them is ever answered, nor any other request, whatever happens. -/
theorem C76_deadlock_false (a w : Request) (ha : CallsBack a) (hw : Writes w) (others : List Request) :
    ∃ l, ∀ l', ∀ t ∈ (run (start (a :: w :: others)) (l ++ l')).threads, t.todo ≠ [] := by
  obtain ⟨p, hp⟩ : ∃ p, ops a = .acquire .read :: .acquire .read :: p := by
    cases a with
    | ask k => cases k with
      | zero => simp [CallsBack] at ha
      | succ k => exact ⟨_, rfl⟩
    | actions k => cases k with
      | zero => simp [CallsBack] at ha
      | succ k => exact ⟨_, rfl⟩
    | allow k => cases k with
      | zero => simp [CallsBack] at ha
      | succ k => exact ⟨_, rfl⟩
    | _ => exact absurd ha (by simp [CallsBack])
  obtain ⟨n, hn⟩ : ∃ n, ops w = callbacks n ++ [.acquire .write, .release] := by
    cases w with
    | update k => exact ⟨k, rfl⟩
    | close => exact ⟨0, rfl⟩
    | _ => exact absurd hw (by simp [Writes])
  let rest : List Thread := others.map fun r => ⟨ops r, []⟩
  have hrest : ∀ t ∈ rest, t.held = [] := by
    intro t ht
    obtain ⟨r, _, rfl⟩ := List.mem_map.mp ht
    rfl
  have hstart : start (a :: w :: others) = ⟨⟨ops a, []⟩ :: ⟨ops w, []⟩ :: rest, []⟩ := rfl
  have h1 := run_callbacks ⟨ops a, []⟩ ⟨ops w, []⟩ rest [.acquire .write, .release] rfl rfl hrest n hn
  have h2 : run ⟨⟨ops a, []⟩ :: ⟨[.acquire .write, .release], []⟩ :: rest, []⟩ [0, 1, 0] =
      ⟨⟨.acquire .read :: p, [.read]⟩ :: ⟨[.acquire .write, .release], []⟩ :: rest, [(1, .write), (0, .read)]⟩ := by
    have hf : free ⟨⟨ops a, []⟩ :: ⟨[.acquire .write, .release], []⟩ :: rest, []⟩ .read = true := by
      simp only [free, List.all_eq_true]
      intro t ht
      simp only [List.mem_cons] at ht
      rcases ht with rfl | rfl | ht
      · rfl
      · rfl
      · simp [hrest t ht]
    rw [hp] at hf ⊢
    have e1 : step ⟨⟨.acquire .read :: .acquire .read :: p, []⟩ :: ⟨[.acquire .write, .release], []⟩ :: rest, []⟩ 0 =
        ⟨⟨.acquire .read :: p, [.read]⟩ :: ⟨[.acquire .write, .release], []⟩ :: rest, []⟩ := by
      unfold step
      simp only [List.getElem?_cons_zero, hf, if_true, grant, List.set_cons_zero, List.tail_cons]
    rw [run, List.foldl_cons, List.foldl_cons, List.foldl_cons, List.foldl_nil, e1]
    simp [step, free]
  refine ⟨List.replicate (2 * n) 1 ++ [0, 1, 0], fun l' t ht => ?_⟩
  have hs : Stuck (run (start (a :: w :: others)) (List.replicate (2 * n) 1 ++ [0, 1, 0])) := by
    rw [run, List.foldl_append]
    rw [run, ← hstart] at h1
    rw [h1]
    rw [run] at h2
    rw [h2]
    refine ⟨⟨_, rfl, by simp⟩, ⟨_, rfl, .read, by simp⟩, fun t ht => ?_, ⟨_, _, rfl, rfl⟩⟩
    simp only [List.mem_cons] at ht
    rcases ht with rfl | rfl | ht
    · exact ⟨_, _, rfl⟩
    · exact ⟨_, _, rfl⟩
    · obtain ⟨r, _, rfl⟩ := List.mem_map.mp ht
      exact ops_acquire r
  have := hs.run l'
  rw [run, run, ← List.foldl_append] at this
  obtain ⟨m, r, hm⟩ := this.want t ht
  rw [hm]
  simp

/-! ## The hypotheses are met -/

example : ∀ r ∈ [Request.ask 0, .hints 3, .update 2, .close, .actions 0, .look, .allow 0], ¬ CallsBack r := by
  simp [CallsBack]

example : ∀ r ∈ [Request.ask 2, .hints 3, .look, .actions 1], ¬ Writes r := by
  simp [Writes]

/-- Taking turns is fair. -/
example (rs : List Request) : ∀ i, i < rs.length → ∀ n, ∃ m, n ≤ m ∧ m % rs.length = i := by
  intro i hi n
  refine ⟨n * rs.length + i, ?_, ?_⟩
  · have := Nat.le_mul_of_pos_right n (show 0 < rs.length by omega)
    omega
  · rw [Nat.mul_comm, Nat.mul_add_mod, Nat.mod_eq_of_lt hi]

example : CallsBack (.ask 1) ∧ Writes (.update 0) := ⟨Nat.one_pos, trivial⟩

end Styx.Props
