import Verif.Facet.Read

/-! # Reading the facet events to the end: no panic, and the first error of the parser is the error -/

namespace Styx.Facet

open Styx Styx.Spec

/-- How many objects and sequences are open. -/
def levels (s : List Opened) : Nat := s.countP fun o => o = .object ∨ o = .sequence

/-- What follows the events without error: nothing, or an error. -/
def ErrOrEnd (post : List Event) : Prop := post = [] ∨ ∃ sp k post', post = ⟨sp, .error k⟩ :: post'

/-- `k` and `sp` are the error that comes first. -/
def IsErr (post : List Event) (k : ParseErrorKind) (sp : Span) : Prop := ∃ post', post = ⟨sp, .error k⟩ :: post'

theorem nestStep_levels {s s' : List Opened} {k : EventKind} (h : nestStep s k = some s') :
    (k = .objectStart ∨ k = .sequenceStart) ∧ levels s' = levels s + 1 ∨
    (k = .objectEnd ∨ k = .sequenceEnd) ∧ levels s = levels s' + 1 ∨
    (k ≠ .objectStart ∧ k ≠ .sequenceStart ∧ k ≠ .objectEnd ∧ k ≠ .sequenceEnd) ∧ levels s' = levels s := by
  cases k <;> simp only [nestStep, close, Option.some.injEq] at h
  all_goals try (subst h; simp [levels]; done)
  all_goals
    (cases s with
      | nil => cases h
      | cons x s =>
        simp only at h
        split at h
        · rename_i hx; subst hx; cases h; simp [levels]
        · cases h)

theorem nest_cons {s out : List Opened} {e : Event} {es : List Event} (h : nest s (e :: es) = some out) :
    ∃ s1, nestStep s e.kind = some s1 ∧ nest s1 es = some out := by
  rw [nest] at h
  cases h1 : nestStep s e.kind with
  | none => rw [h1] at h; cases h
  | some s1 => rw [h1] at h; exact ⟨s1, rfl, h⟩

/-- Outcome of skipping: what is left is an end of `pre`, with no more levels open than there were. -/
def SkipOutcome (pre post : List Event) (c : Int) (r : Skipped) : Prop :=
  (∃ a pre' s', r = .ok (pre' ++ post) ∧ pre = a ++ pre' ∧ (∃ out, nest s' pre' = some out) ∧ (levels s' : Int) ≤ c) ∨
  (∃ k sp post', r = .err k sp post' ∧ post = ⟨sp, .error k⟩ :: post')

theorem SkipOutcome.cons {e : Event} {pre post : List Event} {c : Int} {r : Skipped}
    (h : SkipOutcome pre post c r) : SkipOutcome (e :: pre) post c r := by
  rcases h with ⟨a, pre', s', h1, rfl, h3⟩ | h
  · exact .inl ⟨e :: a, pre', s', h1, rfl, h3⟩
  · exact .inr h

theorem skip_outcome {post : List Event} (hp : ErrOrEnd post) : ∀ (pre : List Event) (d : Int) (s out : List Opened) (c : Int),
    NoError pre → nest s pre = some out → 0 ≤ d → 0 ≤ c → (levels s : Int) = c + d →
    SkipOutcome pre post c (skipSchema d (pre ++ post))
  | [], d, s, out, c, hn, ho, hd, hc0, hc => by
    rcases hp with rfl | ⟨sp, k, post', rfl⟩
    · exact .inl ⟨[], [], [], rfl, rfl, ⟨[], rfl⟩, by simp [levels]; omega⟩
    · exact .inr ⟨k, sp, post', rfl, rfl⟩
  | e :: pre, d, s, out, c, hn, ho, hd, hc0, hc => by
    obtain ⟨s1, h1, h2⟩ := nest_cons ho
    have hl := nestStep_levels h1
    have hstop : (levels s1 : Int) ≤ c → SkipOutcome (e :: pre) post c (.ok (pre ++ post)) :=
      fun h => .inl ⟨[e], pre, s1, rfl, rfl, ⟨out, h2⟩, h⟩
    have ih := fun d' (h0 : 0 ≤ d') (h : (levels s1 : Int) = c + d') =>
      (skip_outcome hp pre d' s1 out c hn.tail h2 h0 hc0 h).cons (e := e)
    have hne := hn e (by simp)
    rw [List.cons_append, skipSchema]
    cases hk : e.kind <;> simp only [hk] at hl hne ⊢ <;> simp only [reduceCtorEq, or_false, or_true,
      false_or, false_and, ne_eq, not_true, not_false_eq_true, true_and, and_true, and_false] at hl hne
    case error => exact absurd rfl (hne _)
    all_goals first
      | (exact ih _ (by omega) (by omega))
      | (split
         · exact hstop (by omega)
         · exact ih _ (by omega) (by omega))
      | skip

/-- The state of a parser that reads `pre` and then `post`. -/
structure Inv (S : Src) (st : Core) (pre post : List Event) : Prop where
  rest : st.rest = pre ++ post
  running : st.complete = false
  clean : NoError pre
  spans : SpansOK S pre
  nested : ∃ s out, nest s pre = some out ∧ levels s ≤ st.depth
  post : ErrOrEnd post

/-- What converting an event does. -/
def ConvOutcome (S : Src) (post : List Event) (n m : Nat) (r : Res (Option FEvent)) : Prop :=
  (∃ o st' pre', r = .ok o st' ∧ Inv S st' pre' post ∧ st'.rest.length ≤ n ∧
    (o = none → st'.queue.length ≤ m) ∧ st'.queue.length ≤ m + 1) ∨
  (∃ k sp st', r = .err k sp st' ∧ IsErr post k sp)

theorem convert_inv {S : Src} {post pre : List Event} {st : Core} {e : Event} (h : Inv S st (e :: pre) post) :
    ConvOutcome S post (pre ++ post).length st.queue.length (convert S e { st with rest := pre ++ post }) := by
  obtain ⟨s, out, hs, hd⟩ := h.nested
  obtain ⟨s1, h1, h2⟩ := nest_cons hs
  have hl := nestStep_levels h1
  have hne := h.clean e (by simp)
  have hsp := h.spans e (by simp)
  have mk : ∀ (o : Option FEvent) (st' : Core), st'.rest = pre ++ post → st'.complete = st.complete →
      levels s1 ≤ st'.depth → (o = none → st'.queue.length ≤ st.queue.length) → st'.queue.length ≤ st.queue.length + 1 →
      ConvOutcome S post (pre ++ post).length st.queue.length (.ok o st') := by
    intro o st' hr hc hdep hq hq'
    exact .inl ⟨o, st', pre, rfl, ⟨hr, hc.trans h.running, h.clean.tail, fun x hx => h.spans x (by simp [hx]),
      ⟨s1, out, h2, hdep⟩, h.post⟩, by rw [hr]; exact Nat.le_refl _, hq, hq'⟩
  cases hk : e.kind <;> simp only [hk] at hl hne <;> simp only [reduceCtorEq, or_false, or_true,
      false_or, false_and, ne_eq, not_true, not_false_eq_true, true_and, and_true, and_false] at hl hne
  case error => exact absurd rfl (hne _)
  all_goals simp only [convert, hk]
  case objectStart => exact mk _ _ rfl rfl (by simp only; omega) (by simp) (by simp)
  case sequenceStart => exact mk _ _ rfl rfl (by simp only; omega) (by simp) (by simp)
  case objectEnd =>
    rw [if_neg (by omega)]
    exact mk _ _ rfl rfl (by simp only; omega) (by simp) (by simp)
  case sequenceEnd =>
    rw [if_neg (by omega)]
    exact mk _ _ rfl rfl (by simp only; omega) (by simp) (by simp)
  case key tag p k =>
    split
    · have := skip_outcome h.post pre 0 s1 out (levels s1) h.clean.tail h2 (by omega) (by omega) (by omega)
      rcases this with ⟨a, pre', s', h3, h4, ⟨out', h5⟩, h6⟩ | ⟨k, sp, post', h3, h4⟩
      · rw [h3]
        refine .inl ⟨_, _, pre', rfl, ⟨rfl, h.running, ?_, ?_, ⟨s', out', h5, ?_⟩, h.post⟩, ?_, ?_, ?_⟩
        · have := h.clean.tail; rw [h4] at this; exact this.right
        · intro x hx; exact h.spans x (by simp [h4, hx])
        · simp only; omega
        · simp [h4]
        · simp
        · simp
      · rw [h3]
        exact .inr ⟨k, sp, _, rfl, post', h4⟩
    · exact mk _ _ rfl rfl (by simp only; omega) (by simp) (by simp)
  case scalar =>
    split
    · rename_i h; exact absurd h hsp
    · exact mk _ _ rfl rfl (by simp only; omega) (by simp) (by simp)
  case unit =>
    split
    · rename_i h; exact absurd h hsp
    · split
      · exact mk _ _ rfl rfl (by simp only; omega) (by simp) (by simp)
      · exact mk _ _ rfl rfl (by simp only; omega) (by simp) (by simp)
  case tagEnd =>
    split
    · exact mk _ _ rfl rfl (by simp only; omega) (by simp) (by simp)
    · exact mk _ _ rfl rfl (by simp only; omega) (by simp) (by simp)
  all_goals exact mk _ _ rfl rfl (by simp only; omega) (by simp) (by simp)

/-- What `next` does. -/
def NextOutcome (S : Src) (post : List Event) (n : Nat) (r : Res (Option FEvent)) : Prop :=
  (∃ e st' pre', r = .ok (some e) st' ∧ Inv S st' pre' post ∧ fuel st' < n) ∨
  (post = [] ∧ ∃ st', r = .ok none st') ∨
  (∃ k sp st', r = .err k sp st' ∧ IsErr post k sp)

theorem nextLoop_inv {S : Src} {post : List Event} : ∀ (n : Nat) (pre : List Event) (st : Core),
    Inv S st pre post → st.rest.length < n → st.queue = [] → NextOutcome S post (fuel st) (nextLoop S n st)
  | 0, _, _, _, hn, _ => by omega
  | n + 1, [], st, h, hn, hq => by
    rw [nextLoop, h.rest]
    rcases h.post with rfl | ⟨sp, k, post', rfl⟩
    · exact .inr (.inl ⟨rfl, _, rfl⟩)
    · exact .inr (.inr ⟨k, sp, _, rfl, post', rfl⟩)
  | n + 1, e :: pre, st, h, hn, hq => by
    have hr := h.rest
    rw [List.cons_append] at hr
    have hlen : st.rest.length = (pre ++ post).length + 1 := by rw [hr]; rfl
    rw [nextLoop_cons hr (h.clean e (by simp))]
    rcases convert_inv h with ⟨o, st', pre', h1, h2, h3, h4, h5⟩ | ⟨k, sp, st', h1, h2⟩
    · rw [h1]
      rw [hq] at h4 h5
      cases o with
      | none =>
        have hq' : st'.queue = [] := by
          have := h4 rfl
          exact List.length_eq_zero_iff.1 (by simpa using this)
        rcases nextLoop_inv n pre' st' h2 (by omega) hq' with ⟨e', st2, pre2, h6, h7, h8⟩ | h6 | h6
        · refine .inl ⟨e', st2, pre2, h6, h7, ?_⟩
          unfold fuel at h8 ⊢
          rw [hq', List.length_nil] at h8
          omega
        · exact .inr (.inl h6)
        · exact .inr (.inr h6)
      | some e' =>
        refine .inl ⟨e', st', pre', rfl, h2, ?_⟩
        unfold fuel
        simp only [List.length_nil] at h5
        omega
    · rw [h1]
      exact .inr (.inr ⟨k, sp, st', rfl, h2⟩)

theorem next_inv {S : Src} {post pre : List Event} {st : Core} (h : Inv S st pre post) :
    NextOutcome S post (fuel st) (next S st) := by
  unfold next
  split
  · rename_i e es hq
    refine .inl ⟨e, _, pre, rfl, ⟨h.rest, h.running, h.clean, h.spans, h.nested, h.post⟩, ?_⟩
    unfold fuel
    simp [hq]
  · rename_i hq
    rw [if_neg (by simp [h.running])]
    exact nextLoop_inv _ pre st h (by omega) hq

theorem drain_inv {S : Src} {post : List Event} : ∀ (n : Nat) (pre : List Event) (st : Core), Inv S st pre post →
    fuel st ≤ n →
    (post = [] ∧ ∃ fs, drain S n st = some (.ok fs)) ∨ ∃ k sp, drain S n st = some (.error (k, sp)) ∧ IsErr post k sp
  | 0, _, _, _, hn => by unfold fuel at hn; omega
  | n + 1, pre, st, h, hn => by
    rw [drain]
    rcases next_inv h with ⟨e, st', pre', h1, h2, h3⟩ | ⟨h1, st', h2⟩ | ⟨k, sp, st', h1, h2⟩
    · rw [h1]
      rcases drain_inv n pre' st' h2 (by omega) with ⟨h4, fs, h5⟩ | ⟨k, sp, h4, h5⟩
      · exact .inl ⟨h4, e :: fs, by simp only [h5]⟩
      · exact .inr ⟨k, sp, by simp only [h4], h5⟩
    · rw [h2]
      exact .inl ⟨h1, [], rfl⟩
    · rw [h1]
      exact .inr ⟨k, sp, rfl, h2⟩

/-- `next` never gives the end of the fuel back. -/
theorem nextLoop_not_stuck (S : Src) : ∀ (n : Nat) (st : Core), st.rest.length < n → nextLoop S n st ≠ .stuck
  | 0, _, h => by omega
  | n + 1, st, h => by
    rw [nextLoop]
    split
    · simp
    · rename_i e es hr
      rw [hr] at h
      simp only [List.length_cons] at h
      split
      · simp
      · simp
      · split
        · rename_i st' hc
          have := convert_rest hc
          exact nextLoop_not_stuck S n st' (by simp only at this; omega)
        · intro hc
          unfold convert at hc
          split at hc <;> try cases hc
          all_goals (split at hc <;> try cases hc)
          all_goals (split at hc <;> cases hc)

theorem next_not_stuck (S : Src) (st : Core) : next S st ≠ .stuck := by
  unfold next
  split
  · simp
  · split
    · simp
    · exact nextLoop_not_stuck S _ st (by omega)

end Styx.Facet
