import Verif.Facet.Total
import Verif.Schema.Lemmas

/-! # Peeking, skipping, hints, saving and restoring -/

namespace Styx.Facet

open Styx Styx.Spec
open Styx.Schema (decVal)

/-! ## Specification -/

mutual
/-- The events of one value, whatever its scalars are: a scalar, a variant tag and a value, a list of
values between the ends of a sequence, or keys and values between the ends of a struct. -/
inductive OneValue : List FKind → Prop
  | scalar (v : FScalar) : OneValue [.scalar v]
  | tag (n : Option (List Char)) {fs : List FKind} : OneValue fs → OneValue (.variantTag n :: fs)
  | sequence {fs : List FKind} : Values fs → OneValue (.seqStart :: fs ++ [.seqEnd])
  | struct {fs : List FKind} : KeyValues fs → OneValue (.structStart :: fs ++ [.structEnd])
/-- The events of values one after the other. -/
inductive Values : List FKind → Prop
  | nil : Values []
  | cons {fs gs : List FKind} : OneValue fs → Values gs → Values (fs ++ gs)
/-- The events of keys, each with a value. -/
inductive KeyValues : List FKind → Prop
  | nil : KeyValues []
  | cons (t p : Option (List Char)) (doc : List (List Char)) {fs gs : List FKind} : OneValue fs → KeyValues gs →
      KeyValues (.key t p doc :: fs ++ gs)
end

/-- Text of a natural number: decimal digits, possibly with a plus sign. -/
def IsNat (text : List Char) (n : Nat) : Prop :=
  ∃ ds, ds ≠ [] ∧ (∀ c ∈ ds, '0' ≤ c ∧ c ≤ '9') ∧ (text = ds ∨ text = '+' :: ds) ∧ n = decVal ds

/-- A call of a consumer between `save` and `restore`. -/
inductive Op where
  | next | peek | skip | hint (h : Hint)

/-- The state after a call; `none` is a panic. -/
def Op.run (S : Src) (op : Op) (p : Parser) : Option Parser :=
  match op with
  | .hint h => some { p with core := setHint h p.core }
  | .next => match Facet.next S p.core with
    | .ok _ st => some { p with core := st }
    | .err _ _ st => some { p with core := st }
    | _ => none
  | .peek => match Facet.peek S p.core with
    | .ok _ st => some { p with core := st }
    | .err _ _ st => some { p with core := st }
    | _ => none
  | .skip => match skipValue S p.core with
    | .ok _ st => some { p with core := st }
    | .err _ _ st => some { p with core := st }
    | _ => none

/-- The state after a list of calls. -/
def runOps (S : Src) : List Op → Parser → Option Parser
  | [], p => some p
  | op :: ops, p => (op.run S p).bind (runOps S ops)

/-! ## Peeking -/

theorem convert_queue {S : Src} {e : Event} {st st' : Core} {o : Option FEvent}
    (h : convert S e st = .ok o st') : (o = none → st'.queue = st.queue) ∧ st'.queue.length ≤ st.queue.length + 1 ∧
      st'.complete = st.complete := by
  unfold convert at h
  split at h
  all_goals first
    | (cases h; simp; done)
    | (cases h; done)
    | skip
  all_goals (split at h <;> first | (cases h; simp; done) | (cases h; done) | skip)
  all_goals (split at h <;> first | (cases h; simp; done) | (cases h; done) | skip)

theorem nextLoop_none {S : Src} : ∀ (n : Nat) (st st' : Core), nextLoop S n st = .ok none st' →
    st'.queue = st.queue ∧ st'.complete = true
  | 0, _, _, h => by cases h
  | n + 1, st, st', h => by
    rw [nextLoop] at h
    split at h
    · cases h; exact ⟨rfl, rfl⟩
    · split at h
      · cases h
      · cases h
      · split at h
        · rename_i st1 hc
          have := nextLoop_none n st1 st' h
          exact ⟨this.1.trans ((convert_queue hc).1 rfl), this.2⟩
        · rename_i hc
          exact absurd h (hc _)

theorem next_none {S : Src} {st st' : Core} (h : next S st = .ok none st') :
    st'.queue = [] ∧ next S st' = .ok none st' := by
  have key : st'.queue = [] ∧ st'.complete = true := by
    unfold next at h
    split at h
    · cases h
    · rename_i hq
      split at h
      · rename_i hc; cases h; exact ⟨hq, hc⟩
      · obtain ⟨h1, h2⟩ := nextLoop_none _ _ _ h
        exact ⟨h1.trans hq, h2⟩
  refine ⟨key.1, ?_⟩
  rw [next, key.1]
  simp [key.2]

theorem peek_ok {S : Src} {st st' : Core} {r : Option FEvent} (h : peek S st = .ok r st') :
    (∃ st2, next S st = .ok r st2) ∧ next S st' = next S st := by
  unfold peek at h
  split at h
  · rename_i e es hq
    cases h
    exact ⟨⟨_, by rw [next, hq]⟩, rfl⟩
  · split at h
    · rename_i e st1 h1
      cases h
      exact ⟨⟨st1, h1⟩, by rw [h1]; rfl⟩
    · rename_i st1 h1
      cases h
      obtain ⟨h2, h3⟩ := next_none h1
      refine ⟨⟨st', ?_⟩, h3.trans h1.symm⟩
      rw [h1, h2]; rfl
    · rename_i h1 h2
      exfalso
      cases hn : next S st with
      | ok o st1 =>
        cases o with
        | none => exact h2 st1 hn
        | some e => exact h1 e st1 hn
      | err k sp st1 => rw [hn] at h; cases h
      | panic => rw [hn] at h; cases h
      | stuck => rw [hn] at h; cases h

theorem peek_err {S : Src} {st : Core} (h : ∀ o st', next S st ≠ .ok o st') : peek S st = next S st := by
  unfold peek
  split
  · rename_i e es hq
    exact absurd (by rw [next, hq]) (h (some e) { st with queue := es })
  · split
    · rename_i e st1 h1; exact absurd h1 (h _ _)
    · rename_i st1 h1; exact absurd h1 (h _ _)
    · rfl

/-! ## Skipping -/

theorem nextLoop_fuel_lt {S : Src} : ∀ (n : Nat) (st st' : Core) (e : FEvent), st.queue = [] →
    nextLoop S n st = .ok (some e) st' → fuel st' < fuel st
  | 0, _, _, _, _, h => by cases h
  | n + 1, st, st', e, hq, h => by
    rw [nextLoop] at h
    split at h
    · cases h
    · rename_i x es hr
      have hlen : st.rest.length = es.length + 1 := by rw [hr]; rfl
      split at h
      · cases h
      · cases h
      · split at h
        · rename_i st1 hc
          have hq1 := (convert_queue hc).1 rfl
          have := nextLoop_fuel_lt n st1 st' e (hq1.trans hq) h
          have h1 := convert_rest hc
          simp only at hq1 h1
          unfold fuel at this ⊢
          rw [hq1, hq] at this
          rw [hq]
          omega
        · have h1 := convert_rest h
          have h2 := (convert_queue h).2.1
          simp only [hq, List.length_nil] at h1 h2
          unfold fuel
          rw [hq, List.length_nil]
          omega

theorem next_fuel {S : Src} {st st' : Core} {e : FEvent} (h : next S st = .ok (some e) st') : fuel st' < fuel st := by
  unfold next at h
  split at h
  · rename_i x es hq
    cases h
    simp [fuel, hq]
  · rename_i hq
    split at h
    · cases h
    · exact nextLoop_fuel_lt _ _ _ _ hq h

theorem Steps.fuel {S : Src} {st st' : Core} {es : List FEvent} (h : Steps S st es st') :
    es.length + Facet.fuel st' ≤ Facet.fuel st := by
  induction h with
  | nil => simp
  | cons h1 _ ih =>
    have := next_fuel h1
    simp only [List.length_cons]
    omega

theorem Steps.split {S : Src} {st st' : Core} : ∀ {a b : List FEvent}, Steps S st (a ++ b) st' →
    ∃ st1, Steps S st a st1 ∧ Steps S st1 b st'
  | [], _, h => ⟨st, .nil _, h⟩
  | _ :: _, _, .cons h1 h2 => by
    obtain ⟨st1, h3, h4⟩ := Steps.split h2
    exact ⟨st1, .cons h1 h3, h4⟩

theorem fkinds_split {es : List FEvent} {a b : List FKind} (h : fkinds es = a ++ b) :
    ∃ e1 e2, es = e1 ++ e2 ∧ fkinds e1 = a ∧ fkinds e2 = b := by
  obtain ⟨e1, e2, rfl, h1, h2⟩ := List.map_eq_append_iff.1 h
  exact ⟨e1, e2, rfl, h1, h2⟩

theorem fkinds_uncons {es : List FEvent} {k : FKind} {b : List FKind} (h : fkinds es = k :: b) :
    ∃ e es', es = e :: es' ∧ e.kind = k ∧ fkinds es' = b := by
  obtain ⟨e, es', rfl, h1, h2⟩ := List.map_eq_cons_iff.1 h
  exact ⟨e, es', rfl, h1, h2⟩

theorem fkinds_nil {es : List FEvent} (h : fkinds es = []) : es = [] := List.map_eq_nil_iff.1 h

mutual
theorem skip_inner {S : Src} : ∀ {fs : List FKind}, OneValue fs → ∀ {es : List FEvent} {st st' : Core} (n d : Nat),
    fkinds es = fs → Steps S st es st' → 1 ≤ d → skipLoop S (n + es.length) d st = skipLoop S n d st'
  | _, .scalar v, es, st, st', n, d, hk, hs, hd => by
    obtain ⟨e, es', rfl, h1, h2⟩ := fkinds_uncons hk
    rw [fkinds_nil h2] at hs ⊢
    cases hs with
    | cons h3 h4 =>
      cases h4
      show skipLoop S (n + 1) d st = _
      rw [skipLoop, h3]
      simp only [h1]
      rw [if_neg (by omega)]
  | _, .tag t h, es, st, st', n, d, hk, hs, hd => by
    obtain ⟨e, es', rfl, h1, h2⟩ := fkinds_uncons hk
    cases hs with
    | cons h3 h4 =>
      rw [List.length_cons, ← Nat.add_assoc, skipLoop, h3]
      simp only [h1]
      exact skip_inner h n d h2 h4 hd
  | _, .sequence h, es, st, st', n, d, hk, hs, hd => by
    obtain ⟨e, es', rfl, h1, h2⟩ := fkinds_uncons hk
    obtain ⟨e1, e2, rfl, h5, h6⟩ := fkinds_split h2
    obtain ⟨z, ez, rfl, h7, h8⟩ := fkinds_uncons h6
    rw [fkinds_nil h8] at hs ⊢
    cases hs with
    | cons h3 h4 =>
      obtain ⟨st1, h9, h10⟩ := h4.split
      cases h10 with
      | cons h11 h12 =>
        cases h12
        rw [show n + (e :: (e1 ++ [z])).length = (n + 1 + e1.length) + 1 by simp; omega, skipLoop, h3]
        simp only [h1]
        rw [skip_values_inner h (n + 1) (d + 1) h5 h9 (by omega), skipLoop, h11]
        simp only [h7]
        rw [if_neg (by omega)]
        rfl
  | _, .struct h, es, st, st', n, d, hk, hs, hd => by
    obtain ⟨e, es', rfl, h1, h2⟩ := fkinds_uncons hk
    obtain ⟨e1, e2, rfl, h5, h6⟩ := fkinds_split h2
    obtain ⟨z, ez, rfl, h7, h8⟩ := fkinds_uncons h6
    rw [fkinds_nil h8] at hs ⊢
    cases hs with
    | cons h3 h4 =>
      obtain ⟨st1, h9, h10⟩ := h4.split
      cases h10 with
      | cons h11 h12 =>
        cases h12
        rw [show n + (e :: (e1 ++ [z])).length = (n + 1 + e1.length) + 1 by simp; omega, skipLoop, h3]
        simp only [h1]
        rw [skip_entries_inner h (n + 1) (d + 1) h5 h9 (by omega), skipLoop, h11]
        simp only [h7]
        rw [if_neg (by omega)]
        rfl

theorem skip_values_inner {S : Src} : ∀ {fs : List FKind}, Values fs → ∀ {es : List FEvent} {st st' : Core} (n d : Nat),
    fkinds es = fs → Steps S st es st' → 1 ≤ d → skipLoop S (n + es.length) d st = skipLoop S n d st'
  | _, .nil, es, st, st', n, d, hk, hs, hd => by
    rw [fkinds_nil hk] at hs ⊢
    cases hs
    rfl
  | _, .cons h h', es, st, st', n, d, hk, hs, hd => by
    obtain ⟨e1, e2, rfl, h5, h6⟩ := fkinds_split hk
    obtain ⟨st1, h9, h10⟩ := hs.split
    rw [show n + (e1 ++ e2).length = n + e2.length + e1.length by simp; omega, skip_inner h _ d h5 h9 hd,
      skip_values_inner h' n d h6 h10 hd]

theorem skip_entries_inner {S : Src} : ∀ {fs : List FKind}, KeyValues fs → ∀ {es : List FEvent} {st st' : Core} (n d : Nat),
    fkinds es = fs → Steps S st es st' → 1 ≤ d → skipLoop S (n + es.length) d st = skipLoop S n d st'
  | _, .nil, es, st, st', n, d, hk, hs, hd => by
    rw [fkinds_nil hk] at hs ⊢
    cases hs
    rfl
  | _, .cons t p doc h h', es, st, st', n, d, hk, hs, hd => by
    rw [List.cons_append] at hk
    obtain ⟨e, es', rfl, h1, h2⟩ := fkinds_uncons hk
    obtain ⟨e1, e2, rfl, h5, h6⟩ := fkinds_split h2
    cases hs with
    | cons h3 h4 =>
      obtain ⟨st1, h9, h10⟩ := h4.split
      rw [show n + (e :: (e1 ++ e2)).length = (n + e2.length + e1.length) + 1 by simp; omega, skipLoop, h3]
      simp only [h1]
      rw [skip_inner h _ d h5 h9 hd, skip_entries_inner h' n d h6 h10 hd]
end

theorem skip_one {S : Src} : ∀ {fs : List FKind}, OneValue fs → ∀ {es : List FEvent} {st st' : Core} (n : Nat),
    fkinds es = fs → Steps S st es st' → skipLoop S (n + es.length) 0 st = .ok () st'
  | _, .scalar v, es, st, st', n, hk, hs => by
    obtain ⟨e, es', rfl, h1, h2⟩ := fkinds_uncons hk
    rw [fkinds_nil h2] at hs ⊢
    cases hs with
    | cons h3 h4 =>
      cases h4
      show skipLoop S (n + 1) 0 st = _
      rw [skipLoop, h3]
      simp only [h1]
      rfl
  | _, .tag t h, es, st, st', n, hk, hs => by
    obtain ⟨e, es', rfl, h1, h2⟩ := fkinds_uncons hk
    cases hs with
    | cons h3 h4 =>
      rw [List.length_cons, ← Nat.add_assoc, skipLoop, h3]
      simp only [h1]
      exact skip_one h n h2 h4
  | _, .sequence h, es, st, st', n, hk, hs => by
    obtain ⟨e, es', rfl, h1, h2⟩ := fkinds_uncons hk
    obtain ⟨e1, e2, rfl, h5, h6⟩ := fkinds_split h2
    obtain ⟨z, ez, rfl, h7, h8⟩ := fkinds_uncons h6
    rw [fkinds_nil h8] at hs ⊢
    cases hs with
    | cons h3 h4 =>
      obtain ⟨st1, h9, h10⟩ := h4.split
      cases h10 with
      | cons h11 h12 =>
        cases h12
        rw [show n + (e :: (e1 ++ [z])).length = (n + 1 + e1.length) + 1 by simp; omega, skipLoop, h3]
        simp only [h1]
        rw [skip_values_inner h (n + 1) 1 h5 h9 (by omega), skipLoop, h11]
        simp only [h7]
        rfl
  | _, .struct h, es, st, st', n, hk, hs => by
    obtain ⟨e, es', rfl, h1, h2⟩ := fkinds_uncons hk
    obtain ⟨e1, e2, rfl, h5, h6⟩ := fkinds_split h2
    obtain ⟨z, ez, rfl, h7, h8⟩ := fkinds_uncons h6
    rw [fkinds_nil h8] at hs ⊢
    cases hs with
    | cons h3 h4 =>
      obtain ⟨st1, h9, h10⟩ := h4.split
      cases h10 with
      | cons h11 h12 =>
        cases h12
        rw [show n + (e :: (e1 ++ [z])).length = (n + 1 + e1.length) + 1 by simp; omega, skipLoop, h3]
        simp only [h1]
        rw [skip_entries_inner h (n + 1) 1 h5 h9 (by omega), skipLoop, h11]
        simp only [h7]
        rfl

theorem skipValue_one {S : Src} {st st' : Core} {es : List FEvent} (h : OneValue (fkinds es)) (hs : Steps S st es st') :
    skipValue S st = .ok () st' := by
  have := hs.fuel
  unfold skipValue
  rw [show fuel st = (fuel st - es.length) + es.length by omega]
  exact skip_one h _ rfl hs

theorem skipLoop_not_stuck (S : Src) : ∀ (n d : Nat) (st : Core), fuel st ≤ n → skipLoop S n d st ≠ .stuck
  | 0, _, _, h => by unfold fuel at h; omega
  | n + 1, d, st, h => by
    rw [skipLoop]
    split
    · simp
    · rename_i e st' h1
      have hf := next_fuel h1
      have ih := fun d' => skipLoop_not_stuck S n d' st' (by omega)
      split
      · exact ih _
      · exact ih _
      · split
        · simp
        · exact ih _
      · split
        · simp
        · exact ih _
      · split
        · simp
        · exact ih _
      · exact ih _
      · exact ih _
    · simp
    · simp
    · rename_i h1; exact absurd h1 (next_not_stuck S st)

mutual
theorem Describes.one : ∀ {fs : List FKind} {v : Value}, Describes fs v → OneValue fs
  | _, _, .scalar t k => .scalar _
  | _, _, .unit => .scalar _
  | _, _, .atSign => .tag _ (.scalar _)
  | _, _, .bareTag n => .tag _ (.scalar _)
  | _, _, .tag n h => .tag _ h.one
  | _, _, .sequence h => .sequence h.values
  | _, _, .object h => .struct h.keyValues
theorem DescribesAll.values : ∀ {fs : List FKind} {vs : List Value}, DescribesAll fs vs → Values fs
  | _, _, .nil => .nil
  | _, _, .cons h h' => .cons h.one h'.values
theorem DescribesEntries.keyValues : ∀ {fs : List FKind} {es : List Entry}, DescribesEntries fs es → KeyValues fs
  | _, _, .nil => .nil
  | _, _, .cons t p k _ h h' => .cons t p _ h.one h'.keyValues
end

/-! ## Hints -/

theorem skipSchema_hint (st : Core) (h : Hint) : skipSchema 0 (setHint h st).rest = skipSchema 0 st.rest := rfl

/-- What a hint changes in the outcome of a call. -/
def Hinted (S : Src) (h : Hint) : Res (Option FEvent) → Res (Option FEvent)
  | .ok (some e) st =>
    match e.kind with
    | .scalar (.str t) => .ok (some { e with kind := .scalar (parseScalar S (some h) t) }) st
    | _ => .ok (some e) (setHint h st)
  | .ok none st => .ok none (setHint h st)
  | .err k sp st => .err k sp (setHint h st)
  | r => r

theorem event_of (st : Core) (k k' : FKind) : { st.event k with kind := k' } = st.event k' := by
  unfold Core.event
  split <;> rfl

theorem convert_hint {S : Src} {e : Event} {st : Core} (h : Hint) (hn : st.hint = none) :
    convert S e (setHint h st) = Hinted S h (convert S e st) := by
  unfold convert
  cases hk : e.kind
  case objectEnd =>
    by_cases hd : st.depth = 0
    · simp only [setHint, hd, if_true]; rfl
    · simp only [setHint, hd, if_false, Hinted, event_kind]; rfl
  case sequenceEnd =>
    by_cases hd : st.depth = 0
    · simp only [setHint, hd, if_true]; rfl
    · simp only [setHint, hd, if_false, Hinted, event_kind]; rfl
  case key tag p k =>
    by_cases hd : st.atRoot = true ∧ st.depth = 1 ∧ tag = some (chars! "schema")
    · simp only [setHint, hd, and_self, if_true]
      cases skipSchema 0 st.rest <;> rfl
    · simp only [setHint, hd, if_false, Hinted, event_kind]; rfl
  case scalar =>
    cases sliceBytes S.input e.span.start e.span.stop with
    | none => rfl
    | some t => simp only [setHint, Hinted, event_kind, hn, parseScalar, event_of]
  case unit =>
    cases sliceBytes S.input e.span.start e.span.stop with
    | none => rfl
    | some t =>
      by_cases hd : t = ['@'] ∧ st.tags = []
      · simp only [setHint, hd, and_self, if_true, Hinted, event_kind]; rfl
      · simp only [setHint, hd, if_false, Hinted, event_kind]; rfl
  case tagEnd =>
    simp only [setHint]
    rcases st.tags with _ | ⟨_ | _, ts⟩
    · rfl
    · simp only [Hinted, event_kind]; rfl
    · rfl
  all_goals first | rfl | (simp only [setHint, Hinted, event_kind]; rfl)

theorem convert_hint_none {S : Src} {e : Event} {st st' : Core} {o : Option FEvent} (hn : st.hint = none)
    (h : convert S e st = .ok o st') : st'.hint = none := by
  unfold convert at h
  split at h
  all_goals first
    | (cases h; exact hn)
    | (cases h; done)
    | skip
  all_goals (split at h <;> first | (cases h; exact hn) | (cases h; rfl) | (cases h; done) | skip)
  all_goals (split at h <;> first | (cases h; exact hn) | (cases h; rfl) | (cases h; done) | skip)

theorem nextLoop_hint {S : Src} (h : Hint) : ∀ (n : Nat) (st : Core), st.hint = none →
    nextLoop S n (setHint h st) = Hinted S h (nextLoop S n st)
  | 0, _, _ => rfl
  | n + 1, st, hn => by
    have hc := fun e es => convert_hint (S := S) (e := e) (st := { st with rest := es }) h hn
    rw [nextLoop, nextLoop]
    simp only [show (setHint h st).rest = st.rest from rfl]
    match hr : st.rest with
    | [] => rfl
    | e :: es =>
      simp only
      split
      · rfl
      · rfl
      · rw [show ({ setHint h st with rest := es } : Core) = setHint h { st with rest := es } from rfl, hc]
        cases hcv : convert S e { st with rest := es } with
        | ok o st' =>
          cases o with
          | none => exact nextLoop_hint h n st' (convert_hint_none (st := { st with rest := es }) hn hcv)
          | some x =>
            simp only
            unfold Hinted
            simp only
            split
            · rename_i heq; split at heq <;> cases heq
            · rfl
        | err => rfl
        | panic => rfl
        | stuck => rfl

theorem next_hint {S : Src} (h : Hint) {st : Core} (hn : st.hint = none) (hq : st.queue = []) :
    next S (setHint h st) = Hinted S h (next S st) := by
  unfold next
  rw [show (setHint h st).queue = st.queue from rfl, hq]
  simp only
  rw [show (setHint h st).complete = st.complete from rfl]
  split
  · rfl
  · exact nextLoop_hint h _ st hn

/-! ## Saving -/

theorem Op.run_saved {S : Src} {op : Op} {p p' : Parser} (h : op.run S p = some p') : p'.saved = p.saved := by
  unfold Op.run at h
  split at h
  · cases h; rfl
  all_goals
    split at h
    · cases h; rfl
    · cases h; rfl
    · cases h

theorem runOps_saved {S : Src} : ∀ {ops : List Op} {p p' : Parser}, runOps S ops p = some p' → p'.saved = p.saved
  | [], p, p', h => by cases h; rfl
  | op :: ops, p, p', h => by
    rw [runOps] at h
    obtain ⟨p1, h1, h2⟩ := Option.bind_eq_some_iff.1 h
    exact (runOps_saved h2).trans (Op.run_saved h1)

/-! ## Numbers -/

theorem parseU64_iff {t : List Char} {n : Nat} : parseU64 t = some n ↔ IsNat t n ∧ n < 2 ^ 64 := by
  have key : ∀ (ds : List Char) (m : Nat), Schema.digitsVal ds 0 = some m ↔
      (∀ c ∈ ds, '0' ≤ c ∧ c ≤ '9') ∧ m = decVal ds := fun ds m => Schema.digitsVal_iff
  have np : ¬ ('0' ≤ '+' ∧ '+' ≤ '9') := by decide
  rw [parseU64.eq_def]
  simp only [Option.bind_eq_some_iff, Option.ite_none_right_eq_some, Option.some.injEq]
  constructor
  · rintro ⟨m, hm, h1, rfl⟩
    refine ⟨?_, h1⟩
    split at hm
    · cases hm
    · cases hm
    · rename_i ds hne
      obtain ⟨h2, h3⟩ := (key _ _).1 hm
      exact ⟨ds, fun e => hne e, h2, .inr rfl, h3⟩
    · rename_i hne _ _
      obtain ⟨h2, h3⟩ := (key _ _).1 hm
      exact ⟨t, fun e => hne e, h2, .inl rfl, h3⟩
  · rintro ⟨⟨ds, hne, hd, h, rfl⟩, hr⟩
    refine ⟨_, ?_, hr, rfl⟩
    have hk := (key ds _).2 ⟨hd, rfl⟩
    obtain ⟨d, ds', rfl⟩ := List.exists_cons_of_ne_nil hne
    have hdd := hd d (by simp)
    rcases h with rfl | rfl
    · split
      · rename_i h; cases h
      · rename_i h; cases h; exact absurd hdd np
      · rename_i h; cases h; exact absurd hdd np
      · exact hk
    · split
      · rename_i h; cases h
      · rename_i h; cases h
      · rename_i h; cases h; exact hk
      · rename_i h; exact absurd rfl (h _)

end Styx.Facet
