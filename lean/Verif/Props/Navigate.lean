import Verif.Lsp.Navigate
import Verif.Lsp.NavigateSpec
import Verif.Lsp.FillSpec
import Verif.Schema.Lemmas
import Verif.Schema.Term
import Verif.Props.Fill

/-!
# C81: the fields the server offers are those of the schema the validator uses
-/

namespace Styx.Props

open Styx Styx.Spec Styx.Lsp Styx.Schema

variable {F : Type} {sf : SchemaFile F}

/-! ## Termination -/

/-- With all fuel from some amount on the call has the same outcome, which is not running out of fuel. -/
def Settles {α : Type} (f : Nat → Outcome α) (r : Outcome α) : Prop := r ≠ .runsOut ∧ ∃ n, ∀ m, n ≤ m → f m = r

theorem settles_succ {α : Type} {f g : Nat → Outcome α} {r : Outcome α} (h : ∀ n, f (n + 1) = g n)
    (hs : Settles g r) : Settles f r := by
  obtain ⟨h1, n, h2⟩ := hs
  refine ⟨h1, n + 1, fun m hm => ?_⟩
  obtain ⟨m, rfl⟩ : ∃ k, m = k + 1 := ⟨m - 1, by omega⟩
  rw [h, h2 m (by omega)]

theorem settles_done {α : Type} {f : Nat → Outcome α} {r : Outcome α} (h : ∀ n, f (n + 1) = r) (hr : r ≠ .runsOut) :
    Settles f r := settles_succ (g := fun _ => r) h ⟨hr, 0, fun _ _ => rfl⟩

theorem settles_bind {α β : Type} {f : Nat → Outcome α} {g : Nat → α → Outcome β} {a : α} {r : Outcome β}
    (hf : Settles f (.done a)) (hg : Settles (fun n => g n a) r) : Settles (fun n => (f n).bind (g n)) r := by
  obtain ⟨_, n, h1⟩ := hf
  obtain ⟨hr, m, h2⟩ := hg
  refine ⟨hr, max n m, fun k hk => ?_⟩
  simp only
  rw [h1 k (by omega)]
  exact h2 k (by omega)

/-- Following the name and collecting the fields of what it names ends. -/
def Resolves (sf : SchemaFile F) (n : List Char) : Prop :=
  ∀ s, lookup (some n) sf = some s → ∃ r fs, Settles (fun k => resolveType sf k s) (.done r) ∧
    Settles (fun k => collectFields sf k r) (.done fs)

theorem collect_settles : ∀ s : Schema F, (∀ n, DirectRef s n → Resolves sf n) →
    ∃ fs, Settles (fun k => collectFields sf k s) (.done fs)
  | .flatten inner, h => by
    obtain ⟨fs, h1⟩ := collect_settles inner fun n hn => h n (.flatten hn)
    exact ⟨fs, settles_succ (fun n => by rw [collectFields]) h1⟩
  | .type (some n), h => by
    cases hl : lookup (some n) sf with
    | none => exact ⟨[], settles_done (fun k => by rw [collectFields, hl]) (by simp)⟩
    | some s =>
      obtain ⟨r, fs, h1, h2⟩ := h n (.type n) s hl
      exact ⟨fs, settles_succ (fun k => by rw [collectFields, hl]) (settles_bind h1 h2)⟩
  | .object fields, _ => ⟨_, settles_done (fun k => by rw [collectFields]) (by simp)⟩
  | .type none, _ | .string _, _ | .int _, _ | .float _, _ | .bool, _ | .unit, _ | .any, _ | .seq _, _ | .tuple _, _
  | .map _, _ | .union _, _ | .optional _, _ | .enum _, _ | .oneOf .., _ | .default .., _ | .deprecated .., _
  | .literal _, _ => ⟨[], settles_done (fun k => by rw [collectFields] <;> simp) (by simp)⟩

theorem resolve_settles (s : Schema F) (h : ∀ n, DirectRef s n → Resolves sf n) :
    ∃ r fs, Settles (fun k => resolveType sf k s) (.done r) ∧ Settles (fun k => collectFields sf k r) (.done fs) := by
  by_cases ht : ∃ n, s = .type (some n)
  · obtain ⟨n, rfl⟩ := ht
    cases hl : lookup (some n) sf with
    | none =>
      exact ⟨_, [], settles_done (fun k => by rw [resolveType, hl]) (by simp),
        settles_done (fun k => by rw [collectFields, hl]) (by simp)⟩
    | some s =>
      obtain ⟨r, fs, h1, h2⟩ := h n (.type n) s hl
      exact ⟨r, fs, settles_succ (fun k => by rw [resolveType, hl]) h1, h2⟩
  · obtain ⟨fs, h1⟩ := collect_settles s h
    refine ⟨s, fs, settles_done (fun k => ?_) (by simp), h1⟩
    rw [resolveType]
    intro n hn; exact ht ⟨n, hn⟩

theorem guarded_acc' (hg : Guarded sf) (n : List Char) :
    Acc (fun y x => ∃ s, (some x, s) ∈ sf ∧ DirectRef s y) n :=
  guarded_acc hg _ [] n (Nat.le_refl _) (by simp)

theorem guarded_resolves (hg : Guarded sf) (n : List Char) : Resolves sf n := by
  induction guarded_acc' hg n with
  | intro n _ ih =>
    intro s hl
    exact resolve_settles s fun m hm => ih m ⟨s, lookup_mem hl, hm⟩

theorem schemaAt_settles (hg : Guarded sf) : ∀ (path : List (List Char)) (s : Schema F),
    ∃ r, Settles (fun k => schemaAt sf k s path) r
  | [], s => ⟨.done (some s), settles_done (fun k => by rw [schemaAt]) (by simp)⟩
  | name :: rest, s => by
    have ih := schemaAt_settles hg rest
    have hstep : ∀ s : Schema F, (∀ n, DirectRef s n → ∀ s', lookup (some n) sf = some s' →
        ∃ r, Settles (fun k => schemaAt sf k s' (name :: rest)) r) →
        ∃ r, Settles (fun k => schemaAt sf k s (name :: rest)) r := by
      intro s
      have hdone : ∀ s : Schema F, (∀ k, schemaAt sf (k + 1) s (name :: rest) = .done none) →
          ∃ r, Settles (fun k => schemaAt sf k s (name :: rest)) r := fun s h => ⟨_, settles_done h (by simp)⟩
      induction s using Schema.rec (motive_2 := fun _ => True) (motive_3 := fun _ => True) (motive_4 := fun _ => True)
        (motive_5 := fun _ => True) (motive_6 := fun _ => True) with
      | object fields =>
        intro _
        cases h1 : lookup (ObjectKey.named name) fields with
        | some s =>
          obtain ⟨r, hr⟩ := ih s
          exact ⟨r, settles_succ (fun k => by rw [schemaAt, h1]) hr⟩
        | none =>
          cases h2 : anyKey fields with
          | some s =>
            obtain ⟨r, hr⟩ := ih s
            exact ⟨r, settles_succ (fun k => by rw [schemaAt, h1, h2]) hr⟩
          | none => exact hdone _ fun k => by rw [schemaAt, h1, h2]
      | enum variants =>
        intro _
        cases h1 : stripPrefix ['@'] name with
        | none => exact hdone _ fun k => by rw [schemaAt, h1]
        | some t =>
          cases h2 : lookup t variants with
          | none => exact hdone _ fun k => by rw [schemaAt, h1]; simp only [h2]
          | some s =>
            obtain ⟨r, hr⟩ := ih s
            exact ⟨r, settles_succ (fun k => by rw [schemaAt, h1]; simp only [h2]) hr⟩
      | map types =>
        intro _
        match types with
        | [] => exact ⟨.panics, settles_done (fun k => by rw [schemaAt]) (by simp)⟩
        | [vs] =>
          obtain ⟨r, hr⟩ := ih vs
          exact ⟨r, settles_succ (fun k => by rw [schemaAt]) hr⟩
        | _ :: vs :: _ =>
          obtain ⟨r, hr⟩ := ih vs
          exact ⟨r, settles_succ (fun k => by rw [schemaAt]) hr⟩
      | optional inner ih' =>
        intro h
        obtain ⟨r, hr⟩ := ih' fun n hn => h n (.optional hn)
        exact ⟨r, settles_succ (fun k => by rw [schemaAt] <;> simp) hr⟩
      | default t inner ih' =>
        intro h
        obtain ⟨r, hr⟩ := ih' fun n hn => h n (.default t hn)
        exact ⟨r, settles_succ (fun k => by rw [schemaAt] <;> simp) hr⟩
      | deprecated t inner ih' =>
        intro h
        obtain ⟨r, hr⟩ := ih' fun n hn => h n (.deprecated t hn)
        exact ⟨r, settles_succ (fun k => by rw [schemaAt] <;> simp) hr⟩
      | type n =>
        intro h
        cases n with
        | none => exact hdone _ fun k => by rw [schemaAt] <;> simp
        | some n =>
          cases hl : lookup (some n) sf with
          | none => exact hdone _ fun k => by rw [schemaAt, hl]; simp
          | some s =>
            obtain ⟨r, hr⟩ := h n (.type n) s hl
            exact ⟨r, settles_succ (fun k => by rw [schemaAt, hl]; simp) hr⟩
      | _ => first | trivial | (intros; exact hdone _ fun k => by rw [schemaAt] <;> simp)
    have hname : ∀ n s', lookup (some n) sf = some s' → ∃ r, Settles (fun k => schemaAt sf k s' (name :: rest)) r := by
      intro n
      induction guarded_acc' hg n with
      | intro n _ ih' =>
        intro s hl
        exact hstep s fun m hm => ih' m ⟨s, lookup_mem hl, hm⟩
    exact hstep s fun n _ => hname n

/-- **C81**, termination: when no named type refers to itself without passing through a container, finding the
schema at a path and its fields ends, for every path. -/
theorem C81_terminates_partial (hg : Guarded sf) (path : List (List Char)) :
    ∃ r n, r ≠ .runsOut ∧ ∀ m, n ≤ m → fieldsAtPath sf m path = r := by
  have key : ∃ r, Settles (fun k => fieldsAtPath sf k path) r := by
    cases hl : lookup none sf with
    | none => exact ⟨.done [], by simp, 0, fun m _ => by simp [fieldsAtPath, schemaAtPath, hl, Outcome.bind]⟩
    | some root =>
      obtain ⟨r, hr⟩ := schemaAt_settles hg path root
      match r, hr with
      | .runsOut, hr => exact absurd rfl hr.1
      | .panics, ⟨_, n, h⟩ =>
        exact ⟨.panics, by simp, n, fun m hm => by simp [fieldsAtPath, schemaAtPath, hl, h m hm, Outcome.bind]⟩
      | .done none, ⟨_, n, h⟩ =>
        exact ⟨.done [], by simp, n, fun m hm => by simp [fieldsAtPath, schemaAtPath, hl, h m hm, Outcome.bind]⟩
      | .done (some s), ⟨_, n, h⟩ =>
        obtain ⟨r, fs, h1, h2⟩ := resolve_settles s fun m _ => guarded_resolves hg m
        obtain ⟨_, n', h3⟩ := settles_bind h1 h2
        refine ⟨.done fs, by simp, max n n', fun m hm => ?_⟩
        simp only at h3
        simp only [fieldsAtPath, schemaAtPath, hl, h m (by omega), Outcome.bind]
        exact h3 m (by omega)
  obtain ⟨r, h1, n, h2⟩ := key
  exact ⟨r, n, h1, h2⟩

/-- **C81** is false without that condition, for all fuel: a type that is another name of itself. -/
theorem C81_cycle_false (n : Nat) (path : List (List Char)) :
    fieldsAtPath ([(none, .type (some ['A'])), (some ['A'], .type (some ['A']))] : SchemaFile F) n path = .runsOut := by
  have h1 : ∀ n, resolveType ([(none, .type (some ['A'])), (some ['A'], .type (some ['A']))] : SchemaFile F) n
      (.type (some ['A'])) = .runsOut := by
    intro n
    induction n with
    | zero => rfl
    | succ n ih => exact ih
  have h2 : ∀ n name rest, schemaAt ([(none, .type (some ['A'])), (some ['A'], .type (some ['A']))] : SchemaFile F) n
      (.type (some ['A'])) (name :: rest) = .runsOut := by
    intro n name rest
    induction n with
    | zero => rfl
    | succ n ih => exact ih
  cases n with
  | zero => rfl
  | succ n =>
    cases path with
    | nil =>
      have := h1 (n + 1)
      unfold fieldsAtPath schemaAtPath
      rw [show lookup none ([(none, .type (some ['A'])), (some ['A'], .type (some ['A']))] : SchemaFile F) =
        some (.type (some ['A'])) from rfl]
      simp only [schemaAt, Outcome.bind]
      rw [this]
    | cons name rest =>
      have := h2 (n + 1) name rest
      unfold fieldsAtPath schemaAtPath
      rw [show lookup none ([(none, .type (some ['A'])), (some ['A'], .type (some ['A']))] : SchemaFile F) =
        some (.type (some ['A'])) from rfl]
      simp only
      rw [this]
      rfl

/-- **C81** is false for a map without types: looking for what is below it panics. -/
theorem C81_map_false (n : Nat) (name : List Char) :
    fieldsAtPath ([(none, .map [])] : SchemaFile F) (n + 1) [name] = .panics := rfl

/-! ## The schema found is the one the validator uses -/

variable (E : Env F)

theorem catchAll_eq {fields : List (ObjectKey × Schema F)} (h : ∀ f ∈ fields, f.1.value = none ∨ f.1.tag = none) :
    catchAll fields = anyKey fields := by
  unfold catchAll anyKey
  congr 1
  induction fields with
  | nil => rfl
  | cons f fs ih =>
    have h1 : (f.1.value.isNone && f.1.tag.isSome) = f.1.tag.isSome := by
      rcases h f (by simp) with h | h <;> simp [h]
    rw [List.find?_cons, List.find?_cons, h1, ih fun g hg => h g (by simp [hg])]

theorem mergeAll_valid {α : Type} {f : α → Option Result} : ∀ {xs : List α} {r}, mergeAll f xs = some r →
    r.isValid = true → ∀ x ∈ xs, ∃ a, f x = some a ∧ a.isValid = true
  | [], _, _, _, x, hx => by simp at hx
  | y :: ys, r, h, hv, x, hx => by
    simp only [mergeAll, Option.bind_eq_some_iff, Option.map_eq_some_iff] at h
    obtain ⟨a, ha, b, hb, rfl⟩ := h
    rw [isValid_merge, Bool.and_eq_true] at hv
    rcases List.mem_cons.1 hx with rfl | hx
    · exact ⟨a, ha, hv.1⟩
    · exact mergeAll_valid hb hv.2 x hx

/-- The value is accepted. -/
def Accepted (E : Env F) (sf : SchemaFile F) (v : Value) (s : Schema F) : Prop :=
  ∃ n p r, validate E sf n v s p = some r ∧ r.isValid = true

theorem named_object {fields : List (ObjectKey × Schema F)} {v : Value} {es : List Entry} {e : Entry}
    {name : List Char} (h : Accepted E sf v (.object fields)) (hes : HasEntries v es) (he : e ∈ es)
    (hk : KeyIs e name) : ∃ s, (lookup (ObjectKey.named name) fields = some s ∨
      lookup (ObjectKey.named name) fields = none ∧ catchAll fields = some s) ∧ Accepted E sf e.value s := by
  obtain ⟨n, p, r, h, hv⟩ := h
  cases n with
  | zero => cases h
  | succ n =>
    simp only [validate, Schema.step, validateObject, asObject_iff.2 hes, Option.map_eq_some_iff] at h
    obtain ⟨a, ha, rfl⟩ := h
    rw [isValid_merge, Bool.and_eq_true] at hv
    obtain ⟨b, hb, hbv⟩ := mergeAll_valid ha hv.1 e he
    rw [validateEntry, keyOpt_named.2 hk] at hb
    simp only [Option.getD_some] at hb
    cases h1 : lookup (ObjectKey.named name) fields with
    | some s =>
      rw [h1] at hb
      exact ⟨s, .inl rfl, n, _, b, hb, hbv⟩
    | none =>
      rw [h1] at hb
      cases h2 : catchAll fields with
      | some s =>
        rw [h2] at hb
        exact ⟨s, .inr ⟨rfl, rfl⟩, n, _, b, hb, hbv⟩
      | none =>
        rw [h2] at hb
        simp only [Option.some.injEq] at hb
        subst hb
        rw [isValid_fail] at hbv
        cases hbv

theorem named_map {types : List (Schema F)} {v : Value} {es : List Entry} {e : Entry}
    (h : Accepted E sf v (.map types)) (hes : HasEntries v es) (he : e ∈ es) :
    ∃ vs, (types = [vs] ∨ ∃ ks, types = [ks, vs]) ∧ Accepted E sf e.value vs := by
  obtain ⟨n, p, r, h, hv⟩ := h
  cases n with
  | zero => cases h
  | succ n =>
    have hentry : ∀ ks vs, mergeAll (validateMapEntry (validate E sf n) ks vs p) es = some r →
        Accepted E sf e.value vs := by
      intro ks vs hm
      obtain ⟨a, ha, hav⟩ := mergeAll_valid hm hv e he
      rw [validateMapEntry.eq_def] at ha
      cases hs : e.key.asStr with
      | none =>
        rw [hs] at ha
        simp only [Option.some.injEq] at ha
        subst ha
        rw [isValid_fail] at hav
        cases hav
      | some key =>
        rw [hs] at ha
        simp only [Option.bind_eq_some_iff, Option.map_eq_some_iff] at ha
        obtain ⟨b, _, c, hc, rfl⟩ := ha
        rw [isValid_merge, Bool.and_eq_true] at hav
        exact ⟨n, _, c, hc, hav.2⟩
    simp only [validate, Schema.step, validateMap, asObject_iff.2 hes] at h
    match types, h with
    | [vs], h => exact ⟨vs, .inl rfl, hentry _ _ h⟩
    | [ks, vs], h => exact ⟨vs, .inr ⟨ks, rfl⟩, hentry _ _ h⟩
    | [], h =>
      cases h; rw [isValid_fail] at hv; cases hv
    | _ :: _ :: _ :: _, h =>
      cases h; rw [isValid_fail] at hv; cases hv

theorem schemaAt_accepted (hsf : ∀ d ∈ sf, KeysApart d.2) : ∀ (k : Nat) (s : Schema F) (path : List (List Char))
    (v x : Value) (s' : Schema F), KeysApart s → v.tag = none → ByNames x v path → Accepted E sf v s →
    schemaAt sf k s path = .done (some s') → Accepted E sf x s' := by
  intro k
  induction k with
  | zero => intro s path v x s' _ _ _ _ h; cases h
  | succ k ih =>
    intro s path v x s' ha ht hx hv h
    cases hx with
    | here =>
      rw [schemaAt] at h
      cases h; exact hv
    | @entry v es e name path hes he hk htag hx =>
      have hnu : v.isUnit = false := by
        obtain ⟨t, sp, sp', rfl⟩ := hes
        cases t <;> rfl
      cases s with
      | object fields =>
        have hap := ha fields .self
        obtain ⟨s, h1, h2⟩ := named_object E hv hes he hk
        have hin : ∃ k', (k', s) ∈ fields := by
          rcases h1 with h1 | ⟨_, h1⟩
          · exact ⟨_, lookup_mem h1⟩
          · simp only [catchAll, Option.map_eq_some_iff] at h1
            obtain ⟨f, hf, rfl⟩ := h1
            exact ⟨f.1, List.mem_of_find?_eq_some hf⟩
        obtain ⟨k', hin⟩ := hin
        have hs : KeysApart s := fun fs hp => ha fs (.field hin hp)
        rw [schemaAt] at h
        rcases h1 with h1 | ⟨h1, h3⟩
        · rw [h1] at h
          exact ih s path e.value x s' hs htag hx h2 h
        · rw [catchAll_eq hap] at h3
          rw [h1, h3] at h
          exact ih s path e.value x s' hs htag hx h2 h
      | map types =>
        obtain ⟨vs, h1, h2⟩ := named_map E hv hes he
        rcases h1 with rfl | ⟨ks, rfl⟩ <;> rw [schemaAt] at h
        · exact ih vs path e.value x s' (fun fs hp => ha fs (.mapped (by simp) hp)) htag hx h2 h
        · exact ih vs path e.value x s' (fun fs hp => ha fs (.mapped (by simp) hp)) htag hx h2 h
      | enum variants =>
        obtain ⟨n, p, r, h1, h2⟩ := hv
        exfalso
        cases n with
        | zero => cases h1
        | succ n =>
          obtain ⟨t, sp, sp', rfl⟩ := hes
          cases ht
          simp only [validate, Schema.step, validateEnum, enumFallback, Value.tag, Value.scalarText, Option.bind_none] at h1
          cases h1
          rw [isValid_fail] at h2
          cases h2
      | optional inner =>
        rw [schemaAt] at h
        · refine ih inner (name :: path) v x s' (fun fs hp => ha fs (.optional hp)) ht (.entry hes he hk htag hx) ?_ h
          obtain ⟨n, p, r, h1, h2⟩ := hv
          cases n with
          | zero => cases h1
          | succ n =>
            simp only [validate, Schema.step, validateOptional, hnu] at h1
            exact ⟨n, p, r, h1, h2⟩
        · simp
      | default t inner =>
        rw [schemaAt] at h
        · refine ih inner (name :: path) v x s' (fun fs hp => ha fs (.default t hp)) ht (.entry hes he hk htag hx) ?_ h
          obtain ⟨n, p, r, h1, h2⟩ := hv
          cases n with
          | zero => cases h1
          | succ n => exact ⟨n, p, r, h1, h2⟩
        · simp
      | deprecated t inner =>
        rw [schemaAt] at h
        · refine ih inner (name :: path) v x s' (fun fs hp => ha fs (.deprecated t hp)) ht
            (.entry hes he hk htag hx) ?_ h
          obtain ⟨n, p, r, h1, h2⟩ := hv
          cases n with
          | zero => cases h1
          | succ n =>
            simp only [validate, Schema.step, validateDeprecated, Option.map_eq_some_iff] at h1
            obtain ⟨r', h1, rfl⟩ := h1
            exact ⟨n, p, r', h1, by rwa [isValid_warning] at h2⟩
        · simp
      | type n =>
        cases n with
        | none => rw [schemaAt] at h <;> first | cases h | simp
        | some n =>
          rw [schemaAt] at h
          · cases hl : lookup (some n) sf with
            | none => rw [hl] at h; cases h
            | some s =>
              rw [hl] at h
              refine ih s (name :: path) v x s' (hsf _ (lookup_mem hl)) ht (.entry hes he hk htag hx) ?_ h
              obtain ⟨n', p, r, h1, h2⟩ := hv
              cases n' with
              | zero => cases h1
              | succ n' =>
                simp only [validate, Schema.step, validateTypeRef, hl] at h1
                exact ⟨n', p, r, h1, h2⟩
          · simp
      | _ => rw [schemaAt] at h <;> first | (cases h; done) | simp

/-- **C81**, the schema found, for paths through untagged objects and schemas whose keys are either names or
stand for other keys: in a document the validator accepts, the object at the path is accepted by the schema
found for the path. -/
theorem C81_schema_partial (hsf : ∀ d ∈ sf, KeysApart d.2) (fuel fuel' : Nat) (doc x : Value) (r : Result)
    (path : List (List Char)) (s : Schema F) (ht : doc.tag = none) (hx : ByNames x doc path)
    (hv : validateDocument E sf fuel doc = some r) (hr : r.isValid = true)
    (hs : schemaAtPath sf fuel' path = .done (some s)) :
    ∃ n p r', validate E sf n x s p = some r' ∧ r'.isValid = true := by
  unfold validateDocument at hv
  unfold schemaAtPath at hs
  cases hl : lookup none sf with
  | none => rw [hl] at hs; cases hs
  | some root =>
    rw [hl] at hv hs
    exact schemaAt_accepted E hsf fuel' root path doc x s (hsf _ (lookup_mem hl)) ht hx ⟨fuel, [], r, hv, hr⟩ hs

/-- A map of maps of objects with a number `b`. -/
def mapOfMaps : SchemaFile Nat := [(none, .map [.map [.object [(.named ['b'], .int none)]]])]

/-- Numbers are those of `parseI64`, as a stand-in. -/
def natEnv : Env Nat := ⟨fun t => (parseI64 t).map Int.toNat, fun a b => a < b, id⟩

/-- **C81** is false for tagged objects: the tag is part of the path and is taken for a name, so in a valid
document the schema found is one that does not accept the object. -/
theorem C81_tag_false : ∃ source v ctx off s, parseTree source = some (.ok v) ∧
    (validateDocument natEnv mapOfMaps 9 v).map (·.isValid) = some true ∧ findObject off [] v = some ctx ∧
    schemaAtPath mapOfMaps 9 ctx.path = .done (some s) ∧
    (validate natEnv mapOfMaps 9 (.mk none (some (.object ctx.entries ctx.span)) ctx.span) s []).map (·.isValid) =
      some false := by
  refine ⟨chars! "k @t{z {b 1}}", _, ⟨[['k'], ['@', 't']], _, _⟩, 5, _, by rfl, ?_, rfl, rfl, ?_⟩ <;> decide +kernel

/-- **C81** is false for flattened types: the schema language gives the object the fields of the type, the
server offers the name of the flattened entry. -/
theorem C81_flatten_false : ∃ (sf : SchemaFile Nat) (decl : List (ObjectKey × Schema Nat)) (n : List Char),
    lookup none sf = some (.object decl) ∧ HasField sf decl (.named n) (.int none) ∧
    (match fieldsAtPath sf 9 [] with | .done fs => some (fs.map (·.name)) | _ => none) = some [['p']] ∧ n = ['x'] :=
  ⟨[(none, .object [(.named ['p'], .flatten (.type (some ['B'])))]), (some ['B'], .object [(.named ['x'], .int none)])],
    _, ['x'], rfl, .inline (List.mem_cons_self ..) (.named (by simp; exact rfl) (.object _))
      (.own (List.mem_cons_self ..) (by simp)), by decide +kernel, rfl⟩

/-! ## Required fields -/

/-- The fields of the validator's errors about missing fields. -/
def reported (r : Result) : List (List Char) :=
  r.errors.filterMap fun e => match e.kind with | .missingField n => some n | _ => none

/-- **C81**, required fields, for fields that are neither deprecated nor have a default: the fields filled in are
those the validator reports as missing, in the same order. -/
theorem C81_required_partial (decl : List (ObjectKey × Schema F)) (es : List Entry) (path : List Char)
    (span : Option Span)
    (h : ∀ d ∈ decl, (∀ t s, d.2 ≠ .default t s) ∧ ∀ t s, d.2 ≠ .deprecated t s) :
    reported (missingFields decl (es.filterMap keyOpt) path span) =
      (missingRequired (ownFields decl) (existingNames es)).map (·.name) := by
  have hmem : ∀ n, (es.filterMap keyOpt).contains (some n) = (existingNames es).contains n := by
    intro n
    rw [Bool.eq_iff_iff, List.contains_iff_mem, List.contains_iff_mem]
    simp only [existingNames, List.mem_filterMap, keyOpt_named, asStr_iff]
  unfold reported missingFields
  simp only
  induction decl with
  | nil => rfl
  | cons d decl ih =>
    have ih := ih fun x hx => h x (by simp [hx])
    have hopt : notRequired d.2 = (unwrapModifiers d.2).1 := by
      have := h d (by simp)
      cases hd : d.2 with
      | default t s => exact absurd hd (this.1 t s)
      | deprecated t s => exact absurd hd (this.2 t s)
      | _ => rfl
    cases hv : d.1.value with
    | none => 
      simp only [List.filterMap_cons, hv, ownFields, Option.map_none, missingRequired] at ih ⊢
      exact ih
    | some n =>
      simp only [List.filterMap_cons, hv, ownFields, Option.map_some, missingRequired, List.filter_cons, hmem,
        hopt] at ih ⊢
      by_cases h1 : (existingNames es).contains n <;> by_cases h2 : (unwrapModifiers d.2).1 <;>
        simp_all

/-- **C81** is false for defaults and deprecated fields: a field with a default is filled in as required, and a
deprecated optional field that the validator reports as missing is not filled in. -/
theorem C81_required_false :
    (missingRequired (ownFields ([(.named ['a'], .default ['1'] (.int none))] : List (ObjectKey × Schema Nat))) []).map
        (·.name) = [['a']] ∧
    reported (missingFields ([(.named ['a'], .default ['1'] (.int none))] : List (ObjectKey × Schema Nat)) [] [] none) = [] ∧
    (missingRequired (ownFields ([(.named ['a'], .deprecated [] (.optional (.int none)))] :
      List (ObjectKey × Schema Nat))) []).map (·.name) = [] ∧
    reported (missingFields ([(.named ['a'], .deprecated [] (.optional (.int none)))] : List (ObjectKey × Schema Nat))
      [] [] none) = [['a']] := by
  decide +kernel

/-- The hypotheses of `C81_schema_partial` can be met, through a named type, a map and an optional field. -/
example : schemaAtPath ([(none, .type (some ['T'])), (some ['T'], .object [(.named ['m'],
      .optional (.map [.object [(.named ['b'], .int none)]]))])] : SchemaFile Nat) 9 [['m'], ['k']] =
    .done (some (.object [(.named ['b'], .int none)])) := rfl

end Styx.Props
