import Verif.Schema.TableSpec
import Verif.Schema.Conform

/-!
# Conformance does not depend on the iteration order of the tables of a schema
-/

namespace Styx.Schema

variable {F : Type} {E : Env F} {M : List Char → List Char → Prop}

theorem SameSchema.symm {s s' : Schema F} (h : SameSchema s s') : SameSchema s' s := by
  induction h with
  | same s => exact .same s
  | @object f f' pairs _ h1 h2 ih =>
    refine .object (pairs.map fun q => (q.1, q.2.2, q.2.1)) ?_ ?_ ?_
    · intro q hq
      obtain ⟨q', hq', rfl⟩ := List.mem_map.mp hq
      exact ih q' hq'
    · simpa [List.map_map, Function.comp_def] using h2
    · simpa [List.map_map, Function.comp_def] using h1
  | @enum f f' pairs _ h1 h2 ih =>
    refine .enum (pairs.map fun q => (q.1, q.2.2, q.2.1)) ?_ ?_ ?_
    · intro q hq
      obtain ⟨q', hq', rfl⟩ := List.mem_map.mp hq
      exact ih q' hq'
    · simpa [List.map_map, Function.comp_def] using h2
    · simpa [List.map_map, Function.comp_def] using h1
  | seq _ ih => exact .seq ih
  | tuple pairs _ ih =>
    have := SameSchema.tuple (pairs.map fun q => (q.2, q.1)) (by
      intro q hq
      obtain ⟨q', hq', rfl⟩ := List.mem_map.mp hq
      exact ih q' hq')
    simpa [List.map_map, Function.comp_def] using this
  | map pairs _ ih =>
    have := SameSchema.map (pairs.map fun q => (q.2, q.1)) (by
      intro q hq
      obtain ⟨q', hq', rfl⟩ := List.mem_map.mp hq
      exact ih q' hq')
    simpa [List.map_map, Function.comp_def] using this
  | union pairs _ ih =>
    have := SameSchema.union (pairs.map fun q => (q.2, q.1)) (by
      intro q hq
      obtain ⟨q', hq', rfl⟩ := List.mem_map.mp hq
      exact ih q' hq')
    simpa [List.map_map, Function.comp_def] using this
  | optional _ ih => exact .optional ih
  | oneOf a _ ih => exact .oneOf a ih
  | flatten _ ih => exact .flatten ih
  | default t _ ih => exact .default t ih
  | deprecated t _ ih => exact .deprecated t ih

theorem SameFile.symm {sf sf' : SchemaFile F} (h : SameFile sf sf') : SameFile sf' sf := by
  obtain ⟨pairs, h1, h2, h3⟩ := h
  refine ⟨pairs.map fun q => (q.1, q.2.2, q.2.1), ?_, ?_, ?_⟩
  · intro q hq
    obtain ⟨q', hq', rfl⟩ := List.mem_map.mp hq
    exact (h1 q' hq').symm
  · simpa [List.map_map, Function.comp_def] using h3
  · simpa [List.map_map, Function.comp_def] using h2

theorem pairs_mem {K : Type} {l l' : List (K × Schema F)} {pairs : List (K × Schema F × Schema F)}
    (hp : ∀ q ∈ pairs, SameSchema q.2.1 q.2.2) (h1 : l.Perm (pairs.map fun q => (q.1, q.2.1)))
    (h2 : l'.Perm (pairs.map fun q => (q.1, q.2.2))) {k s} (h : (k, s) ∈ l) :
    ∃ s', (k, s') ∈ l' ∧ SameSchema s s' := by
  obtain ⟨q, hq, e⟩ := List.mem_map.mp (h1.mem_iff.mp h)
  cases e
  exact ⟨q.2.2, h2.mem_iff.mpr (List.mem_map.mpr ⟨q, hq, rfl⟩), hp q hq⟩

theorem SameFile.mem {sf sf' : SchemaFile F} (hf : SameFile sf sf') {n s} (h : (n, s) ∈ sf) :
    ∃ s', (n, s') ∈ sf' ∧ SameSchema s s' := by
  obtain ⟨pairs, h1, h2, h3⟩ := hf
  exact pairs_mem h1 h2 h3 h

/-- The corresponding fields. -/
def SameFields (fs fs' : List (ObjectKey × Schema F)) : Prop :=
  ∀ k s, (k, s) ∈ fs → ∃ s', (k, s') ∈ fs' ∧ SameSchema s s'

theorem sameSchema_object {fs : List (ObjectKey × Schema F)} {s'} (h : SameSchema (.object fs) s') :
    ∃ fs', s' = .object fs' ∧ SameFields fs fs' := by
  cases h with
  | same => exact ⟨fs, rfl, fun k s hm => ⟨s, hm, .same s⟩⟩
  | object pairs h1 h2 h3 => exact ⟨_, rfl, fun k s hm => pairs_mem h1 h2 h3 hm⟩

theorem sameSchema_enum {vs : List (List Char × Schema F)} {s'} (h : SameSchema (.enum vs) s') :
    ∃ vs', s' = .enum vs' ∧ ∀ k s, (k, s) ∈ vs → ∃ s', (k, s') ∈ vs' ∧ SameSchema s s' := by
  cases h with
  | same => exact ⟨vs, rfl, fun k s hm => ⟨s, hm, .same s⟩⟩
  | enum pairs h1 h2 h3 => exact ⟨_, rfl, fun k s hm => pairs_mem h1 h2 h3 hm⟩

theorem sameSchema_flatten {s s' : Schema F} (h : SameSchema (.flatten s) s') :
    ∃ t, s' = .flatten t ∧ SameSchema s t := by
  cases h with
  | same => exact ⟨_, rfl, .same _⟩
  | flatten h => exact ⟨_, rfl, h⟩

theorem objectType_same {sf sf' : SchemaFile F} (hf : SameFile sf sf') {s : Schema F} {fs}
    (h : ObjectType sf s fs) : ∀ s', SameSchema s s' → ∃ fs', ObjectType sf' s' fs' ∧ SameFields fs fs' := by
  induction h with
  | object fs =>
    intro s' hs
    obtain ⟨fs', rfl, hfs⟩ := sameSchema_object hs
    exact ⟨fs', .object fs', hfs⟩
  | named hm _ ih =>
    intro s' hs
    cases hs with
    | same =>
      obtain ⟨t, ht, hst⟩ := hf.mem hm
      obtain ⟨fs', h1, h2⟩ := ih t hst
      exact ⟨fs', .named ht h1, h2⟩

theorem hasField_same {sf sf' : SchemaFile F} (hf : SameFile sf sf') {fs : List (ObjectKey × Schema F)}
    {k s} (h : HasField sf fs k s) : ∀ fs', SameFields fs fs' →
    ∃ s', HasField sf' fs' k s' ∧ SameSchema s s' := by
  induction h with
  | own hm hn =>
    intro fs' hfs
    obtain ⟨s', hm', hs⟩ := hfs _ _ hm
    refine ⟨s', .own hm' ?_, hs⟩
    rintro inner rfl
    obtain ⟨t, ht, _⟩ := sameSchema_flatten hs.symm
    exact hn t ht
  | inline hm ho _ ih =>
    intro fs' hfs
    obtain ⟨s', hm', hs⟩ := hfs _ _ hm
    obtain ⟨t, rfl, ht⟩ := sameSchema_flatten hs
    obtain ⟨fs'', ho', hfs'⟩ := objectType_same hf ho t ht
    obtain ⟨u, hu, hsu⟩ := ih fs'' hfs'
    exact ⟨u, .inline hm' ho' hu, hsu⟩

theorem mayBeAbsent_same {s s' : Schema F} (h : MayBeAbsent s) (hs : SameSchema s s') :
    MayBeAbsent s' := by
  induction h generalizing s' with
  | optional s => cases hs <;> exact .optional _
  | default t s => cases hs <;> exact .default _ _
  | deprecated r _ ih =>
    cases hs with
    | same => exact .deprecated _ ‹_›
    | deprecated _ h => exact .deprecated _ (ih h)

theorem scalarType_same {s s' : Schema F} (h : ScalarType s) (hs : SameSchema s s') : s' = s := by
  cases h <;> cases hs <;> rfl

theorem conforms_same {sf sf' : SchemaFile F} (hf : SameFile sf sf') {v : Value} {s : Schema F}
    (h : Conforms E M sf v s) : ∀ s', SameSchema s s' → Conforms E M sf' v s' := by
  refine Conforms.rec
    (motive_1 := fun v s _ => ∀ s', SameSchema s s' → Conforms E M sf' v s')
    (motive_2 := fun fs e _ => ∀ fs', SameFields fs fs' → SameFields fs' fs → EntryConforms E M sf' fs' e)
    (motive_3 := fun vs ss _ => ∀ pairs : List (Schema F × Schema F),
      (∀ q ∈ pairs, SameSchema q.1 q.2) → ss = pairs.map (·.1) →
      AllConform E M sf' vs (pairs.map (·.2)))
    ?_ ?_ ?_ ?_ ?_ ?_ ?_ ?_ ?_ ?_ ?_ ?_ ?_ ?_ ?_ ?_ ?_ ?_ ?_ ?_ ?_ ?_ ?_ ?_ ?_ ?_ ?_ h
  · intro v c t h1 h2 s' hs; cases hs; exact .string h1 h2
  · intro v c t n h1 h2 h3 h4 h5 s' hs; cases hs; exact .int h1 h2 h3 h4 h5
  · intro v c t x h1 h2 h3 s' hs; cases hs; exact .float h1 h2 h3
  · intro v t h1 h2 s' hs; cases hs; exact .bool h1 h2
  · intro v h1 s' hs; cases hs; exact .unit h1
  · intro v s' hs; cases hs; exact .any v
  · intro v es fields h1 _ h3 ih s' hs
    obtain ⟨fs', rfl, hfs⟩ := sameSchema_object hs
    obtain ⟨fs'', e, hfs'⟩ := sameSchema_object hs.symm
    cases e
    refine .object h1 (fun e he => ih e he fs' hfs hfs') ?_
    intro k s name hh hk hm
    obtain ⟨t, ht, hst⟩ := hasField_same hf.symm hh _ hfs'
    exact h3 k t name ht hk (fun h => hm (mayBeAbsent_same h hst.symm))
  · intro v items s h1 _ ih s' hs
    cases hs with
    | same => exact .seq h1 (fun x hx => ih x hx s (.same s))
    | seq h => exact .seq h1 (fun x hx => ih x hx _ h)
  · intro v items ss h1 _ ih s' hs
    cases hs with
    | same =>
      have := ih (ss.map fun s => (s, s)) (by
        intro q hq
        obtain ⟨s, _, rfl⟩ := List.mem_map.mp hq
        exact .same s) (by simp [List.map_map, Function.comp_def])
      exact .tuple h1 (by simpa [List.map_map, Function.comp_def] using this)
    | tuple pairs hp => exact .tuple h1 (ih pairs hp rfl)
  · intro v es vs h1 h2 _ ih s' hs
    generalize hl : [vs] = l at hs
    cases hs with
    | same => subst hl; exact .map h1 h2 (fun e he => ih e he vs (.same _))
    | map pairs hp =>
      rcases pairs with _ | ⟨q, _ | ⟨q', pairs⟩⟩
      · simp at hl
      · simp only [List.map_cons, List.map_nil, List.cons.injEq, and_true] at hl
        subst hl
        exact .map h1 h2 (fun e he => ih e he _ (hp q (by simp)))
      · simp at hl
  · intro v es ks vs h1 h2 _ _ ih1 ih2 s' hs
    generalize hl : [ks, vs] = l at hs
    cases hs with
    | same =>
      subst hl
      exact .keyedMap h1 h2 (fun e he => ih1 e he _ (.same _)) (fun e he => ih2 e he _ (.same _))
    | map pairs hp =>
      rcases pairs with _ | ⟨q, _ | ⟨q', _ | ⟨q'', pairs⟩⟩⟩
      · simp at hl
      · simp at hl
      · simp only [List.map_cons, List.map_nil, List.cons.injEq, and_true] at hl
        obtain ⟨rfl, rfl⟩ := hl
        exact .keyedMap h1 h2 (fun e he => ih1 e he _ (hp q (by simp)))
          (fun e he => ih2 e he _ (hp q' (by simp)))
      · simp at hl
  · intro v s ss hm _ ih s' hs
    cases hs with
    | same => exact .union hm (ih s (.same s))
    | union pairs hp =>
      obtain ⟨q, hq, rfl⟩ := List.mem_map.mp hm
      exact .union (List.mem_map.mpr ⟨q, hq, rfl⟩) (ih _ (hp q hq))
  · intro v s h1 s' hs
    cases hs <;> exact .absent h1
  · intro v s _ ih s' hs
    cases hs with
    | same => exact .optional (ih s (.same s))
    | optional h => exact .optional (ih _ h)
  · intro tag p sp s vs hm _ ih s' hs
    obtain ⟨vs', rfl, h⟩ := sameSchema_enum hs
    obtain ⟨t, ht, hst⟩ := h _ _ hm
    exact .variant ht (ih t hst)
  · intro p sp name s vs hm hsc _ ih s' hs
    obtain ⟨vs', rfl, h⟩ := sameSchema_enum hs
    obtain ⟨t, ht, hst⟩ := h _ _ hm
    have := scalarType_same hsc hst
    subst this
    exact .fallback ht hsc (ih _ hst)
  · intro v s _ ih s' hs
    cases hs with
    | same => exact .oneOf (ih s (.same s))
    | oneOf _ h => exact .oneOf (ih _ h)
  · intro v s allowed t _ h1 h2 ih s' hs
    cases hs with
    | same => exact .oneOfText (ih s (.same s)) h1 h2
    | oneOf _ h => exact .oneOfText (ih _ h) h1 h2
  · intro v t s _ ih s' hs
    cases hs with
    | same => exact .default (ih s (.same s))
    | default _ h => exact .default (ih _ h)
  · intro v t s _ ih s' hs
    cases hs with
    | same => exact .deprecated (ih s (.same s))
    | deprecated _ h => exact .deprecated (ih _ h)
  · intro v t h1 s' hs; cases hs; exact .literal h1
  · intro v h1 s' hs; cases hs; exact .unitType h1
  · intro v n s hm _ ih s' hs
    cases hs
    obtain ⟨t, ht, hst⟩ := hf.mem hm
    exact .named ht (ih t hst)
  · intro fs e name s hk hh _ ih fs' h1 h2
    obtain ⟨t, ht, hst⟩ := hasField_same hf hh fs' h1
    exact .named hk ht (ih t hst)
  · intro fs e t s hk hno hh _ ih fs' h1 h2
    obtain ⟨u, hu, hsu⟩ := hasField_same hf hh fs' h1
    refine .additional hk ?_ hu (ih u hsu)
    intro name s hn hh'
    obtain ⟨w, hw, _⟩ := hasField_same hf.symm hh' fs h2
    exact hno name w hn hw
  · intro pairs _ he
    rw [List.map_eq_nil_iff.mp he.symm]
    exact .nil
  · intro v s vs ss _ _ ih1 ih2 pairs hp he
    rcases pairs with _ | ⟨q, pairs⟩
    · simp at he
    · simp only [List.map_cons, List.cons.injEq] at he
      obtain ⟨rfl, rfl⟩ := he
      exact .cons (ih1 _ (hp q (by simp)))
        (ih2 pairs (fun q hq => hp q (List.mem_cons_of_mem _ hq)) rfl)

end Styx.Schema
