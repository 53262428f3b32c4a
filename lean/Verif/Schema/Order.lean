import Verif.Schema.OrderSpec
import Verif.Schema.Lemmas

/-!
# Validation does not depend on the order of entries
-/

namespace Styx.Schema

variable {F : Type} {E : Env F} {sf : SchemaFile F}

/-- The same errors and warnings, in any order. -/
def SameReport (r r' : Result) : Prop := r.errors.Perm r'.errors ∧ r.warnings.Perm r'.warnings

theorem SameReport.refl (r : Result) : SameReport r r := ⟨.refl _, .refl _⟩

theorem SameReport.trans {r s t : Result} (h : SameReport r s) (g : SameReport s t) :
    SameReport r t := ⟨h.1.trans g.1, h.2.trans g.2⟩

theorem SameReport.merge {r r' s s' : Result} (h : SameReport r r') (g : SameReport s s') :
    SameReport (r.merge s) (r'.merge s') := ⟨h.1.append g.1, h.2.append g.2⟩

theorem SameReport.isValid {r r' : Result} (h : SameReport r r') : r.isValid = r'.isValid := by
  rw [Result.isValid, Result.isValid, Bool.eq_iff_iff, List.isEmpty_iff, List.isEmpty_iff]
  constructor
  · intro e; have := h.1; rw [e] at this; exact this.symm.eq_nil
  · intro e; have := h.1; rw [e] at this; exact this.eq_nil

theorem Reordered.span {v v'} (h : Reordered v v') : v.span = v'.span := by cases h <;> rfl

theorem Reordered.tag {v v'} (h : Reordered v v') : v.tag = v'.tag := by cases h <;> rfl

theorem Reordered.isUnit {v v'} (h : Reordered v v') : v.isUnit = v'.isUnit := by
  cases h
  · rfl
  · cases ‹Option Tag› <;> rfl
  · cases ‹Option Tag› <;> rfl

theorem Reordered.scalarText {v v'} (h : Reordered v v') : v.scalarText = v'.scalarText := by
  cases h <;> rfl

theorem Reordered.typeName {v v'} (h : Reordered v v') : valueTypeName v = valueTypeName v' := by
  cases h
  · rfl
  · cases ‹Option Tag› <;> rfl
  · cases ‹Option Tag› <;> rfl

/-- `rec` gives the same report on reordered values. -/
def Steady (rec : Value → Schema F → List Char → Option Result) : Prop :=
  ∀ v v' s p r, Reordered v v' → rec v s p = some r → ∃ r', rec v' s p = some r' ∧ SameReport r r'

theorem mergeAll_entries {f : Entry → Option Result}
    (hf : ∀ k v v' d r, Reordered v v' → f (.mk k v d) = some r →
      ∃ r', f (.mk k v' d) = some r' ∧ SameReport r r') {es es'} (h : EntriesReordered es es') :
    ∀ r, mergeAll f es = some r → ∃ r', mergeAll f es' = some r' ∧ SameReport r r' := by
  refine EntriesReordered.rec (motive_1 := fun _ _ _ => True) (motive_2 := fun _ _ _ => True)
    (motive_3 := fun es es' _ => ∀ r, mergeAll f es = some r →
      ∃ r', mergeAll f es' = some r' ∧ SameReport r r')
    (fun _ => trivial) (fun _ _ => trivial) (fun _ _ => trivial) trivial (fun _ _ _ _ => trivial)
    ?_ ?_ ?_ ?_ h
  · exact fun r h => ⟨r, h, .refl r⟩
  · intro k v v' d es es' hv _ _ ih r h
    simp only [mergeAll, Option.bind_eq_some_iff, Option.map_eq_some_iff] at h ⊢
    obtain ⟨a, ha, b, hb, rfl⟩ := h
    obtain ⟨a', ha', sa⟩ := hf _ _ _ _ _ hv ha
    obtain ⟨b', hb', sb⟩ := ih _ hb
    exact ⟨_, ⟨a', ha', b', hb', rfl⟩, sa.merge sb⟩
  · intro e g es r h
    simp only [mergeAll, Option.bind_eq_some_iff, Option.map_eq_some_iff] at h ⊢
    obtain ⟨a, ha, b, ⟨c, hc, d, hd, rfl⟩, rfl⟩ := h
    refine ⟨_, ⟨c, hc, _, ⟨a, ha, d, hd, rfl⟩, rfl⟩, ?_, ?_⟩
    · simp only [Result.merge, ← List.append_assoc]
      exact List.Perm.append_right _ List.perm_append_comm
    · simp only [Result.merge, ← List.append_assoc]
      exact List.Perm.append_right _ List.perm_append_comm
  · intro es es' es'' _ _ ih1 ih2 r h
    obtain ⟨r', h', s1⟩ := ih1 r h
    obtain ⟨r'', h'', s2⟩ := ih2 r' h'
    exact ⟨r'', h'', s1.trans s2⟩

theorem keys_entries {es es'} (h : EntriesReordered es es') :
    (es.filterMap keyOpt).Perm (es'.filterMap keyOpt) := by
  refine EntriesReordered.rec (motive_1 := fun _ _ _ => True) (motive_2 := fun _ _ _ => True)
    (motive_3 := fun es es' _ => (es.filterMap keyOpt).Perm (es'.filterMap keyOpt))
    (fun _ => trivial) (fun _ _ => trivial) (fun _ _ => trivial) trivial (fun _ _ _ _ => trivial)
    ?_ ?_ ?_ ?_ h
  · exact .refl _
  · intro k v v' d es es' hv _ _ ih
    have e : keyOpt (.mk k v' d) = keyOpt (.mk k v d) := rfl
    cases hk : keyOpt (.mk k v d) with
    | none =>
      rw [List.filterMap_cons_none hk, List.filterMap_cons_none (e.trans hk)]; exact ih
    | some x =>
      rw [List.filterMap_cons_some hk, List.filterMap_cons_some (e.trans hk)]; exact ih.cons _
  · intro e g es
    exact (List.Perm.swap g e es).filterMap keyOpt
  · intro es es' es'' _ _ h1 h2
    exact h1.trans h2

theorem missingFields_perm {fields : List (ObjectKey × Schema F)} {seen seen'} (h : seen.Perm seen')
    (path sp) : missingFields fields seen path sp = missingFields fields seen' path sp := by
  have : ∀ x, seen.contains x = seen'.contains x := by
    intro x
    rw [Bool.eq_iff_iff, List.contains_iff_mem, List.contains_iff_mem]
    exact h.mem_iff
  simp only [missingFields, this]

theorem mergeAll_items {item : Schema F} {path : List Char} {rec} (hr : Steady (F := F) rec) {xs ys}
    (h : ItemsReordered xs ys) : ∀ i r,
    mergeAll (fun (q : Value × Nat) => rec q.1 item (itemPath path q.2)) (xs.zipIdx i) = some r →
    ∃ r', mergeAll (fun (q : Value × Nat) => rec q.1 item (itemPath path q.2)) (ys.zipIdx i) = some r' ∧
      SameReport r r' := by
  refine ItemsReordered.rec (motive_1 := fun _ _ _ => True) (motive_3 := fun _ _ _ => True)
    (motive_2 := fun xs ys _ => ∀ i r,
      mergeAll (fun (q : Value × Nat) => rec q.1 item (itemPath path q.2)) (xs.zipIdx i) = some r →
      ∃ r', mergeAll (fun (q : Value × Nat) => rec q.1 item (itemPath path q.2)) (ys.zipIdx i) = some r' ∧
        SameReport r r')
    (fun _ => trivial) (fun _ _ => trivial) (fun _ _ => trivial) ?_ ?_
    trivial (fun _ _ _ _ => trivial) (fun _ _ _ => trivial) (fun _ _ _ _ => trivial) h
  · exact fun i r h => ⟨r, h, .refl r⟩
  · intro x y xs ys hx _ _ ih i r h
    simp only [List.zipIdx_cons, mergeAll, Option.bind_eq_some_iff, Option.map_eq_some_iff] at h ⊢
    obtain ⟨a, ha, b, hb, rfl⟩ := h
    obtain ⟨a', ha', sa⟩ := hr _ _ _ _ _ hx ha
    obtain ⟨b', hb', sb⟩ := ih _ _ hb
    exact ⟨_, ⟨a', ha', b', hb', rfl⟩, sa.merge sb⟩

theorem mergeAll_zip {path : List Char} {rec} (hr : Steady (F := F) rec) {xs ys}
    (h : ItemsReordered xs ys) : ∀ (ss : List (Schema F)) i r,
    mergeAll (fun (q : (Value × Schema F) × Nat) => rec q.1.1 q.1.2 (itemPath path q.2))
      ((xs.zip ss).zipIdx i) = some r →
    ∃ r', mergeAll (fun (q : (Value × Schema F) × Nat) => rec q.1.1 q.1.2 (itemPath path q.2))
      ((ys.zip ss).zipIdx i) = some r' ∧ SameReport r r' := by
  refine ItemsReordered.rec (motive_1 := fun _ _ _ => True) (motive_3 := fun _ _ _ => True)
    (motive_2 := fun xs ys _ => ∀ (ss : List (Schema F)) i r,
      mergeAll (fun (q : (Value × Schema F) × Nat) => rec q.1.1 q.1.2 (itemPath path q.2))
        ((xs.zip ss).zipIdx i) = some r →
      ∃ r', mergeAll (fun (q : (Value × Schema F) × Nat) => rec q.1.1 q.1.2 (itemPath path q.2))
        ((ys.zip ss).zipIdx i) = some r' ∧ SameReport r r')
    (fun _ => trivial) (fun _ _ => trivial) (fun _ _ => trivial) ?_ ?_
    trivial (fun _ _ _ _ => trivial) (fun _ _ _ => trivial) (fun _ _ _ _ => trivial) h
  · exact fun ss i r h => ⟨r, h, .refl r⟩
  · intro x y xs ys hx _ _ ih ss i r h
    cases ss with
    | nil => exact ⟨r, h, .refl r⟩
    | cons s ss =>
      simp only [List.zip_cons_cons, List.zipIdx_cons, mergeAll, Option.bind_eq_some_iff,
        Option.map_eq_some_iff] at h ⊢
      obtain ⟨a, ha, b, hb, rfl⟩ := h
      obtain ⟨a', ha', sa⟩ := hr _ _ _ _ _ hx ha
      obtain ⟨b', hb', sb⟩ := ih _ _ _ hb
      exact ⟨_, ⟨a', ha', b', hb', rfl⟩, sa.merge sb⟩

theorem items_length {xs ys} (h : ItemsReordered xs ys) : xs.length = ys.length := by
  refine ItemsReordered.rec (motive_1 := fun _ _ _ => True) (motive_3 := fun _ _ _ => True)
    (motive_2 := fun xs ys _ => xs.length = ys.length)
    (fun _ => trivial) (fun _ _ => trivial) (fun _ _ => trivial) rfl ?_
    trivial (fun _ _ _ _ => trivial) (fun _ _ _ => trivial) (fun _ _ _ _ => trivial) h
  intro x y xs ys _ _ _ ih
  simp [ih]

theorem tryVariants_steady {rec} (hr : Steady (F := F) rec) {v v'} (h : Reordered v v') {p} :
    ∀ {ss : List (Schema F)} {b}, tryVariants (fun s => rec v s p) ss = some b →
      tryVariants (fun s => rec v' s p) ss = some b
  | [], b, h => h
  | s :: ss, b, hb => by
    simp only [tryVariants, Option.bind_eq_some_iff] at hb ⊢
    obtain ⟨r, hrr, hb⟩ := hb
    obtain ⟨r', hr', sr⟩ := hr _ _ _ _ _ h hrr
    refine ⟨r', hr', ?_⟩
    rw [← sr.isValid]
    split at hb
    · next hv => rw [if_pos hv]; exact hb
    · next hv => rw [if_neg hv]; exact tryVariants_steady hr h hb

theorem step_steady {rec} (hr : Steady (F := F) rec) : Steady (step E sf rec) := by
  intro v v' s p r h hs
  have same : ∀ {x y : Option Result}, x = y → x = some r → ∃ r', y = some r' ∧ SameReport r r' :=
    fun e hx => ⟨r, by rw [← e]; exact hx, .refl r⟩
  cases s with
  | string c =>
    refine same ?_ hs
    simp only [step, validateString, h.scalarText, h.span]
  | int c =>
    refine same ?_ hs
    simp only [step, validateInt, h.scalarText, h.span]
  | float c =>
    refine same ?_ hs
    simp only [step, validateFloat, h.scalarText, h.span]
  | bool =>
    refine same ?_ hs
    simp only [step, validateBool, h.scalarText, h.span]
  | unit =>
    refine same ?_ hs
    simp only [step, validateUnit, h.isUnit, h.span, h.typeName]
  | any => exact same rfl hs
  | literal t =>
    refine same ?_ hs
    simp only [step, validateLiteral, h.scalarText, h.span]
  | object fields =>
    cases h with
    | same => exact same rfl hs
    | items _ => exact same rfl hs
    | entries he =>
      simp only [step, validateObject, Value.asObject, Option.map_eq_some_iff] at hs ⊢
      obtain ⟨a, ha, rfl⟩ := hs
      obtain ⟨a', ha', sa⟩ := mergeAll_entries (by
        intro k w w' d r hw hr'
        rw [validateEntry] at hr' ⊢
        have ek : keyOpt (.mk k w' d) = keyOpt (.mk k w d) := rfl
        rw [ek]
        split at hr'
        · exact ⟨r, hr', .refl r⟩
        · dsimp only at hr' ⊢
          split at hr'
          · exact hr _ _ _ _ _ hw hr'
          · split at hr'
            · exact hr _ _ _ _ _ hw hr'
            · exact ⟨r, hr', .refl r⟩) he _ ha
      refine ⟨_, ⟨a', ha', rfl⟩, ?_⟩
      rw [missingFields_perm (keys_entries he)]
      exact sa.merge (.refl _)
  | seq item =>
    cases h with
    | same => exact same rfl hs
    | entries _ => exact same rfl hs
    | items hi =>
      simp only [step, validateSeq, Value.asSequence] at hs ⊢
      exact mergeAll_items hr hi 0 r hs
  | tuple ss =>
    cases h with
    | same => exact same rfl hs
    | entries _ => exact same rfl hs
    | items hi =>
      simp only [step, validateTuple, Value.asSequence, Option.map_eq_some_iff] at hs ⊢
      obtain ⟨a, ha, rfl⟩ := hs
      obtain ⟨a', ha', sa⟩ := mergeAll_zip hr hi ss 0 a ha
      refine ⟨_, ⟨a', ha', rfl⟩, ?_⟩
      rw [items_length hi]
      exact SameReport.merge (.refl _) sa
  | map ts =>
    cases h with
    | same => exact same rfl hs
    | items _ => exact same rfl hs
    | entries he =>
      simp only [step, validateMap, Value.asObject] at hs ⊢
      have loop : ∀ ks vs, mergeAll (validateMapEntry rec ks vs p) _ = some r →
          ∃ r', mergeAll (validateMapEntry rec ks vs p) _ = some r' ∧ SameReport r r' :=
        fun ks vs hm => mergeAll_entries (by
          intro k w w' d r hw hr'
          rw [validateMapEntry.eq_def] at hr' ⊢
          have ek : (Entry.mk k w' d).key = (Entry.mk k w d).key := rfl
          rw [ek]
          split at hr'
          · exact ⟨r, hr', .refl r⟩
          · simp only [Option.bind_eq_some_iff, Option.map_eq_some_iff] at hr' ⊢
            obtain ⟨a, ha, b, hb, rfl⟩ := hr'
            obtain ⟨b', hb', sb⟩ := hr _ _ _ _ _ hw hb
            exact ⟨_, ⟨a, ha, b', hb', rfl⟩, SameReport.merge (.refl a) sb⟩) he _ hm
      split at hs
      · exact loop _ _ hs
      · exact loop _ _ hs
      · exact ⟨r, hs, .refl r⟩
  | union ss =>
    simp only [step, validateUnion] at hs ⊢
    split at hs
    · next he => rw [if_pos he, ← h.span]; exact ⟨r, hs, .refl r⟩
    · next he =>
      rw [if_neg he]
      simp only [Option.map_eq_some_iff] at hs ⊢
      obtain ⟨b, hb, rfl⟩ := hs
      exact ⟨_, ⟨b, tryVariants_steady hr h hb, rfl⟩, by rw [h.span]; exact .refl _⟩
  | optional inner =>
    simp only [step, validateOptional, ← h.isUnit] at hs ⊢
    split at hs
    · next he => rw [if_pos he]; exact ⟨r, hs, .refl r⟩
    · next he => rw [if_neg he]; exact hr _ _ _ _ _ h hs
  | enum vs =>
    have hf : enumFallback E v' vs = enumFallback E v vs := by simp only [enumFallback, h.scalarText]
    simp only [step, validateEnum, ← h.tag, ← h.span, hf] at hs ⊢
    split at hs
    · split at hs
      · exact hr _ _ _ _ _ h hs
      · exact ⟨r, hs, .refl r⟩
    · split at hs
      · cases h with
        | same => split at hs <;> exact same rfl hs
        | items hi => exact hr _ _ _ _ _ (.items hi) hs
        | entries he => exact hr _ _ _ _ _ (.entries he) hs
      · exact ⟨r, hs, .refl r⟩
  | oneOf base allowed =>
    simp only [step, validateOneOf, Option.map_eq_some_iff] at hs ⊢
    obtain ⟨a, ha, rfl⟩ := hs
    obtain ⟨a', ha', sa⟩ := hr _ _ _ _ _ h ha
    refine ⟨_, ⟨a', ha', rfl⟩, ?_⟩
    rw [← sa.isValid, ← h.scalarText, ← h.span]
    split
    · exact sa
    · exact .refl _
  | flatten inner => exact hr _ _ _ _ _ h hs
  | default t inner => exact hr _ _ _ _ _ h hs
  | deprecated reason inner =>
    simp only [step, validateDeprecated, Option.map_eq_some_iff] at hs ⊢
    obtain ⟨a, ha, rfl⟩ := hs
    obtain ⟨a', ha', sa⟩ := hr _ _ _ _ _ h ha
    refine ⟨_, ⟨a', ha', rfl⟩, ?_⟩
    rw [h.span]
    exact ⟨sa.1, sa.2.append_right _⟩
  | type name =>
    simp only [step, validateTypeRef] at hs ⊢
    split at hs
    · refine same ?_ hs
      simp only [validateUnit, h.isUnit, h.span, h.typeName]
    · split at hs
      · exact hr _ _ _ _ _ h hs
      · rw [← h.span]; exact ⟨r, hs, .refl r⟩

theorem validate_steady : ∀ n, Steady (validate E sf n)
  | 0 => by intro v v' s p r _ h; cases h
  | n + 1 => step_steady (validate_steady n)

end Styx.Schema
