import Verif.Schema.TermSpec
import Verif.Schema.Lemmas

/-!
# Validation terminates on guarded schemas
-/

namespace Styx.Schema

variable {F : Type} {E : Env F} {sf : SchemaFile F}

/-- `rec'` returns the same wherever `rec` returns. -/
def Extends (rec rec' : Value → Schema F → List Char → Option Result) : Prop :=
  ∀ v s p r, rec v s p = some r → rec' v s p = some r

theorem mergeAll_mono {α : Type} {f g : α → Option Result} : ∀ {xs : List α} {r},
    (∀ x ∈ xs, ∀ a, f x = some a → g x = some a) → mergeAll f xs = some r → mergeAll g xs = some r
  | [], r, _, h => h
  | x :: xs, r, hfg, h => by
    simp only [mergeAll, Option.bind_eq_some_iff, Option.map_eq_some_iff] at h ⊢
    obtain ⟨a, ha, b, hb, rfl⟩ := h
    exact ⟨a, hfg x (by simp) a ha, b,
      mergeAll_mono (fun x hx => hfg x (List.mem_cons_of_mem _ hx)) hb, rfl⟩

theorem tryVariants_mono {f g : Schema F → Option Result} : ∀ {ss : List (Schema F)} {b},
    (∀ s ∈ ss, ∀ a, f s = some a → g s = some a) → tryVariants f ss = some b →
    tryVariants g ss = some b
  | [], b, _, h => h
  | s :: ss, b, hfg, h => by
    simp only [tryVariants, Option.bind_eq_some_iff] at h ⊢
    obtain ⟨r, hr, h⟩ := h
    refine ⟨r, hfg s (by simp) r hr, ?_⟩
    split at h
    · next hv => rw [if_pos hv]; exact h
    · next hv => rw [if_neg hv]; exact tryVariants_mono (fun s hs => hfg s (List.mem_cons_of_mem _ hs)) h

theorem validateEntry_mono {rec rec'} (hx : Extends (F := F) rec rec') {fields path e r}
    (h : validateEntry E rec fields path e = some r) : validateEntry E rec' fields path e = some r := by
  rw [validateEntry] at h ⊢
  split at h
  · exact h
  · dsimp only at h ⊢
    split at h
    · exact hx _ _ _ _ h
    · split at h
      · exact hx _ _ _ _ h
      · exact h

theorem validateMapEntry_mono {rec rec'} (hx : Extends (F := F) rec rec') {ks vs path e r}
    (h : validateMapEntry rec ks vs path e = some r) : validateMapEntry rec' ks vs path e = some r := by
  rw [validateMapEntry.eq_def] at h ⊢
  split at h
  · exact h
  · simp only [Option.bind_eq_some_iff, Option.map_eq_some_iff] at h ⊢
    obtain ⟨a, ha, b, hb, rfl⟩ := h
    refine ⟨a, ?_, b, hx _ _ _ _ hb, rfl⟩
    split at ha
    · exact hx _ _ _ _ ha
    · exact ha

theorem step_mono {rec rec'} (hx : Extends (F := F) rec rec') :
    Extends (step E sf rec) (step E sf rec') := by
  intro v s p r h
  cases s with
  | object fields =>
    simp only [step, validateObject] at h ⊢
    split at h
    · exact h
    · simp only [Option.map_eq_some_iff] at h ⊢
      obtain ⟨a, ha, rfl⟩ := h
      exact ⟨a, mergeAll_mono (fun e _ a he => validateEntry_mono hx he) ha, rfl⟩
  | seq item =>
    simp only [step, validateSeq] at h ⊢
    split at h
    · exact h
    · exact mergeAll_mono (fun e _ a he => hx _ _ _ _ he) h
  | tuple ss =>
    simp only [step, validateTuple] at h ⊢
    split at h
    · exact h
    · simp only [Option.map_eq_some_iff] at h ⊢
      obtain ⟨a, ha, rfl⟩ := h
      exact ⟨a, mergeAll_mono (fun e _ a he => hx _ _ _ _ he) ha, rfl⟩
  | map ts =>
    simp only [step, validateMap] at h ⊢
    split at h
    · exact h
    · split at h
      · exact mergeAll_mono (fun e _ a he => validateMapEntry_mono hx he) h
      · exact mergeAll_mono (fun e _ a he => validateMapEntry_mono hx he) h
      · exact h
  | union ss =>
    simp only [step, validateUnion] at h ⊢
    split at h
    · next he => rw [if_pos he]; exact h
    · next he =>
      rw [if_neg he]
      simp only [Option.map_eq_some_iff] at h ⊢
      obtain ⟨a, ha, rfl⟩ := h
      exact ⟨a, tryVariants_mono (fun e _ a he => hx _ _ _ _ he) ha, rfl⟩
  | optional inner =>
    simp only [step, validateOptional] at h ⊢
    split at h
    · next he => rw [if_pos he]; exact h
    · next he => rw [if_neg he]; exact hx _ _ _ _ h
  | enum vs =>
    simp only [step, validateEnum] at h ⊢
    split at h
    · split at h
      · exact hx _ _ _ _ h
      · exact h
    · split at h
      · split at h
        · exact h
        · exact hx _ _ _ _ h
      · exact h
  | oneOf base allowed =>
    simp only [step, validateOneOf, Option.map_eq_some_iff] at h ⊢
    obtain ⟨a, ha, rfl⟩ := h
    exact ⟨a, hx _ _ _ _ ha, rfl⟩
  | flatten inner => exact hx _ _ _ _ h
  | default t inner => exact hx _ _ _ _ h
  | deprecated reason inner =>
    simp only [step, validateDeprecated, Option.map_eq_some_iff] at h ⊢
    obtain ⟨a, ha, rfl⟩ := h
    exact ⟨a, hx _ _ _ _ ha, rfl⟩
  | type name =>
    simp only [step, validateTypeRef] at h ⊢
    split at h
    · exact h
    · split at h
      · exact hx _ _ _ _ h
      · exact h
  | _ => exact h

theorem validate_succ : ∀ n, Extends (validate E sf n) (validate E sf (n + 1))
  | 0 => by intro v s p r h; cases h
  | n + 1 => step_mono (validate_succ n)

theorem validate_mono {m n} (h : m ≤ n) : Extends (validate E sf m) (validate E sf n) := by
  induction h with
  | refl => intro v s p r h; exact h
  | step _ ih => intro v s p r h; exact validate_succ _ v s p r (ih v s p r h)

/-- Validation of `v` against `s` returns, whatever the path. -/
def Returns (E : Env F) (sf : SchemaFile F) (v : Value) (s : Schema F) : Prop :=
  ∀ p, ∃ n r, validate E sf n v s p = some r

theorem gather {α : Type} {f : Nat → α → Option Result}
    (hf : ∀ m n x r, m ≤ n → f m x = some r → f n x = some r) : ∀ {xs : List α},
    (∀ x ∈ xs, ∃ n r, f n x = some r) → ∃ n r, mergeAll (f n) xs = some r
  | [], _ => ⟨0, _, rfl⟩
  | x :: xs, h => by
    obtain ⟨n, a, ha⟩ := h x (by simp)
    obtain ⟨m, b, hb⟩ := gather hf (fun x hx => h x (List.mem_cons_of_mem _ hx))
    refine ⟨max n m, a.merge b, ?_⟩
    simp only [mergeAll, Option.bind_eq_some_iff, Option.map_eq_some_iff]
    exact ⟨a, hf _ _ _ _ (Nat.le_max_left ..) ha, b,
      mergeAll_mono (fun x _ r hr => hf _ _ _ _ (Nat.le_max_right ..) hr) hb, rfl⟩

theorem gatherVariants {f : Nat → Schema F → Option Result}
    (hf : ∀ m n x r, m ≤ n → f m x = some r → f n x = some r) : ∀ {ss : List (Schema F)},
    (∀ s ∈ ss, ∃ n r, f n s = some r) → ∃ n b, tryVariants (f n) ss = some b
  | [], _ => ⟨0, _, rfl⟩
  | x :: xs, h => by
    obtain ⟨n, a, ha⟩ := h x (by simp)
    obtain ⟨m, b, hb⟩ := gatherVariants hf (fun x hx => h x (List.mem_cons_of_mem _ hx))
    refine ⟨max n m, ?_⟩
    simp only [tryVariants, hf _ _ _ _ (Nat.le_max_left n m) ha, Option.bind_some]
    split
    · exact ⟨_, rfl⟩
    · exact ⟨b, tryVariants_mono (fun x _ r hr => hf _ _ _ _ (Nat.le_max_right ..) hr) hb⟩

theorem entry_lt {v : Value} {es : List Entry} (h : v.asObject = some es) {e} (he : e ∈ es) :
    sizeOf e.value < sizeOf v ∧ sizeOf e.key < sizeOf v := by
  obtain ⟨tag, sp, sp', rfl⟩ := asObject_iff.mp h
  have h1 := List.sizeOf_lt_of_mem he
  obtain ⟨k, w, d⟩ := e
  simp only [Entry.mk.sizeOf_spec] at h1
  simp only [Entry.value, Entry.key, Value.mk.sizeOf_spec, Option.some.sizeOf_spec,
    Payload.object.sizeOf_spec]
  omega

theorem item_lt {v : Value} {xs : List Value} (h : v.asSequence = some xs) {x} (hx : x ∈ xs) :
    sizeOf x < sizeOf v := by
  obtain ⟨tag, sp, sp', rfl⟩ := asSequence_iff.mp h
  have h1 := List.sizeOf_lt_of_mem hx
  simp only [Value.mk.sizeOf_spec, Option.some.sizeOf_spec, Payload.sequence.sizeOf_spec]
  omega

theorem payload_lt (tag : Tag) (p : Payload) (sp : Option Span) :
    sizeOf (Value.mk none (some p) none) < sizeOf (Value.mk (some tag) (some p) sp) := by
  have : 0 < sizeOf tag := by obtain ⟨a, b⟩ := tag; simp only [Tag.mk.sizeOf_spec]; omega
  have : 0 < sizeOf sp := by cases sp <;> simp only [Option.some.sizeOf_spec, Option.none.sizeOf_spec] <;> omega
  simp only [Value.mk.sizeOf_spec, Option.some.sizeOf_spec, Option.none.sizeOf_spec]
  omega

theorem returns_step {v s} (h : ∀ p, ∃ n r, step E sf (validate E sf n) v s p = some r) :
    Returns E sf v s := by
  intro p
  obtain ⟨n, r, h⟩ := h p
  exact ⟨n + 1, r, h⟩

theorem returns_schema {v : Value} (hsmall : ∀ w, sizeOf w < sizeOf v → ∀ s, Returns E sf w s) :
    ∀ (k : Nat) (s : Schema F), sizeOf s ≤ k →
      (∀ n, DirectRef s n → ∀ s', lookup (some n) sf = some s' → Returns E sf v s') →
      Returns E sf v s := by
  intro k
  induction k with
  | zero => intro s hs; cases s <;> simp at hs
  | succ k ih =>
    intro s hs href
    apply returns_step
    intro p
    have mono : ∀ m n (x : Value) (s : Schema F) p r, m ≤ n → validate E sf m x s p = some r →
        validate E sf n x s p = some r := fun m n x s p r hmn hr => validate_mono hmn _ _ _ _ hr
    cases s with
    | string c => exact ⟨0, _, rfl⟩
    | int c => exact ⟨0, _, rfl⟩
    | float c => exact ⟨0, _, rfl⟩
    | bool => exact ⟨0, _, rfl⟩
    | unit => exact ⟨0, _, rfl⟩
    | any => exact ⟨0, _, rfl⟩
    | literal t => exact ⟨0, _, rfl⟩
    | object fields =>
      simp only [step, validateObject]
      split
      · exact ⟨0, _, rfl⟩
      · next es he =>
        obtain ⟨n, r, h⟩ := gather (f := fun n => validateEntry E (validate E sf n) fields p)
          (fun m n x r hmn hr => validateEntry_mono (validate_mono hmn) hr) (xs := es) (by
            intro e hm
            simp only [validateEntry]
            split
            · exact ⟨0, _, rfl⟩
            · split
              · exact hsmall _ (entry_lt he hm).1 _ _
              · split
                · exact hsmall _ (entry_lt he hm).1 _ _
                · exact ⟨0, _, rfl⟩)
        exact ⟨n, _, by rw [h]; rfl⟩
    | seq item =>
      simp only [step, validateSeq]
      split
      · exact ⟨0, _, rfl⟩
      · next xs he =>
        exact gather (f := fun n (q : Value × Nat) => validate E sf n q.1 item (itemPath p q.2))
          (fun m n x r hmn hr => mono _ _ _ _ _ _ hmn hr)
          (fun x hx => hsmall _ (item_lt he (List.fst_mem_of_mem_zipIdx hx)) _ _)
    | tuple ss =>
      simp only [step, validateTuple]
      split
      · exact ⟨0, _, rfl⟩
      · next xs he =>
        obtain ⟨n, r, h⟩ := gather
          (f := fun n (q : (Value × Schema F) × Nat) => validate E sf n q.1.1 q.1.2 (itemPath p q.2))
          (fun m n x r hmn hr => mono _ _ _ _ _ _ hmn hr) (xs := (xs.zip ss).zipIdx)
          (fun x hx => hsmall _
            (item_lt he (List.of_mem_zip (List.fst_mem_of_mem_zipIdx hx)).1) _ _)
        exact ⟨n, _, by rw [h]; rfl⟩
    | map ts =>
      simp only [step, validateMap]
      split
      · exact ⟨0, _, rfl⟩
      · next es he =>
        have loop : ∀ ks vs, ∃ n r,
            mergeAll (validateMapEntry (validate E sf n) ks vs p) es = some r := by
          intro ks vs
          refine gather (f := fun n => validateMapEntry (validate E sf n) ks vs p)
            (fun m n x r hmn hr => validateMapEntry_mono (validate_mono hmn) hr) ?_
          intro e hm
          simp only [validateMapEntry.eq_def]
          split
          · exact ⟨0, _, rfl⟩
          · next key _ =>
            obtain ⟨n, r, h⟩ := hsmall _ (entry_lt he hm).1 vs (fieldPath p key)
            cases ks with
            | none => exact ⟨n, Result.ok.merge r, by simp [h]⟩
            | some k =>
              obtain ⟨n', r', h'⟩ := hsmall _ (entry_lt he hm).2 k p
              exact ⟨max n n', r'.merge r, by
                simp only [mono _ _ _ _ _ _ (Nat.le_max_left n n') h,
                  mono _ _ _ _ _ _ (Nat.le_max_right n n') h', Option.bind_some, Option.map_some]⟩
        split
        · exact loop _ _
        · exact loop _ _
        · exact ⟨0, _, rfl⟩
    | union ss =>
      simp only [step, validateUnion]
      split
      · exact ⟨0, _, rfl⟩
      · obtain ⟨n, b, h⟩ := gatherVariants (f := fun n s => validate E sf n v s p)
          (fun m n x r hmn hr => mono _ _ _ _ _ _ hmn hr) (ss := ss) (by
            intro s hm
            refine ih s ?_ (fun n hn => href n (.union hm hn)) p
            have := List.sizeOf_lt_of_mem hm
            simp only [Schema.union.sizeOf_spec] at hs
            omega)
        exact ⟨n, _, by rw [h]; rfl⟩
    | optional inner =>
      simp only [step, validateOptional]
      split
      · exact ⟨0, _, rfl⟩
      · exact ih inner (by simp only [Schema.optional.sizeOf_spec] at hs; omega)
          (fun n hn => href n (.optional hn)) p
    | enum vs =>
      obtain ⟨tag, pl, sp⟩ := v
      simp only [step, validateEnum, Value.tag, Value.payload]
      cases tag with
      | none =>
        simp only
        split
        · next s hs =>
          -- a fallback variant is a scalar type
          simp only [enumFallback, Option.bind_eq_some_iff, Option.map_eq_some_iff] at hs
          obtain ⟨text, _, q, hf, rfl⟩ := hs
          have htk := List.find?_some hf
          refine ⟨1, ?_⟩
          obtain ⟨nm, q⟩ := q
          cases q <;> simp only [takesText, Bool.false_eq_true] at htk <;> exact ⟨_, rfl⟩
        · exact ⟨0, _, rfl⟩
      | some tag =>
        simp only
        split
        · cases pl with
          | none =>
            simp only
            split <;> exact ⟨0, _, rfl⟩
          | some pl => exact hsmall _ (payload_lt tag pl sp) _ _
        · exact ⟨0, _, rfl⟩
    | oneOf base allowed =>
      obtain ⟨n, r, h⟩ := ih base (by simp only [Schema.oneOf.sizeOf_spec] at hs; omega)
          (fun n hn => href n (.oneOf _ hn)) p
      exact ⟨n, _, by simp only [step, validateOneOf, h, Option.map_some]; rfl⟩
    | flatten inner =>
      exact ih inner (by simp only [Schema.flatten.sizeOf_spec] at hs; omega)
          (fun n hn => href n (.flatten hn)) p
    | default t inner =>
      exact ih inner (by simp only [Schema.default.sizeOf_spec] at hs; omega)
          (fun n hn => href n (.default _ hn)) p
    | deprecated t inner =>
      obtain ⟨n, r, h⟩ := ih inner (by simp only [Schema.deprecated.sizeOf_spec] at hs; omega)
          (fun n hn => href n (.deprecated _ hn)) p
      exact ⟨n, _, by simp only [step, validateDeprecated, h, Option.map_some]; rfl⟩
    | type name =>
      simp only [step, validateTypeRef]
      cases name with
      | none => exact ⟨0, _, rfl⟩
      | some n =>
        simp only
        split
        · next s hl => exact href n (.type n) s hl p
        · exact ⟨0, _, rfl⟩

/-- On a guarded schema file the direct references between names are well founded. -/
theorem guarded_acc (hg : Guarded sf) : ∀ (k : Nat) (seen : List (List Char)) (a : List Char),
    (sf.filter fun d => d.1.any fun n => !seen.contains n).length ≤ k →
    (∀ b ∈ seen, Reaches sf b a) →
    Acc (fun y x => ∃ s, (some x, s) ∈ sf ∧ DirectRef s y) a := by
  have trans : ∀ {b a c}, Reaches sf b a → (∃ s, (some a, s) ∈ sf ∧ DirectRef s c) →
      Reaches sf b c := by
    intro b a c h
    induction h with
    | one hm hd => rintro ⟨s, hs, hc⟩; exact .more hm hd (.one hs hc)
    | more hm hd _ ih => exact fun h => .more hm hd (ih h)
  intro k
  induction k with
  | zero =>
    intro seen a hl hr
    constructor
    rintro c ⟨s, hs, hc⟩
    exfalso
    have ha : a ∉ seen := fun h => hg a (hr a h)
    have : (some a, s) ∈ sf.filter fun d => d.1.any fun n => !seen.contains n := by
      rw [List.mem_filter]; simpa [hs] using ha
    rw [List.length_eq_zero_iff.mp (Nat.le_zero.mp hl)] at this
    cases this
  | succ k ih =>
    intro seen a hl hr
    have ha : a ∉ seen := fun h => hg a (hr a h)
    constructor
    rintro c ⟨s, hs, hc⟩
    refine ih (a :: seen) c ?_ ?_
    · have hlt : (sf.filter fun d => d.1.any fun n => !(a :: seen).contains n).length <
          (sf.filter fun d => d.1.any fun n => !seen.contains n).length := by
        have hsub : (sf.filter fun d => d.1.any fun n => !(a :: seen).contains n) =
            (sf.filter fun d => d.1.any fun n => !seen.contains n).filter
              fun d => d.1 != some a := by
          rw [List.filter_filter]
          congr 1
          funext d
          obtain ⟨n, d⟩ := d
          cases n with
          | none => simp
          | some n => by_cases h : n = a <;> simp [h]
        rw [hsub]
        apply List.length_filter_lt_length_iff_exists.mpr
        exact ⟨(some a, s), by rw [List.mem_filter]; simpa [hs] using ha, by simp⟩
      omega
    · intro b hb
      rcases List.mem_cons.mp hb with rfl | hb
      · exact .one hs hc
      · exact trans (hr b hb) ⟨s, hs, hc⟩

theorem returns_value (hg : Guarded sf) : ∀ (k : Nat) (v : Value), sizeOf v ≤ k →
    ∀ s, Returns E sf v s := by
  intro k
  induction k with
  | zero => intro v hv; cases v; simp at hv
  | succ k ih =>
    intro v hv
    have hsmall : ∀ w, sizeOf w < sizeOf v → ∀ s, Returns E sf w s :=
      fun w hw => ih w (by omega)
    have named : ∀ n s, (some n, s) ∈ sf → Returns E sf v s := by
      intro n
      induction guarded_acc hg _ [] n (Nat.le_refl _) (by simp) with
      | intro n _ ihn =>
        intro s hs
        refine returns_schema hsmall _ s (Nat.le_refl _) ?_
        intro m hm s' hl
        exact ihn m ⟨s, hs, hm⟩ s' (lookup_mem hl)
    intro s
    exact returns_schema hsmall _ s (Nat.le_refl _) (fun n _ s' hl => named n s' (lookup_mem hl))

end Styx.Schema
