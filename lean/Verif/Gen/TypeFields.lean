import Verif.Gen.TypeSpec
import Verif.Schema.Term
import Verif.Schema.Conform

/-!
# The object schema of a struct, and the enum schema of an enum
-/

namespace Styx.TypeGen

open Schema (Schema SchemaFile ObjectKey lookup DistinctKeys lookup_of_mem lookup_none lookup_mem)
open Spec

variable {F : Type} {prog : Program}

theorem put_append {K V : Type} [DecidableEq K] {k : K} {v : V} :
    ∀ {l : List (K × V)}, k ∉ l.map (·.1) → put k v l = l ++ [(k, v)]
  | [], _ => rfl
  | (k', v') :: rest, h => by
    simp only [List.map_cons, List.mem_cons, not_or] at h
    rw [put, if_neg (fun e => h.1 e.symm), put_append h.2]; rfl

theorem foldl_put {α K V : Type} [DecidableEq K] (key : α → K) (val : α → V) :
    ∀ (xs : List α) (acc : List (K × V)), ((acc.map (·.1)) ++ xs.map key).Nodup →
      xs.foldl (fun a x => put (key x) (val x) a) acc = acc ++ xs.map fun x => (key x, val x)
  | [], acc, _ => by simp
  | x :: xs, acc, h => by
    have h1 : key x ∉ acc.map (·.1) := by
      intro hm
      rw [List.nodup_append] at h
      exact h.2.2 _ hm _ (by simp) rfl
    rw [List.foldl_cons, put_append h1, foldl_put key val xs]
    · simp
    · simpa using h

/-- The shape behind pointers and documentation. -/
def peel : Shape → Shape
  | .pointer t => peel t
  | .documented t => peel t
  | s => s

theorem plainly_peel {s t : Shape} (h : Plainly s t) : peel s = peel t := by
  induction h with
  | here => rfl
  | pointer _ ih => rw [peel, ih]
  | documented _ ih => rw [peel, ih]

theorem schema_plainly {s t : Shape} (h : Plainly s t) :
    shapeSchema (F := F) prog s = shapeSchema prog t ∧ shapeTypes prog s = shapeTypes prog t := by
  induction h with
  | here => exact ⟨rfl, rfl⟩
  | pointer _ ih => exact ih
  | documented _ ih => exact ih

/-- The schema of a field that is not flattened. -/
def fieldSchema (prog : Program) (f : Field) : Schema F :=
  match f.default with
  | some t => .default t (shapeSchema prog f.shape)
  | none => shapeSchema prog f.shape

/-- The key of a field in the object schema. -/
def fieldKey (F : Type) (prog : Program) (f : Field) : ObjectKey :=
  match f.flatten, (peel f.shape) with
  | true, .map k _ => .typed (tagName (shapeSchema (F := F) prog k))
  | _, _ => .named f.name

/-- The schema of a field in the object schema. -/
def fieldValue (prog : Program) (f : Field) : Schema F :=
  match f.flatten, (peel f.shape) with
  | true, .map _ v => shapeSchema prog v
  | _, _ => fieldSchema prog f

theorem putField_eq {fs : List Field} (hp : PlainFields fs) {f : Field} (hf : f ∈ fs)
    (acc : List (ObjectKey × Schema F)) :
    putField prog acc f = put (fieldKey F prog f) (fieldValue prog f) acc := by
  cases hfl : f.flatten with
  | true =>
    obtain ⟨k, v, h⟩ := hp.flattened f hf hfl
    have h1 := plainly_peel h
    simp only [peel] at h1
    simp only [putField, hfl, if_true, (schema_plainly h).1, shapeSchema, putFlattened, fieldKey,
      fieldValue, h1]
  | false =>
    have := hp.named f hf hfl
    simp only [putField, hfl, fieldKey, fieldValue, fieldSchema]
    simp [this]
    cases f.default <;> rfl

theorem keys_nodup (F : Type) (prog : Program) : ∀ {fs : List Field}, PlainFields fs →
    (fs.map (fieldKey F prog)).Nodup
  | [], _ => by simp
  | f :: fs, hp => by
    have hp' : PlainFields fs := by
      refine ⟨fun g hg => hp.named g (by simp [hg]), ?_, fun g hg => hp.flattened g (by simp [hg]), ?_⟩
      · have := hp.distinct
        rw [List.filter_cons] at this
        split at this
        · simp only [List.map_cons, List.nodup_cons] at this; exact this.2
        · exact this
      · have := hp.once
        rw [List.filter_cons] at this
        split at this
        · simp only [List.length_cons] at this; omega
        · exact this
    rw [List.map_cons, List.nodup_cons]
    refine ⟨?_, keys_nodup F prog hp'⟩
    intro hm
    obtain ⟨g, hg, he⟩ := List.mem_map.mp hm
    cases hff : f.flatten with
    | true =>
      obtain ⟨k, v, h⟩ := hp.flattened f (by simp) hff
      have h1 := plainly_peel h
      simp only [peel] at h1
      cases hgf : g.flatten with
      | true =>
        have := hp.once
        rw [List.filter_cons, if_pos hff, List.length_cons] at this
        have : 0 < (fs.filter (·.flatten)).length :=
          List.length_pos_of_mem (List.mem_filter.mpr ⟨hg, hgf⟩)
        omega
      | false =>
        simp [fieldKey, hff, hgf, h1, ObjectKey.named, ObjectKey.typed] at he
    | false =>
      cases hgf : g.flatten with
      | true =>
        obtain ⟨k, v, h⟩ := hp.flattened g (by simp [hg]) hgf
        have h1 := plainly_peel h
        simp only [peel] at h1
        simp [fieldKey, hff, hgf, h1, ObjectKey.named, ObjectKey.typed] at he
      | false =>
        simp only [fieldKey, hff, hgf, ObjectKey.named, ObjectKey.mk.injEq, Option.some.injEq,
          and_true] at he
        have := hp.distinct
        rw [List.filter_cons, if_pos (by simp [hff]), List.map_cons, List.nodup_cons] at this
        exact this.1 (List.mem_map.mpr ⟨g, List.mem_filter.mpr ⟨hg, by simp [hgf]⟩, he⟩)

/-- The fields of the object schema of a struct. -/
def objectFields (prog : Program) (fs : List Field) : List (ObjectKey × Schema F) :=
  fs.map fun f => (fieldKey F prog f, fieldValue prog f)

theorem structSchema_fields {fs : List Field} (hp : PlainFields fs) :
    structSchema (F := F) prog .struct fs = .object (objectFields prog fs) := by
  have key : ∀ (xs : List Field) (acc : List (ObjectKey × Schema F)), (∀ f ∈ xs, f ∈ fs) →
      xs.foldl (putField prog) acc =
        xs.foldl (fun a x => put (fieldKey F prog x) (fieldValue prog x) a) acc := by
    intro xs
    induction xs with
    | nil => intros; rfl
    | cons x xs ih =>
      intro acc h
      rw [List.foldl_cons, List.foldl_cons, putField_eq hp (h x (by simp)),
        ih _ (fun f hf => h f (by simp [hf]))]
  rw [structSchema, key fs [] (fun f hf => hf), foldl_put]
  · rfl
  · simpa using keys_nodup F prog hp

theorem objectFields_distinct {fs : List Field} (hp : PlainFields fs) :
    DistinctKeys (objectFields (F := F) prog fs) := by
  have := keys_nodup F prog hp
  simpa [DistinctKeys, objectFields, Function.comp_def] using this

theorem lookup_field {fs : List Field} (hp : PlainFields fs) {f : Field} (hf : f ∈ fs)
    (hfl : f.flatten = false) :
    lookup (ObjectKey.named f.name) (objectFields (F := F) prog fs) = some (fieldSchema prog f) := by
  refine lookup_of_mem (objectFields_distinct hp) ?_
  refine List.mem_map.mpr ⟨f, hf, ?_⟩
  simp [fieldKey, fieldValue, hfl]

/-- A named key of the object schema is that of a field. -/
theorem mem_named {fs : List Field} (hp : PlainFields fs) {k : ObjectKey} {s : Schema F} {n}
    (h : (k, s) ∈ objectFields prog fs) (hk : k.value = some n) :
    ∃ f ∈ fs, f.flatten = false ∧ f.name = n ∧ s = fieldSchema prog f := by
  obtain ⟨f, hf, he⟩ := List.mem_map.mp h
  cases hfl : f.flatten with
  | true =>
    obtain ⟨a, b, hm⟩ := hp.flattened f hf hfl
    have h1 := plainly_peel hm
    simp only [peel] at h1
    simp only [fieldKey, fieldValue, hfl, h1, Prod.mk.injEq] at he
    rw [← he.1] at hk
    cases hk
  | false =>
    simp only [fieldKey, fieldValue, hfl, Prod.mk.injEq] at he
    rw [← he.1] at hk
    exact ⟨f, hf, hfl, by simpa [ObjectKey.named] using hk, he.2.symm⟩

/-- A tagged key of the object schema is that of a flattened map. -/
theorem mem_tagged {fs : List Field} (hp : PlainFields fs) {k : ObjectKey} {s : Schema F}
    (h : (k, s) ∈ objectFields prog fs) (hk : k.tag.isSome) :
    ∃ f ∈ fs, ∃ a b, f.flatten = true ∧ Plainly f.shape (.map a b) ∧ s = shapeSchema prog b := by
  obtain ⟨f, hf, he⟩ := List.mem_map.mp h
  cases hfl : f.flatten with
  | true =>
    obtain ⟨a, b, hm⟩ := hp.flattened f hf hfl
    have h1 := plainly_peel hm
    simp only [peel] at h1
    simp only [fieldKey, fieldValue, hfl, h1, Prod.mk.injEq] at he
    exact ⟨f, hf, a, b, hfl, hm, he.2.symm⟩
  | false =>
    simp only [fieldKey, fieldValue, hfl, Prod.mk.injEq] at he
    rw [← he.1] at hk
    simp [ObjectKey.named] at hk

/-- Two flattened fields are the same. -/
theorem flattened_unique : ∀ {fs : List Field}, PlainFields fs → ∀ {f g}, f ∈ fs → g ∈ fs →
    f.flatten = true → g.flatten = true → f = g := by
  intro fs hp f g hf hg h1 h2
  have a : f ∈ fs.filter (·.flatten) := List.mem_filter.mpr ⟨hf, h1⟩
  have b : g ∈ fs.filter (·.flatten) := List.mem_filter.mpr ⟨hg, h2⟩
  have := hp.once
  generalize fs.filter (·.flatten) = l at a b this
  match l, a, b, this with
  | [x], a, b, _ => rw [List.mem_singleton.mp a, List.mem_singleton.mp b]

theorem catchAll_rest {fs : List Field} (hp : PlainFields fs) {f : Field} {a b : Shape}
    (hf : f ∈ fs) (hfl : f.flatten = true) (hm : Plainly f.shape (.map a b)) :
    Schema.catchAll (objectFields (F := F) prog fs) = some (shapeSchema prog b) := by
  have h1 := plainly_peel hm
  simp only [peel] at h1
  cases hc : Schema.catchAll (objectFields (F := F) prog fs) with
  | none =>
    have := Schema.catchAll_none hc (fieldKey F prog f, fieldValue prog f)
      (List.mem_map.mpr ⟨f, hf, rfl⟩)
    simp [fieldKey, hfl, h1, ObjectKey.typed] at this
  | some s =>
    obtain ⟨k, hk, ht⟩ := Schema.catchAll_some hc
    obtain ⟨g, hg, c, d, hgl, hgm, rfl⟩ := mem_tagged hp hk ht
    obtain rfl := flattened_unique hp hf hg hfl hgl
    have h2 := plainly_peel hgm
    simp only [peel] at h2
    rw [h1] at h2
    cases h2
    rfl

theorem fieldOf_iff {fs : List Field} (hp : PlainFields fs) {f : Field} :
    FieldOf prog fs f ↔ f ∈ fs ∧ f.flatten = false := by
  constructor
  · intro h
    cases h with
    | own h1 h2 => exact ⟨h1, h2⟩
    | inline h1 h2 h3 _ _ _ =>
      obtain ⟨a, b, hm⟩ := hp.flattened _ h1 h2
      have := (plainly_peel hm).symm.trans (plainly_peel h3)
      cases this
  · exact fun h => .own h.1 h.2

theorem restOf_iff {fs : List Field} (hp : PlainFields fs) {v : Shape} :
    RestOf prog fs v ↔ ∃ f ∈ fs, ∃ k, f.flatten = true ∧ Plainly f.shape (.map k v) := by
  constructor
  · intro h
    cases h with
    | own h1 h2 h3 => exact ⟨_, h1, _, h2, h3⟩
    | inline h1 h2 h3 _ _ _ =>
      obtain ⟨a, b, hm⟩ := hp.flattened _ h1 h2
      have := (plainly_peel hm).symm.trans (plainly_peel h3)
      cases this
  · rintro ⟨f, hf, k, h1, h2⟩
    exact .own hf h1 h2

theorem mayOmit_iff {f : Field} : MayOmit f ↔ Schema.notRequired (F := F) (fieldSchema prog f) = true := by
  unfold MayOmit fieldSchema
  cases f.default with
  | some t => simp [Schema.notRequired]
  | none =>
    simp only [ne_eq, not_true_eq_false, false_or]
    constructor
    · rintro ⟨t, ht⟩
      rw [(schema_plainly ht).1]; rfl
    · intro h
      generalize f.shape = s at h
      induction s with
      | option t => exact ⟨t, .here _⟩
      | pointer t ih => obtain ⟨u, hu⟩ := ih h; exact ⟨u, .pointer hu⟩
      | documented t ih => obtain ⟨u, hu⟩ := ih h; exact ⟨u, .documented hu⟩
      | user i =>
        simp only [shapeSchema, userSchema] at h
        split at h
        · split at h <;> cases h
        · cases h
      | «opaque» a b =>
        simp only [shapeSchema, opaqueSchema] at h
        generalize (if a = true then scalarTexts else opaqueTexts).contains b = c at h
        cases c <;> cases h
      | _ => cases h

theorem variantSchema_eq (w : Variant) :
    variantSchema (F := F) prog w = structSchema prog w.kind w.fields := by
  unfold variantSchema structSchema
  cases w.kind <;> rfl

/-- The variants of the enum schema of an enum. -/
def enumVariants (prog : Program) (vs : List Variant) : List (List Char × Schema F) :=
  vs.map fun w => (w.name, structSchema prog w.kind w.fields)

theorem enumSchema_eq {vs : List Variant} (hd : (vs.map (·.name)).Nodup)
    (ho : ∀ w ∈ vs, w.other = false) :
    enumSchema (F := F) prog vs = .enum (enumVariants prog vs) := by
  have : vs.any (·.other) = false := by
    rw [List.any_eq_false]; intro w hw; simp [ho w hw]
  rw [enumSchema, this, if_neg (by simp), foldl_put]
  · simp [enumVariants, variantSchema_eq]
  · simpa using hd

theorem enumSchema_other {vs : List Variant} {w} (hw : w ∈ vs) (ho : w.other = true) :
    enumSchema (F := F) prog vs = .any := by
  have : vs.any (·.other) = true := List.any_eq_true.mpr ⟨w, hw, ho⟩
  rw [enumSchema, this]; rfl

theorem lookup_variant {vs : List Variant} (hd : (vs.map (·.name)).Nodup) {w} (hw : w ∈ vs) :
    lookup w.name (enumVariants (F := F) prog vs) = some (structSchema prog w.kind w.fields) := by
  refine lookup_of_mem ?_ (List.mem_map.mpr ⟨w, hw, rfl⟩)
  simpa [DistinctKeys, enumVariants, Function.comp_def] using hd

end Styx.TypeGen
