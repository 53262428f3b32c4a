import Verif.Cli.Spec
import Verif.Tree.ValueLemmas

/-!
# Lemmas on the schema tools of the command line (C43, C44, C46)
-/

namespace Styx.Cli

open Styx Styx.Spec

/-! ## Maps -/

section Maps

variable {κ α : Type} [DecidableEq κ]

theorem mapGet_insert (m : List (κ × α)) (k k' : κ) (a : α) :
    mapGet (mapInsert m k a) k' = if k = k' then some a else mapGet m k' := by
  induction m with
  | nil => by_cases h : k = k' <;> simp [mapInsert, mapGet, h]
  | cons p m ih =>
    obtain ⟨k1, a1⟩ := p
    simp only [mapInsert]
    by_cases h1 : k1 = k
    · subst h1
      by_cases h : k1 = k' <;> simp [mapGet, h]
    · simp only [if_neg h1]
      by_cases h2 : k1 = k'
      · subst h2
        have : k ≠ k1 := fun e => h1 e.symm
        simp [mapGet, this]
      · have ih' : mapGet (mapInsert m k a) k' = if k = k' then some a else mapGet m k' := ih
        simp only [mapGet, List.find?_cons, h2, decide_false] at ih' ⊢
        exact ih'

theorem mapInsert_keys (m : List (κ × α)) (k : κ) (a : α) :
    ∀ x, x ∈ (mapInsert m k a).map (·.1) ↔ x = k ∨ x ∈ m.map (·.1) := by
  induction m with
  | nil => simp [mapInsert]
  | cons p m ih =>
    intro x
    simp only [mapInsert]
    split
    · rename_i h; subst h; simp
    · simp only [List.map_cons, List.mem_cons, ih x]; grind

theorem mapInsert_nodup (m : List (κ × α)) (k : κ) (a : α) (h : (m.map (·.1)).Nodup) :
    ((mapInsert m k a).map (·.1)).Nodup := by
  induction m with
  | nil => simp [mapInsert]
  | cons p m ih =>
    simp only [List.map_cons, List.nodup_cons] at h
    simp only [mapInsert]
    split
    · rename_i hk; subst hk; simpa using h
    · rename_i hk
      simp only [List.map_cons, List.nodup_cons]
      refine ⟨?_, ih h.2⟩
      rw [mapInsert_keys]
      rintro (e | e)
      · exact hk e
      · exact h.1 e

theorem mem_iff_mapGet {m : List (κ × α)} (h : (m.map (·.1)).Nodup) (k : κ) (a : α) :
    (k, a) ∈ m ↔ mapGet m k = some a := by
  induction m with
  | nil => simp [mapGet]
  | cons p m ih =>
    obtain ⟨k1, a1⟩ := p
    simp only [List.map_cons, List.nodup_cons] at h
    by_cases h1 : k1 = k
    · subst h1
      simp only [mapGet, List.mem_cons, Prod.mk.injEq, true_and, List.find?_cons, decide_true,
        Option.map_some, Option.some.injEq]
      constructor
      · rintro (e | e)
        · exact e.symm
        · exact absurd (List.mem_map_of_mem (f := (·.1)) e) h.1
      · intro e; exact .inl e.symm
    · have ih' := ih h.2
      simp only [mapGet, List.mem_cons, Prod.mk.injEq, List.find?_cons, h1, decide_false] at ih' ⊢
      rw [← ih']
      constructor
      · rintro (⟨e, _⟩ | e)
        · exact absurd e.symm h1
        · exact e
      · exact .inr

/-- Insertion of a list of pairs. -/
def insertAll (m : List (κ × α)) (l : List (κ × α)) : List (κ × α) :=
  l.foldl (fun m p => mapInsert m p.1 p.2) m

theorem insertAll_nodup (l m : List (κ × α)) (h : (m.map (·.1)).Nodup) : ((insertAll m l).map (·.1)).Nodup := by
  induction l generalizing m with
  | nil => exact h
  | cons p l ih => exact ih _ (mapInsert_nodup m _ _ h)

theorem insertAll_append (m l l' : List (κ × α)) : insertAll m (l ++ l') = insertAll (insertAll m l) l' := by
  simp [insertAll]

theorem insertAll_get_sound (l : List (κ × α)) : ∀ (m : List (κ × α)) (k : κ) (a : α),
    mapGet (insertAll m l) k = some a → (k, a) ∈ l ∨ mapGet m k = some a := by
  induction l with
  | nil => intro m k a h; exact .inr h
  | cons p l ih =>
    intro m k a h
    rcases ih _ k a h with h | h
    · exact .inl (by simp [h])
    · rw [mapGet_insert] at h
      split at h
      · rename_i hk
        obtain ⟨p1, p2⟩ := p
        simp only at hk
        cases h; subst hk
        exact .inl (by simp)
      · exact .inr h

theorem insertAll_get_complete (l : List (κ × α)) : ∀ (m : List (κ × α)) (k : κ),
    ((∃ a, (k, a) ∈ l) ∨ (mapGet m k).isSome) → (mapGet (insertAll m l) k).isSome := by
  induction l with
  | nil =>
    intro m k h
    rcases h with ⟨a, h⟩ | h
    · simp at h
    · exact h
  | cons p l ih =>
    intro m k h
    apply ih
    rw [mapGet_insert]
    rcases h with ⟨a, h⟩ | h
    · rw [List.mem_cons] at h
      rcases h with h | h
      · right; cases h; simp
      · exact .inl ⟨a, h⟩
    · right; split
      · rfl
      · exact h

end Maps

/-! ## The maps of a schema document -/

/-- The pairs that `extractSchemaMap` inserts for an entry. -/
def schemaPairs (e : Entry) : List (Option (List Char) × Value) :=
  if e.key.asStr = some (chars! "schema") then
    match e.value.payload with
    | some (.object ses _) => ses.map fun se => (typeKey se.key, se.value)
    | _ => []
  else []

theorem extractSchemaMap_eq (t : Option Tag) (es : List Entry) (sp s : Option Span) :
    extractSchemaMap (.mk t (some (.object es sp)) s) = insertAll [] (es.flatMap schemaPairs) := by
  have : ∀ m, es.foldl (fun m e =>
      if e.key.asStr = some (chars! "schema") then
        match e.value.payload with
        | some (.object ses _) => ses.foldl (fun m se => mapInsert m (typeKey se.key) se.value) m
        | _ => m
      else m) m = insertAll m (es.flatMap schemaPairs) := by
    induction es with
    | nil => intro m; rfl
    | cons e es ih =>
      intro m
      rw [List.foldl_cons, ih, List.flatMap_cons, insertAll_append]
      congr 1
      unfold schemaPairs
      split
      · split
        · simp [insertAll, List.foldl_map]
        · rfl
      · rfl
  exact this []

theorem extractSchemaMap_nodup (v : Value) : ((extractSchemaMap v).map (·.1)).Nodup := by
  cases v with
  | mk t p s =>
    cases p with
    | none => exact List.nodup_nil
    | some p =>
      cases p with
      | scalar => exact List.nodup_nil
      | sequence => exact List.nodup_nil
      | object es sp => rw [extractSchemaMap_eq]; exact insertAll_nodup _ _ List.nodup_nil

theorem typeKey_iff (k : Value) (name : Option (List Char)) : typeKey k = name ↔ IsTypeKey k name := by
  cases k with
  | mk t p s =>
    have hu : Value.isUnit (.mk t p s) = true → Value.asStr (.mk t p s) = none := by
      cases t <;> cases p <;> simp [Value.isUnit, Value.asStr, Value.tag, Value.payload]
    unfold typeKey
    cases name with
    | none => simp only [IsTypeKey]; split <;> simp_all
    | some n => simp only [IsTypeKey]; split <;> simp_all

theorem defines_iff (doc : Value) (name : Option (List Char)) (ty : Value) :
    Defines doc name ty ↔ ∃ t es sp s, doc = .mk t (some (.object es sp)) s ∧ (name, ty) ∈ es.flatMap schemaPairs := by
  unfold Defines
  constructor
  · rintro ⟨t, es, sp, s, hd, e, he, hk, t', ses, sp', s', hv, e', he', hk', hv'⟩
    refine ⟨t, es, sp, s, hd, ?_⟩
    rw [List.mem_flatMap]
    refine ⟨e, he, ?_⟩
    rw [schemaPairs, if_pos hk, hv]
    simp only [Value.payload, List.mem_map]
    exact ⟨e', he', by rw [(typeKey_iff _ _).2 hk', hv']⟩
  · rintro ⟨t, es, sp, s, hd, hm⟩
    refine ⟨t, es, sp, s, hd, ?_⟩
    rw [List.mem_flatMap] at hm
    obtain ⟨e, he, hm⟩ := hm
    unfold schemaPairs at hm
    split at hm
    · rename_i hk
      refine ⟨e, he, hk, ?_⟩
      cases hv : e.value with
      | mk t' p' s' =>
        rw [hv] at hm
        cases p' with
        | none => simp [Value.payload] at hm
        | some p' =>
          cases p' with
          | scalar => simp [Value.payload] at hm
          | sequence => simp [Value.payload] at hm
          | object ses sp' =>
            simp only [Value.payload, List.mem_map] at hm
            obtain ⟨e', he', hm⟩ := hm
            cases hm
            exact ⟨t', ses, sp', s', rfl, e', he', (typeKey_iff _ _).1 rfl, rfl⟩
    · simp at hm

theorem get_defines {doc : Value} {name : Option (List Char)} {ty : Value}
    (h : mapGet (extractSchemaMap doc) name = some ty) : Defines doc name ty := by
  rw [defines_iff]
  cases doc with
  | mk t p s =>
    cases p with
    | none => simp [extractSchemaMap, Value.payload, mapGet] at h
    | some p =>
      cases p with
      | scalar => simp [extractSchemaMap, Value.payload, mapGet] at h
      | sequence => simp [extractSchemaMap, Value.payload, mapGet] at h
      | object es sp =>
        rw [extractSchemaMap_eq] at h
        refine ⟨t, es, sp, s, rfl, ?_⟩
        rcases insertAll_get_sound _ _ _ _ h with h | h
        · exact h
        · simp [mapGet] at h

theorem defines_has {doc : Value} {name : Option (List Char)} {ty : Value} (h : Defines doc name ty) :
    ∃ ty', mapGet (extractSchemaMap doc) name = some ty' := by
  rw [defines_iff] at h
  obtain ⟨t, es, sp, s, rfl, hm⟩ := h
  rw [extractSchemaMap_eq]
  exact Option.isSome_iff_exists.1 (insertAll_get_complete _ _ _ (.inl ⟨_, hm⟩))

theorem defines_get {doc : Value} (hu : UniqueTypes doc) (name : Option (List Char)) (ty : Value) :
    mapGet (extractSchemaMap doc) name = some ty ↔ Defines doc name ty := by
  constructor
  · exact get_defines
  · intro h
    obtain ⟨ty', h'⟩ := defines_has h
    rw [h', hu _ _ _ (get_defines h') h]

/-- The pair that `extractObjectFields` inserts for an entry. -/
def fieldPairs (e : Entry) : List (List Char × Value) :=
  match e.key.asStr with
  | some name => [(name, e.value)]
  | none => []

theorem extractObjectFields_eq (t : Option Tag) (es : List Entry) (sp s : Option Span) :
    extractObjectFields (.mk t (some (.object es sp)) s) = insertAll [] (es.flatMap fieldPairs) := by
  have : ∀ m, es.foldl (fun m e => match e.key.asStr with
      | some name => mapInsert m name e.value
      | none => m) m = insertAll m (es.flatMap fieldPairs) := by
    induction es with
    | nil => intro m; rfl
    | cons e es ih =>
      intro m
      rw [List.foldl_cons, ih, List.flatMap_cons, insertAll_append]
      congr 1
      unfold fieldPairs
      cases e.key.asStr <;> rfl
  exact this []

theorem extractObjectFields_nodup (v : Value) : ((extractObjectFields v).map (·.1)).Nodup := by
  cases v with
  | mk t p s =>
    cases p with
    | none => exact List.nodup_nil
    | some p =>
      cases p with
      | scalar => exact List.nodup_nil
      | sequence => exact List.nodup_nil
      | object es sp => rw [extractObjectFields_eq]; exact insertAll_nodup _ _ List.nodup_nil

theorem hasEntry_iff (ty : Value) (name : List Char) (v : Value) :
    HasEntry ty name v ↔ ∃ t es sp s, ty = .mk t (some (.object es sp)) s ∧ (name, v) ∈ es.flatMap fieldPairs := by
  have key : ∀ e : Entry, (name, v) ∈ fieldPairs e ↔ e.key.asStr = some name ∧ e.value = v := by
    intro e
    unfold fieldPairs
    cases h : e.key.asStr with
    | none => simp
    | some n => simp only [List.mem_singleton, Prod.mk.injEq, Option.some.injEq]; grind
  simp only [HasEntry, List.mem_flatMap, key]

theorem field_get_sound {ty : Value} {name : List Char} {v : Value}
    (h : mapGet (extractObjectFields ty) name = some v) : HasEntry ty name v := by
  rw [hasEntry_iff]
  cases ty with
  | mk t p s =>
    cases p with
    | none => simp [extractObjectFields, Value.payload, mapGet] at h
    | some p =>
      cases p with
      | scalar => simp [extractObjectFields, Value.payload, mapGet] at h
      | sequence => simp [extractObjectFields, Value.payload, mapGet] at h
      | object es sp =>
        rw [extractObjectFields_eq] at h
        refine ⟨t, es, sp, s, rfl, ?_⟩
        rcases insertAll_get_sound _ _ _ _ h with h | h
        · exact h
        · simp [mapGet] at h

theorem field_has {ty : Value} {name : List Char} {v : Value} (h : HasEntry ty name v) :
    ∃ v', mapGet (extractObjectFields ty) name = some v' := by
  rw [hasEntry_iff] at h
  obtain ⟨t, es, sp, s, rfl, hm⟩ := h
  rw [extractObjectFields_eq]
  exact Option.isSome_iff_exists.1 (insertAll_get_complete _ _ _ (.inl ⟨_, hm⟩))

theorem field_get {ty : Value} (hu : UniqueEntries ty) (name : List Char) (v : Value) :
    mapGet (extractObjectFields ty) name = some v ↔ HasEntry ty name v := by
  constructor
  · exact field_get_sound
  · intro h
    obtain ⟨v', h'⟩ := field_has h
    rw [h', hu _ _ _ (field_get_sound h') h]

theorem field_mapHas (ty : Value) (name : List Char) :
    mapHas (extractObjectFields ty) name = true ↔ ∃ v, HasEntry ty name v := by
  unfold mapHas
  rw [Option.isSome_iff_exists]
  constructor
  · rintro ⟨v, h⟩; exact ⟨v, field_get_sound h⟩
  · rintro ⟨v, h⟩; exact field_has h

theorem mem_variants (ty : Value) (name : List Char) :
    name ∈ extractEnumVariants ty ↔ ∃ v, HasEntry ty name v := by
  cases ty with
  | mk t p s =>
    unfold extractEnumVariants HasEntry
    cases p with
    | none => simp [Value.payload]
    | some p =>
      cases p with
      | scalar => simp [Value.payload]
      | sequence => simp [Value.payload]
      | object es sp =>
        simp only [Value.payload, List.mem_filterMap]
        constructor
        · rintro ⟨e, he, hk⟩; exact ⟨_, _, es, _, _, rfl, e, he, hk, rfl⟩
        · rintro ⟨v, t', es', sp', s', heq, e, he, hk, _⟩
          cases heq; exact ⟨e, he, hk⟩

theorem schema_mapHas (doc : Value) (name : Option (List Char)) :
    mapHas (extractSchemaMap doc) name = true ↔ ∃ ty, Defines doc name ty := by
  unfold mapHas
  rw [Option.isSome_iff_exists]
  constructor
  · rintro ⟨v, h⟩; exact ⟨v, get_defines h⟩
  · rintro ⟨v, h⟩; exact defines_has h

/-! ## The comparison -/

theorem compareTypeDefinitions_acc (o : Order) (n : Option (List Char)) (b l : Value) (c : Changes) :
    compareTypeDefinitions o n b l c =
      ⟨c.breaking ++ (compareTypeDefinitions o n b l {}).breaking,
       c.additive ++ (compareTypeDefinitions o n b l {}).additive, c.patch⟩ := by
  unfold compareTypeDefinitions
  split
  · simp
  · simp only [compareObjectFields, compareEnumVariants]
    split <;> split <;> simp

theorem mem_fold (o : Order) (ls bs : List (Option (List Char) × Value)) : ∀ (c : Changes) (x : Change),
    (x ∈ (bs.foldl (compareStep o ls) c).breaking ↔ x ∈ c.breaking ∨ ∃ p ∈ bs, ∃ lt, mapGet ls p.1 = some lt ∧
          x ∈ (compareTypeDefinitions o p.1 p.2 lt {}).breaking) ∧
    (x ∈ (bs.foldl (compareStep o ls) c).additive ↔ x ∈ c.additive ∨ ∃ p ∈ bs, ∃ lt, mapGet ls p.1 = some lt ∧
          x ∈ (compareTypeDefinitions o p.1 p.2 lt {}).additive) ∧
    (bs.foldl (compareStep o ls) c).patch = c.patch := by
  induction bs with
  | nil => intro c x; simp
  | cons p bs ih =>
    intro c x
    rw [List.foldl_cons]
    cases hg : mapGet ls p.1 with
    | none =>
      have hst : compareStep o ls c p = c := by simp [compareStep, hg]
      rw [hst]
      have := ih c x
      refine ⟨this.1.trans ?_, this.2.1.trans ?_, this.2.2⟩ <;> simp [hg]
    | some lt =>
      have hst : compareStep o ls c p = compareTypeDefinitions o p.1 p.2 lt c := by simp [compareStep, hg]
      rw [hst]
      have := ih (compareTypeDefinitions o p.1 p.2 lt c) x
      have hacc := compareTypeDefinitions_acc o p.1 p.2 lt c
      refine ⟨this.1.trans ?_, this.2.1.trans ?_, this.2.2.trans (by rw [hacc])⟩
      · rw [hacc]; simp [hg, or_assoc]
      · rw [hacc]; simp [hg, or_assoc]

theorem ord_mem (o : Order) {α : Type} (l : List α) (a : α) : a ∈ o.ord l ↔ a ∈ l := (o.perm l).mem_iff

theorem mem_breaking (o : Order) (b l : Value) (x : Change) :
    x ∈ (compareSchemas o b l).breaking ↔
      (∃ name, (∃ ty, Defines b name ty) ∧ (¬ ∃ ty, Defines l name ty) ∧ x = .removedType name) ∨
      (∃ name tb tl, mapGet (extractSchemaMap b) name = some tb ∧ mapGet (extractSchemaMap l) name = some tl ∧
        x ∈ (compareTypeDefinitions o name tb tl {}).breaking) := by
  unfold compareSchemas
  dsimp only
  rw [(mem_fold o _ _ _ x).1]
  apply or_congr
  · simp only [List.mem_map, List.mem_filter, ord_mem, Bool.not_eq_true', Prod.exists]
    constructor
    · rintro ⟨k, v, ⟨hm, hn⟩, rfl⟩
      refine ⟨k, ⟨v, get_defines ((mem_iff_mapGet (extractSchemaMap_nodup b) _ _).1 hm)⟩, ?_, rfl⟩
      rw [← schema_mapHas, hn]; simp
    · rintro ⟨k, ⟨ty, hb⟩, hl, rfl⟩
      obtain ⟨ty', h⟩ := defines_has hb
      refine ⟨k, ty', ⟨(mem_iff_mapGet (extractSchemaMap_nodup b) _ _).2 h, ?_⟩, rfl⟩
      rw [← schema_mapHas] at hl
      simpa using hl
  · constructor
    · rintro ⟨⟨k, v⟩, hm, lt, hl, hx⟩
      rw [ord_mem] at hm
      exact ⟨k, v, lt, (mem_iff_mapGet (extractSchemaMap_nodup b) _ _).1 hm, hl, hx⟩
    · rintro ⟨k, tb, tl, hb, hl, hx⟩
      exact ⟨(k, tb), by rw [ord_mem]; exact (mem_iff_mapGet (extractSchemaMap_nodup b) _ _).2 hb, tl, hl, hx⟩

theorem hasTag_iff (v : Value) (n : List Char) : HasTag v n ↔ v.tagName = some n := by
  cases v with
  | mk t p s =>
    unfold HasTag Value.tagName Value.tag
    cases t with
    | none => simp
    | some t => cases t; simp

theorem mem_objectFields (o : Order) (n : Option (List Char)) (b l : Value) (x : Change) :
    x ∈ (compareObjectFields o n b l {}).breaking ↔
      (∃ f, (∃ v, HasEntry b f v) ∧ (¬ ∃ v, HasEntry l f v) ∧ x = .removedField n f) ∨
      (∃ f v, mapGet (extractObjectFields l) f = some v ∧ (¬ ∃ v, HasEntry b f v) ∧
        isOptionalField v = false ∧ x = .addedRequired n f) := by
  unfold compareObjectFields
  simp only [List.nil_append, List.mem_append, List.mem_map, List.mem_filter, ord_mem, Bool.not_eq_true',
    Prod.exists]
  apply or_congr
  · constructor
    · rintro ⟨k, v, ⟨hm, hn⟩, rfl⟩
      refine ⟨k, ⟨v, field_get_sound ((mem_iff_mapGet (extractObjectFields_nodup b) _ _).1 hm)⟩, ?_, rfl⟩
      rw [← field_mapHas, hn]; simp
    · rintro ⟨k, ⟨v, hb⟩, hl, rfl⟩
      obtain ⟨v', h⟩ := field_has hb
      refine ⟨k, v', ⟨(mem_iff_mapGet (extractObjectFields_nodup b) _ _).2 h, ?_⟩, rfl⟩
      rw [← field_mapHas] at hl
      simpa using hl
  · constructor
    · rintro ⟨k, v, ⟨⟨hm, hn⟩, ho⟩, rfl⟩
      refine ⟨k, v, (mem_iff_mapGet (extractObjectFields_nodup l) _ _).1 hm, ?_, ho, rfl⟩
      rw [← field_mapHas, hn]; simp
    · rintro ⟨k, v, hm, hn, ho, rfl⟩
      refine ⟨k, v, ⟨⟨(mem_iff_mapGet (extractObjectFields_nodup l) _ _).2 hm, ?_⟩, ho⟩, rfl⟩
      rw [← field_mapHas] at hn
      simpa using hn

theorem mem_typeDefinitions (o : Order) (n : Option (List Char)) (b l : Value) (hu : UniqueEntries l) (x : Change) :
    x ∈ (compareTypeDefinitions o n b l {}).breaking ↔
      (b.tagName ≠ l.tagName ∧ x = .changedTag n b.tagName l.tagName) ∨
      (HasTag b (chars! "object") ∧ HasTag l (chars! "object") ∧
        ((∃ f v, HasEntry b f v ∧ (∀ v, ¬ HasEntry l f v) ∧ x = .removedField n f) ∨
         (∃ f v, HasEntry l f v ∧ (∀ v, ¬ HasEntry b f v) ∧ ¬ HasTag v (chars! "optional") ∧
            ¬ HasTag v (chars! "default") ∧ x = .addedRequired n f))) ∨
      (HasTag b (chars! "enum") ∧ HasTag l (chars! "enum") ∧
        ∃ f v, HasEntry b f v ∧ (∀ v, ¬ HasEntry l f v) ∧ x = .removedVariant n f) := by
  have hopt : ∀ v, isOptionalField v = false ↔
      ¬ HasTag v (chars! "optional") ∧ ¬ HasTag v (chars! "default") := by
    intro v
    rw [hasTag_iff, hasTag_iff]
    unfold isOptionalField
    cases v.tagName with
    | none => simp
    | some t => simp
  have hvar : x ∈ (compareEnumVariants n b l {}).breaking ↔
      ∃ f v, HasEntry b f v ∧ (∀ v, ¬ HasEntry l f v) ∧ x = .removedVariant n f := by
    unfold compareEnumVariants
    simp only [List.nil_append, List.mem_map, List.mem_filter, Bool.not_eq_true', List.contains_eq_mem,
      decide_eq_false_iff_not, mem_variants, not_exists]
    constructor
    · rintro ⟨f, ⟨⟨v, h1⟩, h2⟩, rfl⟩; exact ⟨f, v, h1, h2, rfl⟩
    · rintro ⟨f, v, h1, h2, rfl⟩; exact ⟨f, ⟨⟨v, h1⟩, h2⟩, rfl⟩
  have hobj := mem_objectFields o n b l x
  simp only [hasTag_iff]
  unfold compareTypeDefinitions
  by_cases ht : b.tagName = l.tagName
  · simp only [ht, ne_eq, not_true_eq_false, if_false, false_and, false_or, and_self_left]
    by_cases h1 : l.tagName = some (chars! "object")
    · have h2 : ¬ (some (chars! "object") = some (chars! "enum")) := by decide
      simp only [h1, if_true, true_and, h2, if_false, false_and, or_false]
      rw [hobj]
      apply or_congr
      · simp only [not_exists]
        constructor
        · rintro ⟨f, ⟨v, ha⟩, hb, hx⟩; exact ⟨f, v, ha, hb, hx⟩
        · rintro ⟨f, v, ha, hb, hx⟩; exact ⟨f, ⟨v, ha⟩, hb, hx⟩
      · simp only [field_get hu, hopt, not_exists, and_assoc, hasTag_iff]
    · simp only [h1, if_false, false_and, false_or]
      by_cases h2 : l.tagName = some (chars! "enum")
      · simp only [h2, if_true, true_and]; exact hvar
      · simp [h2]
  · have hno : ∀ t : List Char, ¬ (b.tagName = some t ∧ l.tagName = some t) := by
      rintro t ⟨e1, e2⟩; exact ht (e1.trans e2.symm)
    simp only [ne_eq, ht, not_false_eq_true, if_true, List.nil_append, List.mem_singleton, true_and]
    constructor
    · exact .inl
    · rintro (h | ⟨h1, h2, _⟩ | ⟨h1, h2, _⟩)
      · exact h
      · exact absurd ⟨h1, h2⟩ (hno _)
      · exact absurd ⟨h1, h2⟩ (hno _)

theorem filter_none {α : Type} (p : α → Bool) (l : List α) (h : ∀ a ∈ l, p a = false) : l.filter p = [] := by
  rw [List.filter_eq_nil_iff]
  intro a ha; simp [h a ha]

theorem mapHas_of_mem {κ α : Type} [DecidableEq κ] {m : List (κ × α)} {p : κ × α} (h : p ∈ m) :
    mapHas m p.1 = true := by
  unfold mapHas mapGet
  rw [Option.isSome_map, List.find?_isSome]
  exact ⟨p, h, by simp⟩

theorem compareTypeDefinitions_self (o : Order) (n : Option (List Char)) (v : Value) (c : Changes) :
    compareTypeDefinitions o n v v c = c := by
  have h1 : compareObjectFields o n v v c = c := by
    have : ∀ p ∈ o.ord (extractObjectFields v), (!mapHas (extractObjectFields v) p.1) = false := by
      intro p hp
      rw [ord_mem] at hp
      simp [mapHas_of_mem hp]
    simp [compareObjectFields, filter_none _ _ this]
  have h2 : compareEnumVariants n v v c = c := by
    have : ∀ x ∈ extractEnumVariants v, (!(extractEnumVariants v).contains x) = false := by
      intro x hx; simp [hx]
    unfold compareEnumVariants
    simp only [filter_none _ _ this, List.map_nil, List.append_nil]
  unfold compareTypeDefinitions
  simp only [ne_eq, not_true_eq_false, if_false, h1]
  split <;> split <;> first | rfl | exact h2

theorem compareSchemas_self (o : Order) (v : Value) : compareSchemas o v v = {} := by
  unfold compareSchemas
  have hn : ∀ p ∈ o.ord (extractSchemaMap v), (!mapHas (extractSchemaMap v) p.1) = false := by
    intro p hp
    rw [ord_mem] at hp
    simp [mapHas_of_mem hp]
  simp only [filter_none _ _ hn, List.map_nil]
  have : ∀ (l : List (Option (List Char) × Value)) (c : Changes),
      (∀ p ∈ l, mapGet (extractSchemaMap v) p.1 = some p.2) →
      l.foldl (compareStep o (extractSchemaMap v)) c = c := by
    intro l
    induction l with
    | nil => intro c _; rfl
    | cons p l ih =>
      intro c h
      have hst : compareStep o (extractSchemaMap v) c p = c := by
        simp [compareStep, h p (by simp), compareTypeDefinitions_self]
      rw [List.foldl_cons, hst]
      exact ih c (fun q hq => h q (by simp [hq]))
  apply this
  intro p hp
  rw [ord_mem] at hp
  exact (mem_iff_mapGet (extractSchemaMap_nodup v) _ _).1 hp

/-! ## Versions -/

theorem showLoop_decimal : ∀ f n, n < f → showLoop f n = decimal n
  | 0, n, h => by omega
  | f + 1, n, h => by
    rw [showLoop, decimal]
    split
    · rfl
    · rw [showLoop_decimal f (n / 10) (by omega)]; rfl

theorem showNat_decimal (n : Nat) : showNat n = decimal n := showLoop_decimal _ _ (Nat.lt_succ_self n)

theorem decimal_noDot (n : Nat) : '.' ∉ decimal n := by
  intro h
  exact absurd (decimal_digits n _ h) (by decide)

theorem splitDots_last (a : List Char) (h : '.' ∉ a) : splitDots a = [a] := by
  induction a with
  | nil => rfl
  | cons c cs ih =>
    simp only [List.mem_cons, not_or] at h
    have hc : c ≠ '.' := fun e => h.1 e.symm
    simp only [splitDots, if_neg hc, ih h.2]

theorem splitDots_cons (a r : List Char) (h : '.' ∉ a) : splitDots (a ++ '.' :: r) = a :: splitDots r := by
  induction a with
  | nil => simp [splitDots]
  | cons c cs ih =>
    simp only [List.mem_cons, not_or] at h
    have hc : c ≠ '.' := fun e => h.1 e.symm
    simp only [List.cons_append, splitDots, if_neg hc, ih h.2]

theorem splitDots_version (a b c : Nat) : splitDots (versionText a b c) = [decimal a, decimal b, decimal c] := by
  rw [versionText, List.append_assoc, List.cons_append, splitDots_cons _ _ (decimal_noDot a),
    splitDots_cons _ _ (decimal_noDot b), splitDots_last _ (decimal_noDot c)]

theorem showVersion_eq (a b c : Nat) : showVersion a b c = versionText a b c := by
  simp [showVersion, versionText, showNat_decimal]

/-! ## The schema declaration -/

theorem isSchemaTag_iff (k : Value) : isSchemaTag k = true ↔ HasTag k (chars! "schema") := by
  rw [hasTag_iff, isSchemaTag, beq_iff_eq]

theorem undeclared_iff (es es' : List Entry) :
    Undeclared es es' ↔ es' = es.filter fun e => !isSchemaTag e.key := by
  constructor
  · intro h
    induction h with
    | nil => rfl
    | drop hd _ ih => rw [← isSchemaTag_iff] at hd; simp [hd, ih]
    | keep hd _ ih => rw [← isSchemaTag_iff] at hd; simp [hd, ih]
  · rintro rfl
    induction es with
    | nil => exact .nil
    | cons e es ih =>
      rw [List.filter_cons]
      by_cases h : isSchemaTag e.key = true
      · simp only [h]; exact .drop ((isSchemaTag_iff _).1 h) ih
      · simp only [h]; exact .keep (fun h' => h ((isSchemaTag_iff _).2 h')) ih

end Styx.Cli
