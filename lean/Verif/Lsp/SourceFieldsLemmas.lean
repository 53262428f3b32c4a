import Verif.Lsp.SourceFields
import Verif.Lsp.SourceFieldsSpec
import Verif.Lsp.TokenLemmas
import Verif.Props.Spans

/-!
# Lemmas about completion with a schema that cannot be read
-/

namespace Styx.Lsp

open Styx Styx.Spec Styx.Lsp.Spec

/-- The entries write the field. -/
def EntriesWrite (name : List Char) (w : Value) (es : List Entry) : Prop :=
  ∃ k u d, Entry.mk k u d ∈ es ∧ ((k.asStr = some name ∧ u = w) ∨ (k.isUnit = true ∧ Writes name w u))

theorem writes_object {name : List Char} {w : Value} {t : Option Tag} {es : List Entry} {psp sp : Option Span} :
    Writes name w (.mk t (some (.object es psp)) sp) ↔ EntriesWrite name w es := by
  constructor
  · intro h
    cases h with
    | field hm hk => exact ⟨_, _, _, hm, .inl ⟨hk, rfl⟩⟩
    | inner hm hk hw => exact ⟨_, _, _, hm, .inr ⟨hk, hw⟩⟩
  · rintro ⟨k, u, d, hm, ⟨hk, rfl⟩ | ⟨hk, hw⟩⟩
    · exact .field hm hk
    · exact .inner hm hk hw

theorem not_unit_of_asStr {k : Value} {n : List Char} (h : k.asStr = some n) : k.isUnit = false := by
  obtain ⟨t, p, sp⟩ := k
  cases t <;> cases p <;> simp_all [Value.asStr, Value.isUnit, Value.tag, Value.payload]

theorem entriesWrite_cons {name : List Char} {w : Value} {k u : Value} {d : Option (List Char)} {es : List Entry} :
    EntriesWrite name w (.mk k u d :: es) ↔
    (k.asStr = some name ∧ u = w) ∨ (k.isUnit = true ∧ Writes name w u) ∨ EntriesWrite name w es := by
  constructor
  · rintro ⟨k', u', d', hm, h⟩
    rcases List.mem_cons.mp hm with he | hm
    · cases he
      rcases h with h | h
      · exact .inl h
      · exact .inr (.inl h)
    · exact .inr (.inr ⟨_, _, _, hm, h⟩)
  · rintro (h | h | ⟨k', u', d', hm, h⟩)
    · exact ⟨_, _, _, List.mem_cons_self .., .inl h⟩
    · exact ⟨_, _, _, List.mem_cons_self .., .inr h⟩
    · exact ⟨_, _, _, List.mem_cons_of_mem _ hm, h⟩

/-- What is collected. -/
def Collected (source : List Char) (W : List Char → Value → Prop) (fs : List (List Char × List Char)) : Prop :=
  ∀ name text, (name, text) ∈ fs ↔ ∃ w sp raw, W name w ∧ w.span = some sp ∧ Covers source sp raw ∧ text = trim raw

theorem covers_slice {source : List Char} {sp : Span} {raw : List Char} (h : Covers source sp raw) :
    sliceBytes source sp.start sp.stop = some raw := by
  obtain ⟨a, b, rfl, h1, h2⟩ := h
  rw [h1, h2]
  exact sliceBytes_append a raw b

theorem writtenField_spec {source : List Char} {key value : Value}
    (h : ∀ sp, value.span = some sp → ∃ raw, Covers source sp raw) :
    ∃ fs, writtenField source key value = some fs ∧
      Collected source (fun name w => key.asStr = some name ∧ value = w) fs := by
  unfold writtenField
  cases hk : key.asStr with
  | none => exact ⟨[], rfl, fun name text => by simp⟩
  | some n =>
    cases hs : value.span with
    | none => exact ⟨[], rfl, fun name text => by simp [hs]⟩
    | some sp =>
      obtain ⟨raw, hc⟩ := h sp hs
      refine ⟨[(n, trim raw)], by simp [covers_slice hc], fun name text => ?_⟩
      simp only [List.mem_singleton, Prod.mk.injEq, Option.some.injEq]
      constructor
      · rintro ⟨rfl, rfl⟩
        exact ⟨value, sp, raw, ⟨rfl, rfl⟩, hs, hc, rfl⟩
      · rintro ⟨w, sp', raw', ⟨rfl, rfl⟩, h1, h2, rfl⟩
        rw [hs] at h1
        cases h1
        have := (covers_slice h2).symm.trans (covers_slice hc)
        cases this
        exact ⟨rfl, rfl⟩

mutual
theorem collectWritten_spec {source : List Char} : ∀ (v : Value),
    (∀ x sp, Node x v → x.span = some sp → ∃ raw, Covers source sp raw) →
    ∃ fs, collectWritten source v = some fs ∧ Collected source (fun name w => Writes name w v) fs
  | .mk t (some (.object es psp)) sp, h => by
    obtain ⟨fs, h1, h2⟩ := collectWrittenEntries_spec (source := source) es (by
      intro k u d hm x s hx hs
      exact h x s (.inside (.value hm) hx) hs)
    refine ⟨fs, by rw [collectWritten]; exact h1, fun name text => ?_⟩
    simp only [h2 name text, writes_object]
  | .mk t (some (.sequence items psp)) sp, _ => by
    refine ⟨[], by simp [collectWritten], fun name text => ?_⟩
    constructor
    · intro h; simp at h
    · rintro ⟨_, _, _, h, _⟩; cases h
  | .mk t (some (.scalar text k psp)) sp, _ => by
    refine ⟨[], by simp [collectWritten], fun name text => ?_⟩
    constructor
    · intro h; simp at h
    · rintro ⟨_, _, _, h, _⟩; cases h
  | .mk t none sp, _ => by
    refine ⟨[], by simp [collectWritten], fun name text => ?_⟩
    constructor
    · intro h; simp at h
    · rintro ⟨_, _, _, h, _⟩; cases h
theorem collectWrittenEntries_spec {source : List Char} : ∀ (es : List Entry),
    (∀ k u d, Entry.mk k u d ∈ es → ∀ x sp, Node x u → x.span = some sp → ∃ raw, Covers source sp raw) →
    ∃ fs, collectWrittenEntries source es = some fs ∧ Collected source (fun name w => EntriesWrite name w es) fs
  | [], _ => by
    refine ⟨[], by rw [collectWrittenEntries], fun name text => ?_⟩
    constructor
    · intro h; simp at h
    · rintro ⟨_, _, _, ⟨_, _, _, h, _⟩, _⟩; simp at h
  | .mk key value d :: es, h => by
    have hv := h key value d (List.mem_cons_self ..)
    obtain ⟨a, ha, ha'⟩ := writtenField_spec (source := source) (key := key) (value := value) (fun sp hs => hv value sp .self hs)
    obtain ⟨b0, hb0, hb0'⟩ := collectWritten_spec (source := source) value hv
    obtain ⟨c, hc, hc'⟩ := collectWrittenEntries_spec (source := source) es
      (fun k u d hm => h k u d (List.mem_cons_of_mem _ hm))
    have hb : ∃ b, (if key.isUnit then collectWritten source value else some []) = some b ∧
        Collected source (fun name w => key.isUnit = true ∧ Writes name w value) b := by
      by_cases hk : key.isUnit = true
      · refine ⟨b0, by rw [if_pos hk]; exact hb0, fun name text => ?_⟩
        simp only [hk, true_and, hb0' name text]
      · refine ⟨[], by rw [if_neg hk], fun name text => ?_⟩
        simp [hk]
    obtain ⟨b, hb, hb'⟩ := hb
    refine ⟨a ++ b ++ c, by rw [collectWrittenEntries, ha, hb, hc], fun name text => ?_⟩
    simp only [List.mem_append, ha' name text, hb' name text, hc' name text, entriesWrite_cons]
    constructor
    · rintro ((⟨w, sp, raw, h1, h2⟩ | ⟨w, sp, raw, h1, h2⟩) | ⟨w, sp, raw, h1, h2⟩)
      · exact ⟨w, sp, raw, .inl h1, h2⟩
      · exact ⟨w, sp, raw, .inr (.inl h1), h2⟩
      · exact ⟨w, sp, raw, .inr (.inr h1), h2⟩
    · rintro ⟨w, sp, raw, h1 | h1 | h1, h2⟩
      · exact .inl (.inl ⟨w, sp, raw, h1, h2⟩)
      · exact .inl (.inr ⟨w, sp, raw, h1, h2⟩)
      · exact .inr ⟨w, sp, raw, h1, h2⟩
end

/-! ## Paths -/

theorem mentions_entry {name : List Char} {w : Value} {t : Option Tag} {es : List Entry} {psp sp : Option Span}
    {k u : Value} {d : Option (List Char)}
    (h : Mentions name w (.mk t (some (.object es psp)) sp)) :
    Mentions name w (.mk t (some (.object (.mk k u d :: es) psp)) sp) := by
  cases h with
  | field hm hk => exact .field (List.mem_cons_of_mem _ hm) hk
  | inner hm hk hw => exact .inner (List.mem_cons_of_mem _ hm) hk hw

mutual
/-- What a step finds is mentioned. -/
theorem stepInto_some {name : List Char} {next : Value → Option Value} {r : Value} : ∀ (v : Value),
    stepInto name next v = some r → ∃ w, Mentions name w v ∧ next (unwrapWritten w) = some r
  | .mk t (some (.object es psp)) sp, h => by
    rw [stepInto] at h
    exact stepEntries_some t psp sp es h
  | .mk (some t) (some (.sequence items psp)) sp, h => by
    rw [stepInto] at h
    obtain ⟨u, hu, w, hw, hn⟩ := stepItems_some items h
    exact ⟨w, .item hu hw, hn⟩
  | .mk none (some (.sequence items psp)) sp, h => by simp [stepInto] at h
  | .mk t (some (.scalar text k psp)) sp, h => by cases t <;> simp [stepInto] at h
  | .mk t none sp, h => by cases t <;> simp [stepInto] at h
theorem stepItems_some {name : List Char} {next : Value → Option Value} {r : Value} : ∀ (vs : List Value),
    stepItems name next vs = some r → ∃ u ∈ vs, ∃ w, Mentions name w u ∧ next (unwrapWritten w) = some r
  | [], h => by simp [stepItems] at h
  | v :: vs, h => by
    rw [stepItems] at h
    split at h
    · exact ⟨v, List.mem_cons_self .., stepInto_some v h⟩
    · obtain ⟨u, hu, h⟩ := stepItems_some vs h
      exact ⟨u, List.mem_cons_of_mem _ hu, h⟩
theorem stepEntries_some {name : List Char} {next : Value → Option Value} {r : Value} (t : Option Tag)
    (psp sp : Option Span) : ∀ (es : List Entry),
    stepEntries name next es = some r →
    ∃ w, Mentions name w (.mk t (some (.object es psp)) sp) ∧ next (unwrapWritten w) = some r
  | [], h => by simp [stepEntries] at h
  | .mk key value d :: es, h => by
    rw [stepEntries] at h
    by_cases hk : key.asStr = some name
    · rw [if_pos hk] at h
      exact ⟨value, .field (List.mem_cons_self ..) hk, h⟩
    · rw [if_neg hk] at h
      by_cases hu : key.isUnit = true
      · rw [if_pos hu] at h
        split at h
        · rename_i r' hs
          cases h
          obtain ⟨w, hw, hn⟩ := stepInto_some value hs
          exact ⟨w, .inner (List.mem_cons_self ..) hu hw, hn⟩
        · obtain ⟨w, hw, hn⟩ := stepEntries_some t psp sp es h
          exact ⟨w, mentions_entry hw, hn⟩
      · rw [if_neg hu] at h
        obtain ⟨w, hw, hn⟩ := stepEntries_some t psp sp es h
        exact ⟨w, mentions_entry hw, hn⟩
end

mutual
/-- A step finds something if all that is written leads on. -/
theorem stepInto_isSome {name : List Char} {next : Value → Option Value} {w : Value} : ∀ (v : Value),
    Writes name w v → (∀ y, Mentions name y v → (next (unwrapWritten y)).isSome) → (stepInto name next v).isSome
  | .mk t (some (.object es psp)) sp, h, hn => by
    rw [stepInto]
    refine stepEntries_isSome t psp sp es (writes_object.mp h) hn
  | .mk (some t) (some (.sequence items psp)) sp, h, _ => by cases h
  | .mk none (some (.sequence items psp)) sp, h, _ => by cases h
  | .mk t (some (.scalar text k psp)) sp, h, _ => by cases h
  | .mk t none sp, h, _ => by cases h
theorem stepEntries_isSome {name : List Char} {next : Value → Option Value} {w : Value} (t : Option Tag)
    (psp sp : Option Span) : ∀ (es : List Entry), EntriesWrite name w es →
    (∀ y, Mentions name y (.mk t (some (.object es psp)) sp) → (next (unwrapWritten y)).isSome) →
    (stepEntries name next es).isSome
  | [], h, _ => by obtain ⟨_, _, _, h, _⟩ := h; simp at h
  | .mk key value d :: es, h, hn => by
    rw [stepEntries]
    by_cases hk : key.asStr = some name
    · rw [if_pos hk]
      exact hn value (.field (List.mem_cons_self ..) hk)
    · rw [if_neg hk]
      rcases entriesWrite_cons.mp h with ⟨hk', _⟩ | ⟨hu, hw⟩ | hw
      · exact absurd hk' hk
      · rw [if_pos hu]
        have := stepInto_isSome value hw (fun y hy => hn y (.inner (List.mem_cons_self ..) hu hy))
        split
        · simp
        · rename_i hs; rw [hs] at this; simp at this
      · have ih := stepEntries_isSome t psp sp es hw (fun y hy => hn y (mentions_entry hy))
        by_cases hu : key.isUnit = true
        · rw [if_pos hu]
          split
          · simp
          · exact ih
        · rw [if_neg hu]; exact ih
end

theorem writes_mentions {name : List Char} {w v : Value} (h : Writes name w v) : Mentions name w v := by
  induction h with
  | field hm hk => exact .field hm hk
  | inner hm hk _ ih => exact .inner hm hk ih

theorem unwrap_unmodified {w : Value} (h : Unmodified w) : unwrapWritten w = w := by
  have key : ∀ t : Tag, w.tag = some t → isWrapper t.name = false := by
    intro t ht
    obtain ⟨h1, h2, h3⟩ := h t.name (by simp [Value.tagName, ht])
    simp [isWrapper, h1, h2, h3]
  obtain ⟨t, p, sp⟩ := w
  cases t with
  | none => rw [unwrapWritten] <;> simp
  | some t =>
    have ht := key t rfl
    cases p with
    | none => rw [unwrapWritten] <;> simp
    | some p =>
      cases p with
      | scalar text k psp => rw [unwrapWritten] <;> simp
      | sequence items psp => rw [unwrapWritten]; simp [ht]
      | object es psp => rw [unwrapWritten]; simp [ht]

theorem unwrap_below {x u : Value} (h : BelowOptional x u) : unwrapWritten x = u := by
  induction h with
  | plain h => exact unwrap_unmodified h
  | optional ht _ ih =>
    rw [unwrapWritten]
    simp [isWrapper, ht, unwrapFirst, ih]

theorem followPath_leads {path : List (List Char)} {v w : Value} (h : Leads BelowOptional path v w) :
    followPath path v = some w := by
  induction h with
  | here => rfl
  | step hw hu hb hl ih =>
    rename_i name path v x u w
    rw [followPath]
    have hnext : followPath path (unwrapWritten x) = some w := by rw [unwrap_below hb]; exact ih
    have hsome := stepInto_isSome (next := followPath path) v hw (fun y hy => by rw [hu y hy, hnext]; rfl)
    cases hs : stepInto name (followPath path) v with
    | none => rw [hs] at hsome; simp at hsome
    | some r =>
      obtain ⟨y, hy, hn⟩ := stepInto_some v hs
      rw [hu y hy, hnext] at hn
      exact hn.symm

theorem node_trans {x y z : Value} (h1 : Node x y) (h2 : Node y z) : Node x z := by
  induction h2 with
  | self => exact h1
  | inside hc _ ih => exact .inside hc ih

theorem writes_node {name : List Char} {w v : Value} (h : Writes name w v) : Node w v := by
  induction h with
  | field hm _ => exact .inside (.value hm) .self
  | inner hm _ _ ih => exact .inside (.value hm) ih

theorem below_node {x u : Value} (h : BelowOptional x u) : Node u x := by
  induction h with
  | plain _ => exact .self
  | optional _ _ ih => exact .inside (.item (List.mem_cons_self ..)) ih

theorem leads_node {path : List (List Char)} {v w : Value} (h : Leads BelowOptional path v w) : Node w v := by
  induction h with
  | here => exact .self
  | step hw _ hb _ ih => exact node_trans (node_trans ih (below_node hb)) (writes_node hw)

theorem mentions_node {name : List Char} {w v : Value} (h : Mentions name w v) : Node w v := by
  induction h with
  | field hm _ => exact .inside (.value hm) .self
  | inner hm _ _ ih => exact .inside (.value hm) ih
  | item hm _ ih => exact .inside (.item hm) ih

mutual
theorem unwrapWritten_node : ∀ v : Value, Node (unwrapWritten v) v
  | .mk none p sp => by rw [unwrapWritten] <;> first | exact .self | simp
  | .mk (some t) none sp => by rw [unwrapWritten] <;> first | exact .self | simp
  | .mk (some t) (some (.scalar ..)) sp => by rw [unwrapWritten] <;> first | exact .self | simp
  | .mk (some t) (some (.sequence items psp)) sp => by
    rw [unwrapWritten]
    split
    · cases h : unwrapFirst items with
      | none => exact .self
      | some u =>
        obtain ⟨x, hx, hn⟩ := unwrapFirst_node items u h
        exact .inside (.item hx) hn
    · exact .self
  | .mk (some t) (some (.object es psp)) sp => by
    rw [unwrapWritten]
    split
    · cases h : unwrapUnit es with
      | none => exact .self
      | some u =>
        obtain ⟨k, x, d, hx, hn⟩ := unwrapUnit_node es u h
        exact .inside (.value hx) hn
    · exact .self
theorem unwrapFirst_node : ∀ (vs : List Value) (u : Value), unwrapFirst vs = some u → ∃ x ∈ vs, Node u x
  | [], u, h => by simp [unwrapFirst] at h
  | v :: vs, u, h => by
    simp only [unwrapFirst, Option.some.injEq] at h
    subst h
    exact ⟨v, List.mem_cons_self .., unwrapWritten_node v⟩
theorem unwrapUnit_node : ∀ (es : List Entry) (u : Value), unwrapUnit es = some u →
    ∃ k x d, Entry.mk k x d ∈ es ∧ Node u x
  | [], u, h => by simp [unwrapUnit] at h
  | .mk k x d :: es, u, h => by
    simp only [unwrapUnit] at h
    split at h
    · simp only [Option.some.injEq] at h
      subst h
      exact ⟨k, x, d, List.mem_cons_self .., unwrapWritten_node x⟩
    · obtain ⟨k', x', d', hm, hn⟩ := unwrapUnit_node es u h
      exact ⟨k', x', d', List.mem_cons_of_mem _ hm, hn⟩
end

theorem followPath_node : ∀ (path : List (List Char)) (v w : Value), followPath path v = some w → Node w v
  | [], v, w, h => by simp only [followPath, Option.some.injEq] at h; subst h; exact .self
  | name :: path, v, w, h => by
    obtain ⟨x, hm, hx⟩ := stepInto_some v h
    exact node_trans (followPath_node path _ _ hx) (node_trans (unwrapWritten_node x) (mentions_node hm))

theorem schemaEntry_find {tree v : Value} (h : SchemaEntry tree v) :
    ∃ es e, tree.asObject = some es ∧ (es.find? fun e => e.key.asStr = some (chars! "schema")) = some e ∧ e.value = v := by
  obtain ⟨t, a, k, d, b, psp, sp, rfl, hk, ha⟩ := h
  refine ⟨_, .mk k v d, rfl, ?_, rfl⟩
  rw [List.find?_append, List.find?_eq_none.mpr (by
    intro e he
    simpa using ha e he)]
  simp [Entry.key, hk]

theorem schemaEntry_node {tree v : Value} (h : SchemaEntry tree v) : Node v tree := by
  obtain ⟨t, a, k, d, b, psp, sp, rfl, _, _⟩ := h
  exact .inside (.value (d := d) (k := k) (by simp)) .self

end Styx.Lsp
