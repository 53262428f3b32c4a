import Verif.Schema.ReportSpec
import Verif.Schema.Conform

/-!
# What validating an object reports
-/

namespace Styx.Schema

variable {F : Type} {E : Env F} {sf : SchemaFile F}

theorem fieldPath_eq (path key : List Char) : fieldPath path key = pathAt path key := by
  cases path with
  | nil => rfl
  | cons c cs =>
    have : pathAt (c :: cs) key = (c :: cs) ++ ['.'] ++ key := rfl
    rw [this, fieldPath]; simp

theorem mergeAll_errors {α : Type} {f : α → Option Result} {P : α → List Err → Prop}
    (hf : ∀ x r, f x = some r → P x r.errors) : ∀ {xs : List α} {r}, mergeAll f xs = some r →
    ∃ parts : List (List Err), parts.length = xs.length ∧
      (∀ (i : Nat) x p, xs[i]? = some x → parts[i]? = some p → P x p) ∧ r.errors = parts.flatten
  | [], r, h => by
    simp only [mergeAll, Option.some.injEq] at h
    subst h
    exact ⟨[], rfl, by simp, rfl⟩
  | x :: xs, r, h => by
    simp only [mergeAll, Option.bind_eq_some_iff, Option.map_eq_some_iff] at h
    obtain ⟨a, ha, b, hb, rfl⟩ := h
    obtain ⟨parts, h1, h2, h3⟩ := mergeAll_errors hf hb
    refine ⟨a.errors :: parts, by simp [h1], ?_, by simp [Result.merge, h3]⟩
    intro i y p hy hp
    cases i with
    | zero =>
      simp only [List.getElem?_cons_zero, Option.some.injEq] at hy hp
      subst hy hp
      exact hf _ _ ha
    | succ i =>
      simp only [List.getElem?_cons_succ] at hy hp
      exact h2 i y p hy hp

theorem validateEntry_report {n} {fields : List (ObjectKey × Schema F)} {path e r}
    (hk : ∀ f ∈ fields, ProperKey f.1)
    (h : validateEntry E (validate E sf n) fields path e = some r) :
    EntryReport E sf fields path e r.errors := by
  rw [validateEntry] at h
  split at h
  · next hn =>
    obtain rfl := Option.some.inj h
    refine .badKey ?_
    rintro ⟨shown, hs | hs⟩
    · exact keyOpt_none hn (Or.inr ⟨_, hs⟩)
    · exact keyOpt_none hn (Or.inl hs.1)
  · next key hkey =>
    dsimp only at h
    rw [fieldPath_eq] at h
    have rest : ∀ {shown r}, KeyShown e shown → NoNamedField fields e →
        (match catchAll fields with
          | some s => validate E sf n e.value s (pathAt path shown)
          | none => some (.fail (pathAt path shown) e.key.span (.unknownField shown (fieldNames fields)
              (suggestSimilar E.lower shown (fieldNames fields))))) = some r →
        EntryReport E sf fields path e r.errors := by
      intro shown r hs hno hc
      split at hc
      · next s hca =>
        obtain ⟨k, hm, ht⟩ := catchAll_some hca
        exact .additional hs hno hm ht hc
      · next hca =>
        obtain rfl := Option.some.inj hc
        refine .unknown hs hno ?_
        intro f hf
        have := catchAll_none hca f hf
        cases hft : f.1.tag with
        | none => rfl
        | some t => rw [hft] at this; cases this
    cases key with
    | none =>
      have hu := keyOpt_unit.mp hkey
      simp only [Option.getD_none] at h
      split at h
      · next s hl =>
        exfalso
        rcases hk _ (lookup_mem hl) with ⟨m, hm, he⟩ | ⟨t, he⟩
        · simp only [ObjectKey.named, ObjectKey.mk.injEq, Option.some.injEq] at he
          exact hm he.1.symm
        · simp [ObjectKey.named] at he
      · refine rest (Or.inr ⟨hu, rfl⟩) ?_ h
        intro name s hn
        rw [← keyOpt_named, hkey] at hn
        cases hn
    | some name =>
      have hn := keyOpt_named.mp hkey
      simp only [Option.getD_some] at h
      split at h
      · next s hl => exact .field hn (lookup_mem hl) h
      · next hl =>
        refine rest (Or.inl hn) ?_ h
        intro name' s hn'
        obtain rfl := hn.unique hn'
        exact lookup_none hl s

theorem notRequired_false {s : Schema F} : notRequired s = false ↔
    (∀ i, s ≠ Schema.optional i) ∧ ∀ t i, s ≠ Schema.default t i := by
  cases s <;> simp [notRequired]

theorem missingFields_mem {fields : List (ObjectKey × Schema F)} (hk : ∀ f ∈ fields, ProperKey f.1)
    {es : List Entry} {path sp err} :
    err ∈ (missingFields fields (es.filterMap keyOpt) path sp).errors ↔
      IsMissing fields es path sp err := by
  have seen : ∀ name, (es.filterMap keyOpt).contains (some name) = true ↔ ∃ e ∈ es, KeyIs e name := by
    intro name
    rw [List.contains_iff_mem, List.mem_filterMap]
    simp only [keyOpt_named]
  simp only [missingFields, List.mem_filterMap]
  constructor
  · rintro ⟨⟨k, s⟩, hm, h⟩
    rcases hk _ hm with ⟨name, _, he⟩ | ⟨t, he⟩
    · simp only at he
      subst he
      simp only at h
      split at h
      · cases h
      · next hc =>
        simp only [Bool.or_eq_true, not_or, Bool.not_eq_true] at hc
        obtain ⟨h1, h2⟩ := notRequired_false.mp hc.2
        refine ⟨name, s, hm, ?_, h1, h2, ?_⟩
        · intro e he hke
          have := (seen name).mpr ⟨e, he, hke⟩
          rw [this] at hc
          exact Bool.noConfusion hc.1
        · rw [← fieldPath_eq]; exact (Option.some.inj h).symm
    · simp only at he
      subst he
      cases h
  · rintro ⟨name, s, hm, hno, h1, h2, rfl⟩
    refine ⟨_, hm, ?_⟩
    have hc : (es.filterMap keyOpt).contains (some name) = false := by
      rw [Bool.eq_false_iff]
      intro h
      obtain ⟨e, he, hke⟩ := (seen name).mp h
      exact hno e he hke
    simp only [hc, notRequired_false.mpr ⟨h1, h2⟩, Bool.or_false, Bool.false_eq_true, if_false,
      fieldPath_eq]

theorem nodup_filterMap {α β : Type} {f : α → Option β} : ∀ {l : List α}, l.Nodup →
    (∀ x ∈ l, ∀ y ∈ l, ∀ b, f x = some b → f y = some b → x = y) → (l.filterMap f).Nodup
  | [], _, _ => by simp
  | x :: l, hn, hi => by
    rw [List.nodup_cons] at hn
    have ih := nodup_filterMap hn.2
      (fun y hy z hz => hi y (List.mem_cons_of_mem _ hy) z (List.mem_cons_of_mem _ hz))
    cases hx : f x with
    | none => rwa [List.filterMap_cons_none hx]
    | some b =>
      rw [List.filterMap_cons_some hx, List.nodup_cons]
      refine ⟨?_, ih⟩
      intro hb
      obtain ⟨y, hy, hfy⟩ := List.mem_filterMap.mp hb
      obtain rfl := hi x (by simp) y (List.mem_cons_of_mem _ hy) b hx hfy
      exact hn.1 hy

theorem nodup_of_keys {K V : Type} {l : List (K × V)} (h : DistinctKeys l) : l.Nodup := by
  induction l with
  | nil => simp
  | cons x l ih =>
    rw [DistinctKeys, List.map_cons, List.nodup_cons] at h
    rw [List.nodup_cons]
    exact ⟨fun hx => h.1 (List.mem_map_of_mem hx), ih h.2⟩

theorem missingFields_nodup {fields : List (ObjectKey × Schema F)} (hk : ∀ f ∈ fields, ProperKey f.1)
    (hd : DistinctKeys fields) {seen path sp} : (missingFields fields seen path sp).errors.Nodup := by
  refine nodup_filterMap (nodup_of_keys hd) ?_
  rintro ⟨k, s⟩ hx ⟨k', s'⟩ hy b hb hb'
  rcases hk _ hx with ⟨n, _, he⟩ | ⟨t, he⟩ <;> simp only at he <;> subst he
  · rcases hk _ hy with ⟨n', _, he⟩ | ⟨t, he⟩ <;> simp only at he <;> subst he
    · simp only [Option.ite_none_left_eq_some, Option.some.injEq] at hb hb'
      have := hb.2.trans hb'.2.symm
      simp only [Err.mk.injEq, Kind.missingField.injEq] at this
      obtain rfl := this.2.2
      rw [distinct_unique hd hx hy]
    · cases hb'
  · cases hb

end Styx.Schema
