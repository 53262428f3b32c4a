import Verif.Schema.Lemmas

/-!
# On plain schemas the validator accepts exactly the values that conform
-/

namespace Styx.Schema

variable {F : Type} {E : Env F} {M : List Char → List Char → Prop} {sf : SchemaFile F}

theorem validateString_iff {v : Value} {c path} (hp : ∀ c', c = some c' → c'.pattern = none) :
    (validateString v c path).isValid = true ↔ Conforms E M sf v (.string c) := by
  rw [validateString]
  split
  · next h =>
    simp only [isValid_fail, Bool.false_eq_true, false_iff]
    intro hc
    cases hc
    exact scalarText_none h _ ‹_›
  · next text h =>
    rw [scalarText_iff] at h
    have key : Conforms E M sf v (.string c) ↔ StringOk M c text := by
      constructor
      · intro hc
        cases hc with
        | string ht ho => rwa [h.unique ht]
      · exact fun ho => .string h ho
    rw [key]
    split
    · simp [isValid_ok, StringOk]
    · next c' =>
      have := hp c' rfl
      simp only [isValid_merge, isValid_when, StringOk, Option.some.injEq, forall_eq', this]
      cases c'.minLen <;> cases c'.maxLen <;> simp

theorem validateInt_iff {v : Value} {c path} :
    (validateInt v c path).isValid = true ↔ Conforms E M sf v (.int c) := by
  rw [validateInt]
  split
  · next h =>
    simp only [isValid_fail, Bool.false_eq_true, false_iff]
    intro hc
    cases hc
    exact scalarText_none h _ ‹_›
  · next text h =>
    rw [scalarText_iff] at h
    split
    · next hn =>
      simp only [isValid_fail, Bool.false_eq_true, false_iff]
      intro hc
      cases hc with
      | int ht hi h1 h2 _ =>
        obtain rfl := h.unique ht
        rw [parseI128_iff.mpr ⟨hi, h1, h2⟩] at hn
        cases hn
    · next n hn =>
      obtain ⟨hi, h1, h2⟩ := parseI128_iff.mp hn
      have key : Conforms E M sf v (.int c) ↔ IntOk c n := by
        constructor
        · intro hc
          cases hc with
          | int ht hi' _ _ ho =>
            obtain rfl := h.unique ht
            obtain rfl := hi.unique hi'
            exact ho
        · exact fun ho => .int h hi h1 h2 ho
      rw [key]
      split
      · simp [isValid_ok, IntOk]
      · next c' =>
        simp only [isValid_merge, isValid_when, IntOk, Option.some.injEq, forall_eq']
        cases c'.min <;> cases c'.max <;> simp

theorem validateFloat_iff {v : Value} {c path} :
    (validateFloat E v c path).isValid = true ↔ Conforms E M sf v (.float c) := by
  rw [validateFloat]
  split
  · next h =>
    simp only [isValid_fail, Bool.false_eq_true, false_iff]
    intro hc
    cases hc
    exact scalarText_none h _ ‹_›
  · next text h =>
    rw [scalarText_iff] at h
    split
    · next hn =>
      simp only [isValid_fail, Bool.false_eq_true, false_iff]
      intro hc
      cases hc with
      | float ht hi _ =>
        obtain rfl := h.unique ht
        rw [hi] at hn
        cases hn
    · next n hn =>
      have key : Conforms E M sf v (.float c) ↔ FloatOk E c n := by
        constructor
        · intro hc
          cases hc with
          | float ht hi ho =>
            obtain rfl := h.unique ht
            rw [hn] at hi
            obtain rfl := Option.some.inj hi
            exact ho
        · exact fun ho => .float h hn ho
      rw [key]
      split
      · simp [isValid_ok, FloatOk]
      · next c' =>
        simp only [isValid_merge, isValid_when, FloatOk, Option.some.injEq, forall_eq']
        cases c'.min <;> cases c'.max <;> simp

theorem validateBool_iff {v : Value} {path} :
    (validateBool v path).isValid = true ↔ Conforms E M sf v .bool := by
  rw [validateBool]
  split
  · next text h =>
    rw [scalarText_iff] at h
    split
    · next hb => simp only [isValid_ok, true_iff]; exact .bool h hb
    · next hb =>
      simp only [isValid_fail, Bool.false_eq_true, false_iff]
      intro hc
      cases hc with
      | bool ht hb' => exact hb (by rwa [h.unique ht])
  · next h =>
    simp only [isValid_fail, Bool.false_eq_true, false_iff]
    intro hc
    cases hc
    exact scalarText_none h _ ‹_›

theorem validateUnit_iff {v : Value} {path} :
    (validateUnit v path).isValid = true ↔ IsUnitValue v := by
  rw [validateUnit, ← isUnit_iff]
  split
  · next h => simp [isValid_ok, h]
  · next h => simp [isValid_fail, h]

theorem validateLiteral_iff {v : Value} {t path} :
    (validateLiteral v t path).isValid = true ↔ Conforms E M sf v (.literal t) := by
  rw [validateLiteral]
  split
  · next text h =>
    rw [scalarText_iff] at h
    split
    · next hb => subst hb; simp only [isValid_ok, true_iff]; exact .literal h
    · next hb =>
      simp only [isValid_fail, Bool.false_eq_true, false_iff]
      intro hc
      cases hc with
      | literal ht => exact hb (h.unique ht)
  · next h =>
    simp only [isValid_fail, Bool.false_eq_true, false_iff]
    intro hc
    cases hc
    exact scalarText_none h _ ‹_›

/-- `rec` decides conformance, for plain schemas, wherever it returns. -/
def Agrees (E : Env F) (M : List Char → List Char → Prop) (sf : SchemaFile F)
    (rec : Value → Schema F → List Char → Option Result) : Prop :=
  ∀ v s p r, Plain sf s → rec v s p = some r → (r.isValid = true ↔ Conforms E M sf v s)

/-- Without flattening the fields are those listed. -/
theorem hasField_iff {fields : List (ObjectKey × Schema F)} (hp : ∀ f ∈ fields, Plain sf f.2)
    {k : ObjectKey} {s : Schema F} : HasField sf fields k s ↔ (k, s) ∈ fields := by
  constructor
  · intro h
    cases h with
    | own hm _ => exact hm
    | inline hm _ _ => have := hp _ hm; cases this
  · intro h
    refine .own h ?_
    intro inner e
    have := hp _ h
    simp only [e] at this
    cases this

theorem catchAll_some {fields : List (ObjectKey × Schema F)} {s} (h : catchAll fields = some s) :
    ∃ k, (k, s) ∈ fields ∧ k.tag.isSome := by
  simp only [catchAll, Option.map_eq_some_iff] at h
  obtain ⟨⟨k, s'⟩, h, rfl⟩ := h
  exact ⟨k, List.mem_of_find?_eq_some h, by simpa using List.find?_some h⟩

theorem catchAll_none {fields : List (ObjectKey × Schema F)} (h : catchAll fields = none) :
    ∀ f ∈ fields, f.1.tag.isSome = false := by
  simp only [catchAll, Option.map_eq_none_iff, List.find?_eq_none] at h
  intro f hf
  simpa using h f hf

theorem validateEntry_iff {rec} (hr : Agrees E M sf rec) {fields : List (ObjectKey × Schema F)}
    (hd : DistinctKeys fields) (hk : ∀ f ∈ fields, ProperKey f.1)
    (hc : ∀ f ∈ fields, ∀ g ∈ fields, f.1.tag.isSome → g.1.tag.isSome → f = g)
    (hp : ∀ f ∈ fields, Plain sf f.2) {path e r}
    (h : validateEntry E rec fields path e = some r) :
    r.isValid = true ↔ EntryConforms E M sf fields e := by
  rw [validateEntry] at h
  split at h
  · next hn =>
    obtain rfl := Option.some.inj h
    simp only [isValid_fail, Bool.false_eq_true, false_iff]
    intro hc
    cases hc with
    | named hk _ _ => exact keyOpt_none hn (Or.inr ⟨_, hk⟩)
    | additional hk _ _ _ => exact keyOpt_none hn hk
  · next key hkey =>
    -- the catch-all alternative, shared by named and unit keys
    have other : (∀ name s, KeyIs e name → (⟨some name, none⟩, s) ∉ fields) →
        (IsUnitValue e.key ∨ ∃ name, KeyIs e name) → ∀ {k : ObjectKey} {s : Schema F} {p r},
        (k, s) ∈ fields → k.tag.isSome → rec e.value s p = some r →
        (r.isValid = true ↔ EntryConforms E M sf fields e) := by
      intro hno hkey k s p r hm ht hrec
      have hk' : ∃ t, k = ⟨none, some t⟩ := by
        rcases hk _ hm with ⟨n, _, rfl⟩ | h
        · simp at ht
        · exact h
      obtain ⟨t, rfl⟩ := hk'
      rw [hr _ _ _ _ (hp _ hm) hrec]
      constructor
      · intro h
        exact .additional hkey (fun name s hn hf => hno name s hn ((hasField_iff hp).mp hf))
          ((hasField_iff hp).mpr hm) h
      · intro h
        cases h with
        | named hn hf _ => exact absurd ((hasField_iff hp).mp hf) (hno _ _ hn)
        | additional _ _ hf hcf =>
          have := hc _ ((hasField_iff hp).mp hf) _ hm rfl rfl
          cases this
          exact hcf
    have none' : (∀ name s, KeyIs e name → (⟨some name, none⟩, s) ∉ fields) →
        catchAll fields = none → ¬ EntryConforms E M sf fields e := by
      intro hno hca h
      cases h with
      | named hn hf _ => exact absurd ((hasField_iff hp).mp hf) (hno _ _ hn)
      | additional _ _ hf _ =>
        have := catchAll_none hca _ ((hasField_iff hp).mp hf)
        simp at this
    cases key with
    | none =>
      have hu := keyOpt_unit.mp hkey
      have hno : ∀ name s, KeyIs e name → (⟨some name, none⟩, s) ∉ fields := by
        intro name s hn
        rw [← keyOpt_named, hkey] at hn
        cases hn
      simp only [Option.getD_none] at h
      split at h
      · next s hl =>
        exfalso
        rcases hk _ (lookup_mem hl) with ⟨n, hn, he⟩ | ⟨t, he⟩
        · simp only [ObjectKey.named, ObjectKey.mk.injEq, Option.some.injEq] at he
          exact hn he.1.symm
        · simp [ObjectKey.named] at he
      · split at h
        · next s hca =>
          obtain ⟨k, hm, ht⟩ := catchAll_some hca
          exact other hno (Or.inl hu) hm ht h
        · next hca =>
          obtain rfl := Option.some.inj h
          simp only [isValid_fail, Bool.false_eq_true, false_iff]
          exact none' hno hca
    | some name =>
      have hn := keyOpt_named.mp hkey
      simp only [Option.getD_some] at h
      split at h
      · next s hl =>
        have hm := lookup_mem hl
        rw [hr _ _ _ _ (hp _ hm) h]
        constructor
        · exact fun hcf => .named hn ((hasField_iff hp).mpr hm) hcf
        · intro hcf
          cases hcf with
          | named hn' hf hcf =>
            obtain rfl := hn.unique hn'
            obtain rfl := distinct_unique hd hm ((hasField_iff hp).mp hf)
            exact hcf
          | additional _ hno _ _ => exact absurd ((hasField_iff hp).mpr hm) (hno _ _ hn)
      · next hl =>
        have hno : ∀ name s, KeyIs e name → (⟨some name, none⟩, s) ∉ fields := by
          intro name' s hn'
          obtain rfl := hn.unique hn'
          exact lookup_none hl s
        split at h
        · next s hca =>
          obtain ⟨k, hm, ht⟩ := catchAll_some hca
          exact other hno (Or.inr ⟨_, hn⟩) hm ht h
        · next hca =>
          obtain rfl := Option.some.inj h
          simp only [isValid_fail, Bool.false_eq_true, false_iff]
          exact none' hno hca

theorem notRequired_iff {s : Schema F} (h : ∀ r s', s = .deprecated r s' → ¬ MayBeAbsent s') :
    notRequired s = true ↔ MayBeAbsent s := by
  constructor
  · intro hr
    cases s <;> simp [notRequired] at hr
    · exact .optional _
    · exact .default _ _
  · intro hm
    cases hm with
    | optional => rfl
    | default => rfl
    | deprecated r hm => exact absurd hm (h _ _ rfl)

theorem missingFields_iff {fields : List (ObjectKey × Schema F)} {es : List Entry} {path sp} :
    (missingFields fields (es.filterMap keyOpt) path sp).isValid = true ↔
      ∀ f ∈ fields, ∀ name, f.1.value = some name → notRequired f.2 = false →
        ∃ e ∈ es, KeyIs e name := by
  rw [Result.isValid, missingFields, List.isEmpty_iff, List.filterMap_eq_nil_iff]
  constructor
  · intro h f hf name hn hr
    have := h f hf
    rw [hn] at this
    simp only [hr, Bool.or_false] at this
    split at this
    · next hs =>
      rw [List.contains_iff_mem, List.mem_filterMap] at hs
      obtain ⟨e, he, hk⟩ := hs
      exact ⟨e, he, keyOpt_named.mp hk⟩
    · cases this
  · intro h f hf
    split
    · rfl
    · next name hn =>
      split
      · rfl
      · next hs =>
        simp only [Bool.or_eq_true, not_or, Bool.not_eq_true] at hs
        obtain ⟨e, he, hk⟩ := h f hf name hn hs.2
        exfalso
        have : (es.filterMap keyOpt).contains (some name) = true := by
          rw [List.contains_iff_mem, List.mem_filterMap]
          exact ⟨e, he, keyOpt_named.mpr hk⟩
        rw [this] at hs
        exact Bool.noConfusion hs.1

theorem validateObject_iff {rec} (hr : Agrees E M sf rec) {fields : List (ObjectKey × Schema F)}
    (hpl : Plain sf (.object fields)) {v path r} (h : validateObject E rec v fields path = some r) :
    r.isValid = true ↔ Conforms E M sf v (.object fields) := by
  cases hpl with
  | object hd hk hc hp hdep =>
  rw [validateObject] at h
  split at h
  · next hn =>
    obtain rfl := Option.some.inj h
    simp only [isValid_fail, Bool.false_eq_true, false_iff]
    intro hcf
    cases hcf with
    | object he _ _ => rw [← asObject_iff, hn] at he; cases he
  · next es he =>
    simp only [Option.map_eq_some_iff] at h
    obtain ⟨a, ha, rfl⟩ := h
    obtain ⟨h1, h2⟩ := mergeAll_some ha
    rw [isValid_merge, Bool.and_eq_true, h2, missingFields_iff]
    have hent : (∀ x ∈ es, ∀ a, validateEntry E rec fields path x = some a → a.isValid = true) ↔
        ∀ x ∈ es, EntryConforms E M sf fields x := by
      constructor
      · intro g x hx
        obtain ⟨a, ha⟩ := h1 x hx
        exact (validateEntry_iff hr hd hk hc hp ha).mp (g x hx a ha)
      · intro g x hx a ha
        exact (validateEntry_iff hr hd hk hc hp ha).mpr (g x hx)
    rw [hent]
    constructor
    · rintro ⟨g1, g2⟩
      refine .object (asObject_iff.mp he) g1 ?_
      intro k s name hf hkv hm
      refine g2 _ ((hasField_iff hp).mp hf) name hkv ?_
      rw [Bool.eq_false_iff]
      intro hnr
      exact hm ((notRequired_iff (hdep _ ((hasField_iff hp).mp hf))).mp hnr)
    · intro hcf
      cases hcf with
      | object he' g1 g2 =>
        rw [← asObject_iff, he] at he'
        obtain rfl := Option.some.inj he'
        refine ⟨g1, ?_⟩
        intro f hf name hn hnr
        refine g2 f.1 f.2 name ((hasField_iff hp).mpr hf) hn ?_
        intro hm
        rw [(notRequired_iff (hdep _ hf)).mpr hm] at hnr
        cases hnr

theorem validateSeq_iff {rec} (hr : Agrees E M sf rec) {item : Schema F} (hp : Plain sf item)
    {v path r} (h : validateSeq rec v item path = some r) :
    r.isValid = true ↔ Conforms E M sf v (.seq item) := by
  rw [validateSeq] at h
  split at h
  · next hn =>
    obtain rfl := Option.some.inj h
    simp only [isValid_fail, Bool.false_eq_true, false_iff]
    intro hcf
    cases hcf with
    | seq he _ => rw [← asSequence_iff, hn] at he; cases he
  · next items he =>
    obtain ⟨h1, h2⟩ := mergeAll_some h
    rw [h2]
    have key : Conforms E M sf v (.seq item) ↔ ∀ x ∈ items, Conforms E M sf x item := by
      constructor
      · intro hcf
        cases hcf with
        | seq he' g =>
          rw [← asSequence_iff, he] at he'
          obtain rfl := Option.some.inj he'
          exact g
      · exact fun g => .seq (asSequence_iff.mp he) g
    rw [key]
    constructor
    · intro g x hx
      obtain ⟨i, hi, rfl⟩ := List.mem_iff_getElem.mp hx
      have hm : (items[i], i) ∈ items.zipIdx := by
        rw [List.mem_zipIdx_iff_getElem?]
        simp [hi]
      obtain ⟨a, ha⟩ := h1 _ hm
      exact (hr _ _ _ _ hp ha).mp (g _ hm a ha)
    · rintro g ⟨x, i⟩ hx a ha
      exact (hr _ _ _ _ hp ha).mpr (g x (List.fst_mem_of_mem_zipIdx hx))

theorem allConform_iff : ∀ {items : List Value} {ss : List (Schema F)},
    AllConform E M sf items ss ↔
      items.length = ss.length ∧ ∀ p ∈ items.zip ss, Conforms E M sf p.1 p.2
  | [], [] => by simp [AllConform.nil]
  | [], s :: ss => by
    simp only [List.length_nil, List.length_cons]
    constructor
    · intro h; cases h
    · intro h; have := h.1; omega
  | v :: vs, [] => by
    simp only [List.length_nil, List.length_cons]
    constructor
    · intro h; cases h
    · intro h; have := h.1; omega
  | v :: vs, s :: ss => by
    have ih := allConform_iff (items := vs) (ss := ss)
    simp only [List.length_cons, Nat.add_right_cancel_iff, List.zip_cons_cons, List.mem_cons,
      forall_eq_or_imp]
    constructor
    · intro h
      cases h with
      | cons h1 h2 =>
        have := ih.mp h2
        exact ⟨this.1, h1, this.2⟩
    · rintro ⟨h1, h2, h3⟩
      exact .cons h2 (ih.mpr ⟨h1, h3⟩)

theorem validateTuple_iff {rec} (hr : Agrees E M sf rec) {ss : List (Schema F)}
    (hp : ∀ s ∈ ss, Plain sf s) {v path r} (h : validateTuple rec v ss path = some r) :
    r.isValid = true ↔ Conforms E M sf v (.tuple ss) := by
  rw [validateTuple] at h
  split at h
  · next hn =>
    obtain rfl := Option.some.inj h
    simp only [isValid_fail, Bool.false_eq_true, false_iff]
    intro hcf
    cases hcf with
    | tuple he _ => rw [← asSequence_iff, hn] at he; cases he
  · next items he =>
    simp only [Option.map_eq_some_iff] at h
    obtain ⟨a, ha, rfl⟩ := h
    obtain ⟨h1, h2⟩ := mergeAll_some ha
    rw [isValid_merge, Bool.and_eq_true, h2, isValid_when]
    have key : Conforms E M sf v (.tuple ss) ↔
        items.length = ss.length ∧ ∀ p ∈ items.zip ss, Conforms E M sf p.1 p.2 := by
      rw [← allConform_iff]
      constructor
      · intro hcf
        cases hcf with
        | tuple he' g =>
          rw [← asSequence_iff, he] at he'
          obtain rfl := Option.some.inj he'
          exact g
      · exact fun g => .tuple (asSequence_iff.mp he) g
    rw [key]
    refine and_congr (by simp) ?_
    constructor
    · intro g x hx
      obtain ⟨i, hi, rfl⟩ := List.mem_iff_getElem.mp hx
      have hm : ((items.zip ss)[i], i) ∈ (items.zip ss).zipIdx := by
        rw [List.mem_zipIdx_iff_getElem?]
        exact List.getElem?_eq_getElem hi
      obtain ⟨a, ha⟩ := h1 _ hm
      exact (hr _ _ _ _ (hp _ (List.of_mem_zip hx).2) ha).mp (g _ hm a ha)
    · rintro g ⟨⟨x, s⟩, i⟩ hx a ha
      have hm := List.fst_mem_of_mem_zipIdx hx
      exact (hr _ _ _ _ (hp _ (List.of_mem_zip hm).2) ha).mpr (g _ hm)

theorem validateMapEntry_iff {rec} (hr : Agrees E M sf rec) {ks : Option (Schema F)} {vs : Schema F}
    (hk : ∀ s, ks = some s → Plain sf s) (hp : Plain sf vs) {path e r}
    (h : validateMapEntry rec ks vs path e = some r) :
    r.isValid = true ↔ (∃ name, KeyIs e name) ∧ (∀ s, ks = some s → Conforms E M sf e.key s) ∧
      Conforms E M sf e.value vs := by
  rw [validateMapEntry.eq_def] at h
  split at h
  · next hn =>
    obtain rfl := Option.some.inj h
    simp only [isValid_fail, Bool.false_eq_true, false_iff]
    rintro ⟨⟨name, hname⟩, _⟩
    rw [← asStr_iff, hn] at hname
    cases hname
  · next key hkey =>
    simp only [Option.bind_eq_some_iff, Option.map_eq_some_iff] at h
    obtain ⟨a, ha, b, hb, rfl⟩ := h
    rw [isValid_merge, Bool.and_eq_true, hr _ _ _ _ hp hb]
    have hex : ∃ name, KeyIs e name := ⟨key, asStr_iff.mp hkey⟩
    simp only [hex, true_and]
    refine and_congr ?_ Iff.rfl
    split at ha
    · next k =>
      rw [hr _ _ _ _ (hk k rfl) ha]
      simp
    · obtain rfl := Option.some.inj ha
      simp [isValid_ok]

theorem validateMap_iff {rec} (hr : Agrees E M sf rec) {ts : List (Schema F)}
    (hp : ∀ s ∈ ts, Plain sf s) {v path r} (h : validateMap rec v ts path = some r) :
    r.isValid = true ↔ Conforms E M sf v (.map ts) := by
  rw [validateMap] at h
  split at h
  · next hn =>
    obtain rfl := Option.some.inj h
    simp only [isValid_fail, Bool.false_eq_true, false_iff]
    intro hcf
    cases hcf with
    | map he _ _ => rw [← asObject_iff, hn] at he; cases he
    | keyedMap he _ _ _ => rw [← asObject_iff, hn] at he; cases he
  · next es he =>
    have loop : ∀ {ks : Option (Schema F)} {vs : Schema F}, (∀ s, ks = some s → Plain sf s) →
        Plain sf vs → mergeAll (validateMapEntry rec ks vs path) es = some r →
        (r.isValid = true ↔ ∀ e ∈ es, (∃ name, KeyIs e name) ∧
          (∀ s, ks = some s → Conforms E M sf e.key s) ∧ Conforms E M sf e.value vs) := by
      intro ks vs hk hv hm
      obtain ⟨h1, h2⟩ := mergeAll_some hm
      rw [h2]
      constructor
      · intro g x hx
        obtain ⟨a, ha⟩ := h1 x hx
        exact (validateMapEntry_iff hr hk hv ha).mp (g x hx a ha)
      · intro g x hx a ha
        exact (validateMapEntry_iff hr hk hv ha).mpr (g x hx)
    split at h
    · next vs =>
      rw [loop (by simp) (hp vs (by simp)) h]
      constructor
      · intro g
        exact .map (asObject_iff.mp he) (fun e he => (g e he).1) (fun e he => (g e he).2.2)
      · intro hcf
        cases hcf with
        | map he' g1 g2 =>
          rw [← asObject_iff, he] at he'
          obtain rfl := Option.some.inj he'
          exact fun e he => ⟨g1 e he, by simp, g2 e he⟩
    · next ks vs =>
      rw [loop (by simpa using hp ks (by simp)) (hp vs (by simp)) h]
      constructor
      · intro g
        exact .keyedMap (asObject_iff.mp he) (fun e he => (g e he).1)
          (fun e he => (g e he).2.1 _ rfl) (fun e he => (g e he).2.2)
      · intro hcf
        cases hcf with
        | keyedMap he' g1 g2 g3 =>
          rw [← asObject_iff, he] at he'
          obtain rfl := Option.some.inj he'
          exact fun e he => ⟨g1 e he, by simpa using g2 e he, g3 e he⟩
    · next h1 h2 =>
      obtain rfl := Option.some.inj h
      simp only [isValid_fail, Bool.false_eq_true, false_iff]
      intro hcf
      cases hcf with
      | map _ _ _ => exact h1 _ rfl
      | keyedMap _ _ _ _ => exact h2 _ _ rfl

theorem tryVariants_iff {f : Schema F → Option Result} {P : Schema F → Prop} :
    ∀ {ss : List (Schema F)} {b}, (∀ s ∈ ss, ∀ r, f s = some r → (r.isValid = true ↔ P s)) →
      tryVariants f ss = some b → (b = true ↔ ∃ s ∈ ss, P s)
  | [], b, _, h => by
    simp only [tryVariants, Option.some.injEq] at h
    subst h; simp
  | s :: ss, b, hf, h => by
    simp only [tryVariants, Option.bind_eq_some_iff] at h
    obtain ⟨r, hr, h⟩ := h
    have hs := hf s (by simp) r hr
    split at h
    · next hv =>
      obtain rfl := Option.some.inj h
      simp only [true_iff]
      exact ⟨s, by simp, hs.mp hv⟩
    · next hv =>
      rw [tryVariants_iff (fun s hs => hf s (List.mem_cons_of_mem _ hs)) h]
      constructor
      · rintro ⟨x, hx, hp⟩
        exact ⟨x, List.mem_cons_of_mem _ hx, hp⟩
      · rintro ⟨x, hx, hp⟩
        rcases List.mem_cons.mp hx with rfl | hx
        · exact absurd (hs.mpr hp) hv
        · exact ⟨x, hx, hp⟩

theorem validateUnion_iff {rec} (hr : Agrees E M sf rec) {ss : List (Schema F)}
    (hp : ∀ s ∈ ss, Plain sf s) {v path r} (h : validateUnion rec v ss path = some r) :
    r.isValid = true ↔ Conforms E M sf v (.union ss) := by
  have key : Conforms E M sf v (.union ss) ↔ ∃ s ∈ ss, Conforms E M sf v s := by
    constructor
    · intro hcf
      cases hcf with
      | union hm hc => exact ⟨_, hm, hc⟩
    · rintro ⟨s, hm, hc⟩
      exact .union hm hc
  rw [key]
  rw [validateUnion] at h
  split at h
  · next he =>
    obtain rfl := Option.some.inj h
    rw [List.isEmpty_iff] at he
    subst he
    simp [isValid_fail]
  · simp only [Option.map_eq_some_iff] at h
    obtain ⟨b, hb, rfl⟩ := h
    rw [← tryVariants_iff (fun s hs r hrr => hr _ _ _ _ (hp s hs) hrr) hb]
    cases b <;> simp [isValid_ok, isValid_fail]

theorem unitVariant_iff (hd : DistinctKeys sf) {s : Schema F} (hp : PlainVariant sf s) :
    unitVariant s = true ↔ Conforms E M sf (.mk none none none) s := by
  have nt : ∀ t, ¬ HasText (.mk none none none) t := by rintro t ⟨_, _, _, _, h⟩; cases h
  have ni : ∀ t, ¬ HasItems (.mk none none none) t := by rintro t ⟨_, _, _, h⟩; cases h
  have ne : ∀ t, ¬ HasEntries (.mk none none none) t := by rintro t ⟨_, _, _, h⟩; cases h
  have ns : ∀ s, ScalarType s → ¬ Conforms E M sf (.mk none none none) s := by
    intro s hs hc
    cases hs <;> cases hc <;> exact nt _ ‹_›
  have no : ∀ fs, ¬ Conforms E M sf (.mk none none none) (.object fs) := by
    intro fs hc
    cases hc; exact ne _ ‹_›
  have hu : IsUnitValue (.mk none none none) := ⟨_, rfl⟩
  cases hp with
  | scalar hs =>
    simp only [ns s hs, iff_false]
    cases hs <;> simp [unitVariant]
  | unit => simp only [unitVariant, true_iff]; exact .unit hu
  | unitType => simp only [unitVariant, true_iff]; exact .unitType hu
  | object fs => simp only [unitVariant, no fs, Bool.false_eq_true]
  | seq s =>
    simp only [unitVariant, Bool.false_eq_true, false_iff]
    intro hc; cases hc; exact ni _ ‹_›
  | tuple ss =>
    simp only [unitVariant, Bool.false_eq_true, false_iff]
    intro hc; cases hc; exact ni _ ‹_›
  | map ss =>
    simp only [unitVariant, Bool.false_eq_true, false_iff]
    intro hc; cases hc <;> exact ne _ ‹_›
  | enum vs =>
    simp only [unitVariant, Bool.false_eq_true, false_iff]
    intro hc
    cases hc with
    | fallback _ hs hc => exact ns _ hs hc
  | literal t =>
    simp only [unitVariant, Bool.false_eq_true, false_iff]
    intro hc; cases hc; exact nt _ ‹_›
  | named hn hm =>
    simp only [unitVariant, hn, decide_false, Bool.false_eq_true, false_iff]
    intro hc
    cases hc with
    | named hm' hc =>
      obtain rfl := distinct_unique hd hm hm'
      exact no _ hc

theorem enumFallback_some {v : Value} {variants : List (List Char × Schema F)} {s}
    (h : enumFallback E v variants = some s) :
    ∃ text name, HasText v text ∧ (name, s) ∈ variants ∧ takesText E text s = true := by
  simp only [enumFallback, Option.bind_eq_some_iff, Option.map_eq_some_iff] at h
  obtain ⟨text, ht, ⟨name, s'⟩, hf, rfl⟩ := h
  exact ⟨text, name, scalarText_iff.mp ht, List.mem_of_find?_eq_some hf,
    by simpa using List.find?_some hf⟩

theorem takesText_scalar {text : List Char} {s : Schema F} (h : takesText E text s = true) :
    ScalarType s := by
  cases s <;> simp [takesText] at h
  · exact .string _
  · exact .int _
  · exact .float _
  · exact .bool

theorem takesText_conforms {v : Value} {text : List Char} {s : Schema F} (ht : HasText v text)
    (h : takesText E text s = true)
    (hp : s = .string none ∨ s = .int none ∨ s = .float none ∨ s = .bool) :
    Conforms E M sf v s := by
  rcases hp with rfl | rfl | rfl | rfl
  · exact .string ht (by simp [StringOk])
  · obtain ⟨n, hn⟩ := parseI64_i128 h
    obtain ⟨h1, h2, h3⟩ := parseI128_iff.mp hn
    exact .int ht h1 h2 h3 (by simp [IntOk])
  · obtain ⟨x, hx⟩ := Option.isSome_iff_exists.mp h
    exact .float ht hx (by simp [FloatOk])
  · exact .bool ht (by simpa [takesText] using h)

theorem enumFallback_none {v : Value} {variants : List (List Char × Schema F)}
    (hp : PlainFallback variants) (h : enumFallback E v variants = none) :
    ¬ ∃ name s, (name, s) ∈ variants ∧ ScalarType s ∧ Conforms E M sf v s := by
  rintro ⟨name, s, hm, hs, hc⟩
  have ht : ∃ text, HasText v text := by
    cases hs <;> cases hc <;> exact ⟨_, ‹_›⟩
  obtain ⟨text, ht⟩ := ht
  rw [enumFallback, scalarText_iff.mpr ht, Option.bind_some, Option.map_eq_none_iff,
    List.find?_eq_none] at h
  have hno := h _ hm
  simp only [Bool.not_eq_true] at hno
  rcases hp.1 _ hm hs with e | e | e | e
  · simp only at e; subst e; simp [takesText] at hno
  · obtain ⟨q, hq, hqs⟩ := hp.2 _ hm e
    have := h _ hq
    rw [hqs] at this
    simp [takesText] at this
  · simp only at e; subst e
    cases hc with
    | float ht' hx _ =>
      obtain rfl := ht.unique ht'
      simp [takesText, hx] at hno
  · simp only at e; subst e
    cases hc with
    | bool ht' hb =>
      obtain rfl := ht.unique ht'
      simp only [takesText, Bool.or_eq_false_iff, decide_eq_false_iff_not] at hno
      rcases hb with hb | hb
      · exact hno.1 hb
      · exact hno.2 hb

theorem validateEnum_iff (hd : DistinctKeys sf) {rec} (hr : Agrees E M sf rec)
    {variants : List (List Char × Schema F)} (hpl : Plain sf (.enum variants)) {v path r}
    (h : validateEnum E rec v variants path = some r) :
    r.isValid = true ↔ Conforms E M sf v (.enum variants) := by
  cases hpl with
  | enum hdv hp hpv hpf =>
  obtain ⟨tag, p, sp⟩ := v
  rw [validateEnum] at h
  cases tag with
  | none =>
    have key : Conforms E M sf (.mk none p sp) (.enum variants) ↔
        ∃ name s, (name, s) ∈ variants ∧ ScalarType s ∧ Conforms E M sf (.mk none p sp) s := by
      constructor
      · intro hc
        cases hc with
        | fallback hm hs hc => exact ⟨_, _, hm, hs, hc⟩
      · rintro ⟨name, s, hm, hs, hc⟩
        exact .fallback hm hs hc
    rw [key]
    simp only [Value.tag] at h
    split at h
    · next s hs =>
      obtain ⟨text, name, ht, hm, htk⟩ := enumFallback_some hs
      have hsc := takesText_scalar htk
      have hcf : Conforms E M sf (.mk none p sp) s := takesText_conforms ht htk (hpf.1 _ hm hsc)
      rw [hr _ _ _ _ (hp _ hm) h]
      exact ⟨fun _ => ⟨name, s, hm, hsc, hcf⟩, fun _ => hcf⟩
    · next hs =>
      obtain rfl := Option.some.inj h
      simp only [isValid_fail, Bool.false_eq_true, false_iff]
      exact enumFallback_none hpf hs
  | some tag =>
    have key : Conforms E M sf (.mk (some tag) p sp) (.enum variants) ↔
        ∃ s, (tag.name, s) ∈ variants ∧ Conforms E M sf (.mk none p none) s := by
      constructor
      · intro hc
        cases hc with
        | variant hm hc => exact ⟨_, hm, hc⟩
      · rintro ⟨s, hm, hc⟩
        exact .variant hm hc
    rw [key]
    simp only [Value.tag] at h
    split at h
    · next s hl =>
      have hm := lookup_mem hl
      have one : (∃ s, (tag.name, s) ∈ variants ∧ Conforms E M sf (.mk none p none) s) ↔
          Conforms E M sf (.mk none p none) s := by
        constructor
        · rintro ⟨s', hm', hc⟩
          obtain rfl := distinct_unique hdv hm hm'
          exact hc
        · exact fun hc => ⟨s, hm, hc⟩
      rw [one]
      cases p with
      | none =>
        simp only [Value.payload] at h
        rw [← unitVariant_iff hd (hpv _ hm)]
        split at h
        · next hu => obtain rfl := Option.some.inj h; simp [hu, isValid_ok]
        · next hu => obtain rfl := Option.some.inj h; simp [hu, isValid_fail]
      | some p =>
        simp only [Value.payload] at h
        exact hr _ _ _ _ (hp _ hm) h
    · next hl =>
      obtain rfl := Option.some.inj h
      simp only [isValid_fail, Bool.false_eq_true, false_iff]
      rintro ⟨s, hm, _⟩
      exact lookup_none hl s hm

theorem validateOneOf_iff {rec} (hr : Agrees E M sf rec) {base : Schema F} {allowed}
    (hp : Plain sf base) {v path r} (h : validateOneOf rec v base allowed path = some r) :
    r.isValid = true ↔ Conforms E M sf v (.oneOf base allowed) := by
  rw [validateOneOf] at h
  simp only [Option.map_eq_some_iff] at h
  obtain ⟨a, ha, rfl⟩ := h
  have hb := hr _ _ _ _ hp ha
  have key : Conforms E M sf v (.oneOf base allowed) ↔ Conforms E M sf v base ∧
      (allowed = [] ∨ ∃ text, HasText v text ∧ text ∈ allowed) := by
    constructor
    · intro hc
      cases hc with
      | oneOf hc => exact ⟨hc, Or.inl rfl⟩
      | oneOfText hc ht hm => exact ⟨hc, Or.inr ⟨_, ht, hm⟩⟩
    · rintro ⟨hc, rfl | ⟨text, ht, hm⟩⟩
      · exact .oneOf hc
      · exact .oneOfText hc ht hm
  rw [key]
  cases hv : a.isValid with
  | false =>
    have : ¬ Conforms E M sf v base := by rw [← hb, hv]; simp
    simp [hv, this]
  | true =>
    have : Conforms E M sf v base := by rw [← hb, hv]
    simp only [this, true_and, Bool.not_true, Bool.false_eq_true, if_false]
    split
    · next he => simp [isValid_ok, List.isEmpty_iff.mp he]
    · next he =>
      rw [List.isEmpty_iff] at he
      simp only [he, false_or]
      split
      · next ht =>
        simp only [isValid_fail, Bool.false_eq_true, false_iff]
        rintro ⟨t, ht', _⟩
        exact scalarText_none ht t ht'
      · next text ht =>
        rw [scalarText_iff] at ht
        split
        · next hm =>
          simp only [isValid_ok, true_iff]
          exact ⟨text, ht, List.contains_iff_mem.mp hm⟩
        · next hm =>
          simp only [isValid_fail, Bool.false_eq_true, false_iff]
          rintro ⟨t, ht', hm'⟩
          obtain rfl := ht.unique ht'
          exact hm (List.contains_iff_mem.mpr hm')

theorem step_agrees (hf : PlainFile sf) {rec} (hr : Agrees E M sf rec) :
    Agrees E M sf (step E sf rec) := by
  intro v s p r hp h
  cases s with
  | string c =>
    obtain rfl := Option.some.inj h
    cases hp with
    | string hc => exact validateString_iff hc
  | int c => obtain rfl := Option.some.inj h; exact validateInt_iff
  | float c => obtain rfl := Option.some.inj h; exact validateFloat_iff
  | bool => obtain rfl := Option.some.inj h; exact validateBool_iff
  | unit =>
    obtain rfl := Option.some.inj h
    rw [validateUnit_iff]
    exact ⟨.unit, fun hc => by cases hc; assumption⟩
  | any =>
    obtain rfl := Option.some.inj h
    simp only [isValid_ok, true_iff]
    exact .any v
  | object fields => exact validateObject_iff hr hp h
  | seq item => cases hp with | seq hi => exact validateSeq_iff hr hi h
  | tuple ss => cases hp with | tuple hi => exact validateTuple_iff hr hi h
  | map ts => cases hp with | map hi => exact validateMap_iff hr hi h
  | union ss => cases hp with | union hi => exact validateUnion_iff hr hi h
  | optional inner =>
    cases hp with
    | optional hi =>
      change validateOptional rec v inner p = some r at h
      have key : Conforms E M sf v (.optional inner) ↔ IsUnitValue v ∨ Conforms E M sf v inner := by
        constructor
        · intro hc
          cases hc with
          | absent hu => exact Or.inl hu
          | optional hc => exact Or.inr hc
        · rintro (hu | hc)
          · exact .absent hu
          · exact .optional hc
      rw [key]
      rw [validateOptional] at h
      split at h
      · next hu =>
        obtain rfl := Option.some.inj h
        simp [isValid_ok, isUnit_iff.mp hu]
      · next hu =>
        rw [isUnit_iff] at hu
        rw [hr _ _ _ _ hi h]
        simp [hu]
  | enum vs => exact validateEnum_iff hf.1 hr hp h
  | oneOf base allowed => cases hp with | oneOf _ hi => exact validateOneOf_iff hr hi h
  | flatten inner => cases hp
  | default t inner =>
    cases hp with
    | default _ hi =>
      rw [hr _ _ _ _ hi h]
      exact ⟨.default, fun hc => by cases hc; assumption⟩
  | deprecated reason inner =>
    cases hp with
    | deprecated _ hi =>
      simp only [step, validateDeprecated, Option.map_eq_some_iff] at h
      obtain ⟨a, ha, rfl⟩ := h
      rw [isValid_warning, hr _ _ _ _ hi ha]
      exact ⟨.deprecated, fun hc => by cases hc; assumption⟩
  | literal t => obtain rfl := Option.some.inj h; exact validateLiteral_iff
  | type name =>
    simp only [step, validateTypeRef] at h
    cases name with
    | none =>
      obtain rfl := Option.some.inj h
      rw [validateUnit_iff]
      exact ⟨.unitType, fun hc => by cases hc; assumption⟩
    | some n =>
      simp only at h
      split at h
      · next s hl =>
        have hm := lookup_mem hl
        rw [hr _ _ _ _ (hf.2 _ hm) h]
        constructor
        · exact fun hc => .named hm hc
        · intro hc
          cases hc with
          | named hm' hc =>
            obtain rfl := distinct_unique hf.1 hm hm'
            exact hc
      · next hl =>
        obtain rfl := Option.some.inj h
        simp only [isValid_fail, Bool.false_eq_true, false_iff]
        intro hc
        cases hc with
        | named hm' _ => exact lookup_none hl _ hm'

theorem validate_agrees (hf : PlainFile sf) : ∀ n, Agrees E M sf (validate E sf n)
  | 0 => by intro v s p r _ h; cases h
  | n + 1 => by
    intro v s p r hp h
    exact step_agrees hf (validate_agrees hf n) v s p r hp h

end Styx.Schema
