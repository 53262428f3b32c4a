import Verif.Impl.TypedSpec

/-!
# Lemmas about the typed reading of the JavaScript implementation
-/

namespace Styx.Impl

open Styx Styx.Spec

theorem scalarContent_eq_scalarOf (v : Value) : scalarContent v = scalarOf v := rfl

theorem keyContent_of_scalarOf {v : Value} {name : List Char} (h : scalarOf v = some name) (hne : name ≠ []) :
    keyContent v = some name := by
  rw [keyContent, scalarContent_eq_scalarOf, h]
  cases name with
  | nil => exact absurd rfl hne
  | cons c cs => rfl

theorem getOwn_of_definedAs {α : Type} {l : List (List Char × α)} {name : List Char} {t : α} (h : DefinedAs l name t) :
    getOwn name l = some t := by
  obtain ⟨a, b, rfl, ha⟩ := h
  induction a with
  | nil => simp [getOwn]
  | cons p a ih =>
    have := ha p (List.mem_cons_self ..)
    simp only [List.cons_append, getOwn, if_neg this]
    exact ih (fun q hq => ha q (List.mem_cons_of_mem _ hq))

theorem getOwn_none {α : Type} {l : List (List Char × α)} {name : List Char} (h : ∀ f ∈ l, f.1 ≠ name) :
    getOwn name l = none := by
  induction l with
  | nil => rfl
  | cons p l ih =>
    simp only [getOwn, if_neg (h p (List.mem_cons_self ..))]
    exact ih (fun q hq => h q (List.mem_cons_of_mem _ hq))

theorem getOwn_mem {α : Type} {l : List (List Char × α)} {name : List Char} {t : α} (h : getOwn name l = some t) :
    (name, t) ∈ l := by
  induction l with
  | nil => simp [getOwn] at h
  | cons p l ih =>
    obtain ⟨k, y⟩ := p
    simp only [getOwn] at h
    split at h
    · next hk => cases h; subst hk; exact List.mem_cons_self ..
    · exact List.mem_cons_of_mem _ (ih h)

theorem setOwn_new {α : Type} {key : List Char} {x : α} {l : List (List Char × α)} (h : ∀ p ∈ l, p.1 ≠ key) :
    setOwn key x l = l ++ [(key, x)] := by
  induction l with
  | nil => rfl
  | cons p l ih =>
    simp only [setOwn, if_neg (h p (List.mem_cons_self ..)), List.cons_append,
      ih (fun q hq => h q (List.mem_cons_of_mem _ hq))]

theorem setProps_good (ps : List (List Char × Js)) (acc : List (List Char × Js)) (h : GoodNames (acc ++ ps)) :
    ps.foldl (fun o p => setProp o p.1 p.2) (acc, none) = (acc ++ ps, none) := by
  induction ps generalizing acc with
  | nil => simp
  | cons p ps ih =>
    obtain ⟨hnd, hg⟩ := h
    have hp : p.1 ≠ protoName := (hg p (by simp)).2
    have hnew : ∀ q ∈ acc, q.1 ≠ p.1 := by
      intro q hq heq
      rw [List.map_append, List.nodup_append] at hnd
      exact hnd.2.2 q.1 (List.mem_map_of_mem hq) p.1 (by simp) heq
    have hs : setProp (acc, none) p.1 p.2 = (acc ++ [p], none) := by simp only [setProp, if_neg hp, setOwn_new hnew]
    rw [List.foldl_cons, hs]
    have := ih (acc ++ [p]) ⟨by simpa using hnd, by simpa using hg⟩
    simpa using this

theorem objectOf_good {ps : List (List Char × Js)} (h : GoodNames ps) : objectOf ps = .obj ps none := by
  have := setProps_good ps [] (by simpa using h)
  simp only [objectOf, this, List.nil_append]

/-! ### Without a schema -/

mutual
theorem toAny_untyped : {v : Value} → {j : Js} → Untyped v j → toAny v = j
  | _, _, .null => by simp [toAny]
  | _, _, .text => by simp [toAny]
  | _, _, .list h => by simp [toAny, toAnyItems_untyped h]
  | _, _, .object h hg => by
    simp only [toAny, toAnyEntries_untyped h (fun p hp => (hg.2 p hp).1), objectOf_good hg]
theorem toAnyItems_untyped : {vs : List Value} → {js : List Js} → UntypedItems vs js → toAnyItems vs = js
  | _, _, .nil => by simp [toAnyItems]
  | _, _, .cons h hs => by simp [toAnyItems, toAny_untyped h, toAnyItems_untyped hs]
theorem toAnyEntries_untyped : {es : List Entry} → {ps : List (List Char × Js)} → UntypedEntries es ps →
    (∀ p ∈ ps, p.1 ≠ []) → toAnyEntries es = ps
  | _, _, .nil, _ => by simp [toAnyEntries]
  | _, _, .cons hk h hs, hne => by
    have h0 := hne _ (List.mem_cons_self ..)
    simp [toAnyEntries, keyContent_of_scalarOf hk h0, toAny_untyped h,
      toAnyEntries_untyped hs (fun p hp => hne p (List.mem_cons_of_mem _ hp))]
end

/-! ### Integers -/

theorem digit_foldl (ds : List Char) (n : Nat) :
    ds.foldl (fun n c => 10 * n + (c.toNat - '0'.toNat)) n = Nat.ofDigitChars 10 ds n := rfl

theorem takeWhile_digits {p : Char → Bool} {l : List Char} (h : ∀ c ∈ l, p c = true) : l.takeWhile p = l := by
  induction l with
  | nil => rfl
  | cons c l ih =>
    rw [List.takeWhile_cons, h c (List.mem_cons_self ..), ih (fun d hd => h d (List.mem_cons_of_mem _ hd))]
    rfl

theorem jsDigits_all {ds : List Char} (hne : ds ≠ []) (h : ∀ c ∈ ds, c.isDigit = true) :
    jsDigits ds = some (Nat.ofDigitChars 10 ds 0) := by
  rw [jsDigits, takeWhile_digits h]
  cases ds with
  | nil => exact absurd rfl hne
  | cons c cs => rfl

theorem digit_not_space {c : Char} (h : c.isDigit = true) : isJsSpace c = false ∧ c ≠ '-' ∧ c ≠ '+' := by
  have h' : 48 ≤ c.toNat ∧ c.toNat ≤ 57 := by
    simp only [Char.isDigit, Bool.and_eq_true, decide_eq_true_eq, UInt32.le_iff_toNat_le] at h
    exact ⟨h.1, h.2⟩
  have all : ∀ n < 58, 48 ≤ n → isJsSpace (Char.ofNat n) = false ∧ Char.ofNat n ≠ '-' ∧ Char.ofNat n ≠ '+' := by decide +kernel
  have := all c.toNat (by omega) h'.1
  rwa [Char.ofNat_toNat] at this

theorem jsParseInt_integer {s : List Char} {n : Int} (h : IntegerText s n) : jsParseInt s = some n ∧ s ≠ [] := by
  cases h with
  | @plain ds hne h =>
    refine ⟨?_, hne⟩
    have hd := jsDigits_all hne h
    cases s with
    | nil => exact absurd rfl hne
    | cons c cs =>
      have hc := digit_not_space (h c (List.mem_cons_self ..))
      rw [jsParseInt, List.dropWhile_cons, hc.1]
      simp only [Bool.false_eq_true, if_false]
      split
      · next heq => cases heq; exact absurd rfl hc.2.1
      · next heq => cases heq; exact absurd rfl hc.2.2
      · rw [hd]; rfl
  | @plus ds hne h =>
    refine ⟨?_, (nofun)⟩
    rw [jsParseInt, List.dropWhile_cons, show isJsSpace '+' = false from by decide]
    simp [jsDigits_all hne h]
  | @minus ds hne h =>
    refine ⟨?_, (nofun)⟩
    rw [jsParseInt, List.dropWhile_cons, show isJsSpace '-' = false from by decide]
    simp [jsDigits_all hne h]

/-! ### With a schema -/

/-- With enough fuel, the answer is `x`. -/
def Eventually {α : Type} (f : Nat → Option α) (x : α) : Prop := ∃ n, ∀ m, n ≤ m → f m = some x

theorem Eventually.succ {α : Type} {f g : Nat → Option α} {x : α} (h : Eventually f x) (hg : ∀ n, g (n + 1) = f n) :
    Eventually g x := by
  obtain ⟨n, hn⟩ := h
  refine ⟨n + 1, fun m hm => ?_⟩
  obtain ⟨m, rfl⟩ : ∃ k, m = k + 1 := ⟨m - 1, by omega⟩
  rw [hg]; exact hn m (by omega)

theorem Eventually.now {α : Type} {g : Nat → Option α} {x : α} (hg : ∀ n, g (n + 1) = some x) : Eventually g x := by
  refine ⟨1, fun m hm => ?_⟩
  obtain ⟨m, rfl⟩ : ∃ k, m = k + 1 := ⟨m - 1, by omega⟩
  exact hg m

theorem Eventually.cons {α β : Type} {f : Nat → α → Option β} {a : α} {l : List α} {x : β} {xs : List β}
    (h : Eventually (fun n => f n a) x) (hs : Eventually (fun n => allDone (f n) l) xs) :
    Eventually (fun n => allDone (f n) (a :: l)) (x :: xs) := by
  obtain ⟨n, hn⟩ := h
  obtain ⟨n', hn'⟩ := hs
  refine ⟨max n n', fun m hm => ?_⟩
  have h1 := hn m (by omega)
  have h2 := hn' m (by omega)
  simp only [] at h1 h2
  simp only [allDone, h1, h2]

theorem Eventually.nil {α β : Type} {f : Nat → α → Option β} : Eventually (fun n => allDone (f n) []) [] :=
  ⟨0, fun _ _ => rfl⟩

theorem Eventually.map {α β : Type} {f : Nat → Option α} {x : α} (h : Eventually f x) (g : α → β) :
    Eventually (fun n => (f n).map g) (g x) := by
  obtain ⟨n, hn⟩ := h
  exact ⟨n, fun m hm => by simp only [hn m hm, Option.map]⟩

theorem asSequence_of_payload {v : Value} {items : List Value} {sp : Option Span} (h : v.payload = some (.sequence items sp)) :
    v.asSequence = some items := by
  obtain ⟨t, p, s⟩ := v
  cases h
  rfl

theorem asObject_of_payload {v : Value} {es : List Entry} {sp : Option Span} (h : v.payload = some (.object es sp)) :
    v.asObject = some es := by
  obtain ⟨t, p, s⟩ := v
  cases h
  rfl

theorem untyped_defined {v : Value} {j : Js} (h : Untyped v j) : j ≠ .undefined := by
  cases h <;> simp

theorem means_defined {types : List (List Char × JsType)} {v : Value} {t : JsType} {j : Js} (h : JsMeans types v t j) :
    j ≠ .undefined := by
  refine JsMeans.rec (motive_1 := fun _ _ j _ => j ≠ .undefined) (motive_2 := fun _ _ _ _ => True)
    (motive_3 := fun _ _ _ _ _ => True) (motive_4 := fun _ _ _ _ => True) (motive_5 := fun _ _ _ => True)
    ?_ ?_ ?_ ?_ ?_ ?_ ?_ ?_ ?_ ?_ ?_ ?_ ?_ ?_ ?_ ?_ ?_ ?_ ?_ ?_ ?_ ?_ ?_ ?_ h
  all_goals first
    | (intros; exact untyped_defined (by assumption))
    | (intros; trivial)
    | (intros; assumption)
    | (intros; simp)

theorem byDefault_defined {types : List (List Char × JsType)} {t : JsType} {j : Js} (h : ByDefault types t j) :
    j ≠ .undefined := by
  refine ByDefault.rec (motive_1 := fun _ _ _ _ => True) (motive_2 := fun _ _ _ _ => True)
    (motive_3 := fun _ _ _ _ _ => True) (motive_4 := fun _ _ _ _ => True) (motive_5 := fun _ j _ => j ≠ .undefined)
    ?_ ?_ ?_ ?_ ?_ ?_ ?_ ?_ ?_ ?_ ?_ ?_ ?_ ?_ ?_ ?_ ?_ ?_ ?_ ?_ ?_ ?_ ?_ ?_ h
  all_goals first
    | (intros; trivial)
    | (intros; exact means_defined (by assumption))
    | (intros; assumption)

theorem definedOnly_cons {p : List Char × Js} {ps : List (List Char × Js)} (h : p.2 ≠ .undefined) :
    definedOnly (p :: ps) = p :: definedOnly ps := by
  obtain ⟨k, j⟩ := p
  cases j <;> first | rfl | exact absurd rfl h

theorem getDefault_omissible {types : List (List Char × JsType)} {t : JsType} (h : Omissible types t) :
    Eventually (fun n => getDefault types n t) .undefined := by
  induction h with
  | optional => exact .now fun n => by simp only [getDefault]
  | ref hd _ ih => exact ih.succ fun n => by simp only [getDefault, getOwn_of_definedAs hd]

theorem setEntries_cons {k v : Value} {d : Option (List Char)} {es : List Entry} {name : List Char}
    (h : scalarOf k = some name) (hne : name ≠ []) : setEntries (.mk k v d :: es) = (name, v) :: setEntries es := by
  simp only [setEntries, List.filterMap_cons, Entry.key, Entry.value, keyContent_of_scalarOf h hne, Option.map]

theorem means_names {types fields : List (List Char × JsType)} {other : JsType} {es : List Entry}
    {ps : List (List Char × Js)} (h : JsMeansEntries types fields other es ps) (hne : ∀ p ∈ ps, p.1 ≠ []) :
    (setEntries es).map (·.1) = ps.map (·.1) := by
  induction es generalizing ps with
  | nil => cases h; rfl
  | cons e es ih =>
    cases h with
    | field hk _ _ hs | other hk _ _ hs =>
      rw [setEntries_cons hk (hne _ (List.mem_cons_self ..)), List.map_cons, List.map_cons,
        ih hs (fun p hp => hne p (List.mem_cons_of_mem _ hp))]

/-- The fields that are missing, by the names that are there. -/
theorem missingFields_eq {fields : List (List Char × JsType)} {es : List Entry} {names : List (List Char)}
    (h : (setEntries es).map (·.1) = names) : missingFields fields es = fields.filter fun f => !decide (f.1 ∈ names) := by
  rw [missingFields]
  congr 1
  funext f
  congr 1
  rw [← h, Bool.eq_iff_iff]
  simp only [List.any_eq_true, decide_eq_true_eq, List.mem_map]

mutual
theorem toTyped_means {types : List (List Char × JsType)} : {v : Value} → {t : JsType} → {j : Js} → JsMeans types v t j →
    Eventually (fun n => toTyped types n v t) j
  | _, _, _, .string h => .now fun n => by simp only [toTyped, scalarContent_eq_scalarOf, h, Option.getD]
  | _, _, _, .int (s := s) h hi => .now fun n => by
    have := jsParseInt_integer hi
    cases s with
    | nil => exact absurd rfl this.2
    | cons c cs => simp only [toTyped, scalarContent_eq_scalarOf, h, this.1]
  | _, _, _, .float (s := s) h hne => .now fun n => by
    cases s with
    | nil => exact absurd rfl hne
    | cons c cs => simp only [toTyped, scalarContent_eq_scalarOf, h]
  | _, _, _, .yes h => .now fun n => by simp [toTyped, scalarContent_eq_scalarOf, h]
  | _, _, _, .no h => .now fun n => by simp [toTyped, scalarContent_eq_scalarOf, h]
  | _, _, _, .unit h => .now fun n => by simp only [toTyped]
  | _, _, _, .any h => .now fun n => by simp only [toTyped, toAny_untyped h]
  | _, _, _, .seq h hs => ((toTyped_items hs).map Js.arr).succ fun n => by
      simp only [toTyped, asSequence_of_payload h]
  | _, _, _, .map h hs hg => by
    have := ((toTyped_entries hs (fun p hp => (hg.2 p hp).1)).map objectOf)
    rw [objectOf_good hg] at this
    exact this.succ fun n => by simp [toTyped, asObject_of_payload h, getOwn]
  | _, _, _, .object (ps := ps) (ds := ds) _ h hs hm hg => by
    have hne : ∀ p ∈ ps, p.1 ≠ [] := fun p hp => (hg.2 p (by simp [hp])).1
    obtain ⟨n, hn⟩ := toTyped_entries hs hne
    obtain ⟨ds', ⟨n', hn'⟩, hds⟩ := getDefault_missing hm
    refine ⟨max n n' + 1, fun m hm => ?_⟩
    obtain ⟨m, rfl⟩ : ∃ k, m = k + 1 := ⟨m - 1, by omega⟩
    have h1 := hn m (by omega)
    have h2 := hn' m (by omega)
    simp only [] at h1 h2
    simp only [toTyped, asObject_of_payload h, h1, missingFields_eq (means_names hs hne), h2, hds, objectOf_good hg]
  | _, _, _, .optional h => (toTyped_means h).succ fun n => by simp only [toTyped]
  | _, _, _, .default h => (toTyped_means h).succ fun n => by simp only [toTyped]
  | _, _, _, .ref hd h => (toTyped_means h).succ fun n => by simp only [toTyped, getOwn_of_definedAs hd]
theorem toTyped_items {types : List (List Char × JsType)} : {t : JsType} → {vs : List Value} → {js : List Js} →
    JsMeansItems types t vs js → Eventually (fun n => allDone (fun x => toTyped types n x t) vs) js
  | _, _, _, .nil => .nil
  | t, _, _, .cons h hs => Eventually.cons (f := fun n x => toTyped types n x t) (toTyped_means h) (toTyped_items hs)
theorem toTyped_entries {types : List (List Char × JsType)} : {fields : List (List Char × JsType)} → {other : JsType} →
    {es : List Entry} → {ps : List (List Char × Js)} → JsMeansEntries types fields other es ps → (∀ p ∈ ps, p.1 ≠ []) →
    Eventually (fun n => allDone (fun p => (toTyped types n p.2 ((getOwn p.1 fields).getD other)).map fun x => (p.1, x))
      (setEntries es)) ps
  | _, _, _, _, .nil, _ => ⟨0, fun _ _ => rfl⟩
  | fields, other, _, _, .field (name := name) hk hd h hs, hne => by
    rw [setEntries_cons hk (hne _ (List.mem_cons_self ..))]
    refine Eventually.cons (f := fun n (p : List Char × Value) => (toTyped types n p.2 ((getOwn p.1 fields).getD other)).map fun x => (p.1, x)) ?_
      (toTyped_entries hs (fun p hp => hne p (List.mem_cons_of_mem _ hp)))
    simp only [getOwn_of_definedAs hd, Option.getD]
    exact (toTyped_means h).map fun x => (name, x)
  | fields, other, _, _, .other (name := name) hk hd h hs, hne => by
    rw [setEntries_cons hk (hne _ (List.mem_cons_self ..))]
    refine Eventually.cons (f := fun n (p : List Char × Value) => (toTyped types n p.2 ((getOwn p.1 fields).getD other)).map fun x => (p.1, x)) ?_
      (toTyped_entries hs (fun p hp => hne p (List.mem_cons_of_mem _ hp)))
    simp only [getOwn_none hd, Option.getD]
    exact (toTyped_means h).map fun x => (name, x)
theorem getDefault_missing {types : List (List Char × JsType)} : {names : List (List Char)} →
    {fields : List (List Char × JsType)} → {ds : List (List Char × Js)} → JsMeansMissing types names fields ds →
    ∃ ds', Eventually (fun n => allDone (fun f => (getDefault types n f.2).map fun x => (f.1, x))
      (fields.filter fun f => !decide (f.1 ∈ names))) ds' ∧ definedOnly ds' = ds
  | _, _, _, .nil => ⟨[], ⟨0, fun _ _ => rfl⟩, rfl⟩
  | _, _, _, .there hin hs => by
    obtain ⟨ds', h1, h2⟩ := getDefault_missing hs
    refine ⟨ds', ?_, h2⟩
    rw [List.filter_cons_of_neg (by simpa using hin)]; exact h1
  | _, _, _, .omitted (name := name) hin ho hs => by
    obtain ⟨ds', h1, h2⟩ := getDefault_missing hs
    refine ⟨(name, .undefined) :: ds', ?_, ?_⟩
    · rw [List.filter_cons_of_pos (by simpa using hin)]
      exact Eventually.cons (f := fun n (f : List Char × JsType) => (getDefault types n f.2).map fun x => (f.1, x))
        ((getDefault_omissible ho).map fun x => (name, x)) h1
    · exact h2
  | _, _, _, .default (name := name) (j := j) hin hd hs => by
    obtain ⟨ds', h1, h2⟩ := getDefault_missing hs
    refine ⟨(name, j) :: ds', ?_, ?_⟩
    · rw [List.filter_cons_of_pos (by simpa using hin)]
      exact Eventually.cons (f := fun n (f : List Char × JsType) => (getDefault types n f.2).map fun x => (f.1, x))
        ((getDefault_byDefault hd).map fun x => (name, x)) h1
    · rw [definedOnly_cons (byDefault_defined hd), h2]
theorem getDefault_byDefault {types : List (List Char × JsType)} : {t : JsType} → {j : Js} → ByDefault types t j →
    Eventually (fun n => getDefault types n t) j
  | _, _, .default h => (toTyped_means h).succ fun n => by simp only [getDefault]
  | _, _, .ref hd h => (getDefault_byDefault h).succ fun n => by simp only [getDefault, getOwn_of_definedAs hd]
end

/-! ### The type of the result -/

theorem definedAs_mem {α : Type} {l : List (List Char × α)} {name : List Char} {t : α} (h : DefinedAs l name t) : (name, t) ∈ l := by
  obtain ⟨a, b, rfl, _⟩ := h
  simp

theorem nodup_unique {α : Type} {l : List (List Char × α)} (hn : (l.map (·.1)).Nodup) {name : List Char} {t u : α}
    (h : (name, t) ∈ l) (h' : (name, u) ∈ l) : t = u := by
  induction l with
  | nil => cases h
  | cons p l ih =>
    rw [List.map_cons, List.nodup_cons] at hn
    rcases List.mem_cons.1 h with heq | h
    · rcases List.mem_cons.1 h' with heq' | h'
      · rw [← heq] at heq'; cases heq'; rfl
      · exact absurd (List.mem_map_of_mem h') (by rw [← heq] at hn; exact hn.1)
    · rcases List.mem_cons.1 h' with heq' | h'
      · exact absurd (List.mem_map_of_mem h) (by rw [← heq'] at hn; exact hn.1)
      · exact ih hn.2 h h'

mutual
theorem means_hasType {types : List (List Char × JsType)} : {v : Value} → {t : JsType} → {j : Js} → JsMeans types v t j →
    HasType types j t
  | _, _, _, .string _ => .string
  | _, _, _, .int _ _ => .int
  | _, _, _, .float _ hne => .float hne
  | _, _, _, .yes _ => .bool
  | _, _, _, .no _ => .bool
  | _, _, _, .unit _ => .unit
  | _, _, _, .any _ => .any
  | _, _, _, .seq _ hs => .seq (items_hasType hs)
  | _, _, _, .map _ hs _ => .map fun p hp => (entries_hasType hs p hp).2 (nofun)
  | _, _, _, .object hn _ hs hm _ => by
    obtain ⟨m1, m2⟩ := missing_hasType hm
    refine .object ?_ ?_
    · intro name t j hd hj
      rcases List.mem_append.1 hj with hj | hj
      · exact (entries_hasType hs _ hj).1 t hd
      · obtain ⟨t', ht', h⟩ := m1 _ hj
        rw [nodup_unique hn (definedAs_mem hd) ht']; exact h
    · intro name t hd
      rcases m2 _ (definedAs_mem hd) with h | ⟨j, h⟩ | h
      · obtain ⟨p, hp, rfl⟩ := List.mem_map.1 h
        exact .inl ⟨p.2, List.mem_append_left _ hp⟩
      · exact .inl ⟨j, List.mem_append_right _ h⟩
      · exact .inr h
  | _, _, _, .optional h => .optional (means_hasType h)
  | _, _, _, .default h => .default (means_hasType h)
  | _, _, _, .ref hd h => .ref hd (means_hasType h)
theorem items_hasType {types : List (List Char × JsType)} : {t : JsType} → {vs : List Value} → {js : List Js} →
    JsMeansItems types t vs js → ∀ j ∈ js, HasType types j t
  | _, _, _, .nil => (nofun)
  | _, _, _, .cons h hs => fun x hx => by
    rcases List.mem_cons.1 hx with hx | hx
    · rw [hx]; exact means_hasType h
    · exact items_hasType hs x hx
theorem entries_hasType {types : List (List Char × JsType)} : {fields : List (List Char × JsType)} → {other : JsType} →
    {es : List Entry} → {ps : List (List Char × Js)} → JsMeansEntries types fields other es ps → ∀ p ∈ ps,
      (∀ t, DefinedAs fields p.1 t → HasType types p.2 t) ∧ ((∀ f ∈ fields, f.1 ≠ p.1) → HasType types p.2 other)
  | _, _, _, _, .nil => (nofun)
  | _, _, _, _, .field hk hd h hs => fun p hp => by
    rcases List.mem_cons.1 hp with hp | hp
    · rw [hp]
      refine ⟨fun t ht => ?_, fun hno => absurd rfl (hno _ (definedAs_mem hd))⟩
      have h1 := getOwn_of_definedAs hd
      rw [getOwn_of_definedAs ht] at h1
      rw [Option.some.inj h1]; exact means_hasType h
    · exact entries_hasType hs p hp
  | _, _, _, _, .other hk hd h hs => fun p hp => by
    rcases List.mem_cons.1 hp with hp | hp
    · rw [hp]
      exact ⟨fun t ht => absurd rfl (hd _ (definedAs_mem ht)), fun _ => means_hasType h⟩
    · exact entries_hasType hs p hp
theorem missing_hasType {types : List (List Char × JsType)} : {names : List (List Char)} →
    {fields : List (List Char × JsType)} → {ds : List (List Char × Js)} → JsMeansMissing types names fields ds →
    (∀ p ∈ ds, ∃ t, (p.1, t) ∈ fields ∧ HasType types p.2 t) ∧
      ∀ f ∈ fields, f.1 ∈ names ∨ (∃ j, (f.1, j) ∈ ds) ∨ Omissible types f.2
  | _, _, _, .nil => ⟨(nofun), (nofun)⟩
  | _, _, _, .there hin hs => by
    obtain ⟨h1, h2⟩ := missing_hasType hs
    refine ⟨fun p hp => ?_, fun f hf => ?_⟩
    · obtain ⟨t, ht, h⟩ := h1 p hp
      exact ⟨t, List.mem_cons_of_mem _ ht, h⟩
    · rcases List.mem_cons.1 hf with hf | hf
      · rw [hf]; exact .inl hin
      · exact h2 f hf
  | _, _, _, .omitted _ ho hs => by
    obtain ⟨h1, h2⟩ := missing_hasType hs
    refine ⟨fun p hp => ?_, fun f hf => ?_⟩
    · obtain ⟨t, ht, h⟩ := h1 p hp
      exact ⟨t, List.mem_cons_of_mem _ ht, h⟩
    · rcases List.mem_cons.1 hf with hf | hf
      · rw [hf]; exact .inr (.inr ho)
      · exact h2 f hf
  | _, _, _, .default (j := j) _ hd hs => by
    obtain ⟨h1, h2⟩ := missing_hasType hs
    refine ⟨fun p hp => ?_, fun f hf => ?_⟩
    · rcases List.mem_cons.1 hp with hp | hp
      · rw [hp]; exact ⟨_, List.mem_cons_self .., byDefault_hasType hd⟩
      · obtain ⟨t, ht, h⟩ := h1 p hp
        exact ⟨t, List.mem_cons_of_mem _ ht, h⟩
    · rcases List.mem_cons.1 hf with hf | hf
      · rw [hf]; exact .inr (.inl ⟨j, List.mem_cons_self ..⟩)
      · rcases h2 f hf with h | ⟨j', h⟩ | h
        · exact .inl h
        · exact .inr (.inl ⟨j', List.mem_cons_of_mem _ h⟩)
        · exact .inr (.inr h)
theorem byDefault_hasType {types : List (List Char × JsType)} : {t : JsType} → {j : Js} → ByDefault types t j →
    HasType types j t
  | _, _, .default h => .default (means_hasType h)
  | _, _, .ref hd h => .ref hd (byDefault_hasType h)
end

/-! ### What a schema says -/

theorem schemaName_of_scalarOf {k : Value} {name : List Char} (h : scalarOf k = some name) (h1 : name ≠ [])
    (h2 : name ≠ chars! "__proto__") : schemaName k = some name := by
  rw [schemaName, keyContent_of_scalarOf h h1]
  exact if_neg h2

theorem setAll_new (ps acc : List (List Char × JsType)) (h : ((acc ++ ps).map (·.1)).Nodup) :
    ps.foldl (fun acc p => setOwn p.1 p.2 acc) acc = acc ++ ps := by
  induction ps generalizing acc with
  | nil => simp
  | cons p ps ih =>
    have hnew : ∀ q ∈ acc, q.1 ≠ p.1 := by
      intro q hq heq
      rw [List.map_append, List.nodup_append] at h
      exact h.2.2 q.1 (List.mem_map_of_mem hq) p.1 (by simp) heq
    rw [List.foldl_cons, setOwn_new hnew, ih _ (by simpa using h)]
    simp

theorem recordOf_nodup {fs : List (List Char × JsType)} (h : (fs.map (·.1)).Nodup) : recordOf fs = fs := by
  simpa [recordOf] using setAll_new fs [] (by simpa using h)

theorem schemaTagged_named {name : List Char} (h : name ∉ builtinTypes) (fields : List (List Char × JsType))
    (items : List Value) (types : List JsType) : schemaTagged name fields items types = .ref name := by
  simp only [builtinTypes, List.mem_cons, not_or] at h
  obtain ⟨h1, h2, h3, h4, h5, h6, h7, h8, h9, h10, h11, h12, _⟩ := h
  simp only [schemaTagged, if_neg h1, if_neg h2, if_neg h3, if_neg h4, if_neg h5, if_neg h6, if_neg h7, if_neg h8, if_neg h9,
    if_neg h10, if_neg h11, if_neg h12]

theorem schemaType_plain {v : Value} {name : List Char} (h : Tagged name none v) (hne : name ≠ []) :
    schemaType v = schemaTagged name [] [] [] := by
  obtain ⟨tag, p, sp⟩ := v
  obtain ⟨⟨⟨n, s⟩, ht, hn⟩, hp⟩ := h
  simp only [Value.tag, Value.payload] at ht hp hn
  rw [ht, hp, hn]
  cases name with
  | nil => exact absurd rfl hne
  | cons c cs => simp only [schemaType]

theorem schemaType_seq {v : Value} {name : List Char} {items : List Value} {sp : Option Span}
    (h : Tagged name (some (.sequence items sp)) v) (hne : name ≠ []) :
    schemaType v = schemaTagged name [] items (schemaTypes items) := by
  obtain ⟨tag, p, sp⟩ := v
  obtain ⟨⟨⟨n, s⟩, ht, hn⟩, hp⟩ := h
  simp only [Value.tag, Value.payload] at ht hp hn
  rw [ht, hp, hn]
  cases name with
  | nil => exact absurd rfl hne
  | cons c cs => simp only [schemaType]

theorem schemaType_obj {v : Value} {name : List Char} {es : List Entry} {sp : Option Span}
    (h : Tagged name (some (.object es sp)) v) (hne : name ≠ []) :
    schemaType v = schemaTagged name (schemaFields es) [] [] := by
  obtain ⟨tag, p, sp⟩ := v
  obtain ⟨⟨⟨n, s⟩, ht, hn⟩, hp⟩ := h
  simp only [Value.tag, Value.payload] at ht hp hn
  rw [ht, hp, hn]
  cases name with
  | nil => exact absurd rfl hne
  | cons c cs => simp only [schemaType]

mutual
theorem schemaType_declares : {v : Value} → {t : JsType} → TypeOf v t → schemaType v = t
  | _, _, .string h => by rw [schemaType_plain h (nofun)]; rfl
  | _, _, .int h => by rw [schemaType_plain h (nofun)]; rfl
  | _, _, .float h => by rw [schemaType_plain h (nofun)]; rfl
  | _, _, .bool h => by rw [schemaType_plain h (nofun)]; rfl
  | _, _, .unit h => by rw [schemaType_plain h (nofun)]; rfl
  | _, _, .any h => by rw [schemaType_plain h (nofun)]; rfl
  | _, _, .object h hf hn => by
    rw [schemaType_obj h (nofun), schemaFields_declares hf]
    simp [schemaTagged, recordOf_nodup hn]
  | _, _, .seq h hi => by
    rw [schemaType_seq h (nofun)]
    simp [schemaTagged, schemaTypes, schemaType_declares hi]
  | _, _, .map h hi => by
    rw [schemaType_seq h (nofun)]
    simp [schemaTagged, schemaTypes, schemaType_declares hi]
  | _, _, .optional h hi => by
    rw [schemaType_seq h (nofun)]
    simp [schemaTagged, schemaTypes, schemaType_declares hi]
  | _, _, .default h hi => by
    rw [schemaType_seq h (nofun)]
    simp [schemaTagged, schemaTypes, schemaType_declares hi]
  | _, _, .named h hne hb => by rw [schemaType_plain h hne, schemaTagged_named hb]
theorem schemaFields_declares : {es : List Entry} → {fs : List (List Char × JsType)} → TypeOfFields es fs →
    schemaFields es = fs
  | _, _, .nil => by simp [schemaFields]
  | _, _, .cons hk h1 h2 h hs => by
    simp [schemaFields, schemaName_of_scalarOf hk h1 h2, schemaType_declares h, schemaFields_declares hs]
end

theorem readTypes_declares {es : List Entry} {fs : List (List Char × JsType)} (h : TypeOfFields es fs)
    (root : JsType) (acc : List (List Char × JsType)) (hn : ((acc ++ fs).map (·.1)).Nodup)
    (ha : ∀ p ∈ fs, p.1 ≠ chars! "@") : readTypes es ⟨root, acc⟩ = ⟨root, acc ++ fs⟩ := by
  induction es generalizing acc fs with
  | nil => cases h; simp [readTypes]
  | cons e es ih =>
    cases h with
    | @cons k v d _ name t fs hk h1 h2 h hs =>
      have hnew : ∀ q ∈ acc, q.1 ≠ name := by
        intro q hq heq
        rw [List.map_append, List.nodup_append] at hn
        exact hn.2.2 q.1 (List.mem_map_of_mem hq) name (by simp) heq
      have hp : k.payload.isNone = false := by
        obtain ⟨_, p, _⟩ := k
        cases p with
        | none => simp [scalarOf, Value.payload] at hk
        | some p => rfl
      have hat : name ≠ chars! "@" := ha (name, t) (List.mem_cons_self ..)
      rw [readTypes]
      simp only [hp, Bool.false_and, scalarContent_eq_scalarOf, hk, Option.some.injEq, hat, if_false,
        Bool.false_or, decide_false, Bool.false_eq_true, protoName, h2, schemaType_declares h, setOwn_new hnew]
      rw [ih hs (acc ++ [(name, t)]) (by simpa using hn) (fun p hp => ha p (List.mem_cons_of_mem _ hp))]
      simp

theorem parseSchema_doc {doc : List Entry} {root : JsType} {types : List (List Char × JsType)} (h : SchemaDoc doc root types) :
    parseSchema doc = some ⟨root, types⟩ := by
  obtain ⟨a, k, v, d, b, rfl, ha, hk, es, sp, hv, k', v', d', es', rfl, h1, h2, h3, h4, h5, h6⟩ := h
  have hf : (a ++ Entry.mk k v d :: b).find? (fun e => scalarContent e.key = some (chars! "schema")) = some (.mk k v d) := by
    rw [List.find?_append, List.find?_eq_none.2 (fun e he => by rw [Bool.not_eq_true]; exact decide_eq_false (ha e he))]
    simp [Entry.key, scalarContent_eq_scalarOf, hk]
  rw [parseSchema, hf]
  simp only [asObject_of_payload hv]
  rw [readTypes]
  simp only [h1, h2, Option.isNone_none, Bool.and_self, Bool.true_or, if_true, schemaType_declares h3]
  rw [readTypes_declares h4 root [] (by simpa using h5) h6]
  simp

/-! ### Reading to the end -/

theorem fieldsDepth_mem {d : List Char → Nat} {fields : List (List Char × JsType)} {p : List Char × JsType} (h : p ∈ fields) :
    defaultDepth d p.2 ≤ fieldsDepth d fields := by
  induction fields with
  | nil => cases h
  | cons q fs ih =>
    rw [fieldsDepth]
    rcases List.mem_cons.1 h with h | h
    · rw [h]; omega
    · have := ih h; omega

/-- Enough fuel jsGives an answer, which is the same for all larger fuels. -/
theorem allDone_eventually {α β : Type} {f : Nat → α → Option β} {l : List α}
    (h : ∀ x ∈ l, ∃ y, Eventually (fun n => f n x) y) : ∃ ys, Eventually (fun n => allDone (f n) l) ys := by
  induction l with
  | nil => exact ⟨[], .nil⟩
  | cons a l ih =>
    obtain ⟨y, hy⟩ := h a (List.mem_cons_self ..)
    obtain ⟨ys, hys⟩ := ih (fun x hx => h x (List.mem_cons_of_mem _ hx))
    exact ⟨y :: ys, hy.cons hys⟩

theorem asSequence_sizeOf {v : Value} {items : List Value} (h : v.asSequence = some items) {x : Value} (hx : x ∈ items) :
    sizeOf x < sizeOf v := by
  obtain ⟨t, p, s⟩ := v
  have hs := List.sizeOf_lt_of_mem hx
  match p, h with
  | some (.sequence _ _), h => cases h; simp; omega

theorem asObject_sizeOf {v : Value} {es : List Entry} (h : v.asObject = some es) {p : List Char × Value}
    (hp : p ∈ setEntries es) : sizeOf p.2 < sizeOf v := by
  obtain ⟨t, q, s⟩ := v
  obtain ⟨⟨k, w, d⟩, he, hm⟩ := List.mem_filterMap.1 hp
  have hs := List.sizeOf_lt_of_mem he
  rw [Option.map_eq_some_iff] at hm
  obtain ⟨n, _, rfl⟩ := hm
  match q, h with
  | some (.object _ _), h => cases h; simp [Entry.value] at *; omega

section
variable {types : List (List Char × JsType)} {d h : List Char → Nat}
  (ground : ∀ p ∈ types, defaultDepth d p.2 ≤ d p.1 ∧ headRank h p.2 < h p.1)
include ground

theorem getDefault_settles (k r : Nat)
    (typed : ∀ v t, defaultDepth d t < k → ∃ j, Eventually (fun n => toTyped types n v t) j)
    (t : JsType) (hk : defaultDepth d t ≤ k) (hr : headRank h t ≤ r) : ∃ j, Eventually (fun n => getDefault types n t) j := by
  induction r generalizing t with
  | zero =>
    match t, hk, hr with
    | .ref name, hk, hr =>
      cases hg : getOwn name types with
      | none => exact ⟨_, .now fun n => by simp only [getDefault, hg]; rfl⟩
      | some t' =>
        have := ground _ (getOwn_mem hg)
        simp only [headRank] at hr this
        omega
    | .default v t', hk, hr =>
      obtain ⟨j, hj⟩ := typed v t' (by simp only [defaultDepth] at hk; omega)
      exact ⟨j, hj.succ fun n => by simp only [getDefault]⟩
    | .string, _, _ | .int, _, _ | .float, _, _ | .bool, _, _ | .unit, _, _ | .any, _, _ | .object _, _, _ | .seq _, _, _
    | .map _, _, _ | .union _, _, _ | .optional _, _, _ => exact ⟨_, .now fun n => by simp only [getDefault]; rfl⟩
  | succ r ih =>
    match t, hk, hr with
    | .ref name, hk, hr =>
      cases hg : getOwn name types with
      | none => exact ⟨_, .now fun n => by simp only [getDefault, hg]; rfl⟩
      | some t' =>
        have := ground _ (getOwn_mem hg)
        simp only [headRank, defaultDepth] at hr hk this
        obtain ⟨j, hj⟩ := ih t' (by omega) (by omega)
        exact ⟨j, hj.succ fun n => by simp only [getDefault, hg]⟩
    | .default v t', hk, hr =>
      obtain ⟨j, hj⟩ := typed v t' (by simp only [defaultDepth] at hk; omega)
      exact ⟨j, hj.succ fun n => by simp only [getDefault]⟩
    | .string, _, _ | .int, _, _ | .float, _, _ | .bool, _, _ | .unit, _, _ | .any, _, _ | .object _, _, _ | .seq _, _, _
    | .map _, _, _ | .union _, _, _ | .optional _, _, _ => exact ⟨_, .now fun n => by simp only [getDefault]; rfl⟩

theorem toTyped_settles (v : Value) (t : JsType) : ∃ j, Eventually (fun n => toTyped types n v t) j := by
  match t with
  | .ref name =>
    cases hg : getOwn name types with
    | none => exact ⟨_, .now fun n => by simp only [toTyped, hg]; rfl⟩
    | some t' =>
      have := ground _ (getOwn_mem hg)
      obtain ⟨j, hj⟩ := toTyped_settles v t'
      exact ⟨j, hj.succ fun n => by simp only [toTyped, hg]⟩
  | .string => exact ⟨_, .now fun n => by simp only [toTyped]; rfl⟩
  | .int =>
    match hs : scalarContent v with
    | some (c :: cs) => exact ⟨_, .now fun n => by simp only [toTyped, hs]; rfl⟩
    | some [] => exact ⟨_, .now fun n => by simp only [toTyped, hs]; rfl⟩
    | none => exact ⟨_, .now fun n => by simp only [toTyped, hs]; rfl⟩
  | .float =>
    match hs : scalarContent v with
    | some (c :: cs) => exact ⟨_, .now fun n => by simp only [toTyped, hs]; rfl⟩
    | some [] => exact ⟨_, .now fun n => by simp only [toTyped, hs]; rfl⟩
    | none => exact ⟨_, .now fun n => by simp only [toTyped, hs]; rfl⟩
  | .bool => exact ⟨_, .now fun n => by simp only [toTyped]; rfl⟩
  | .unit => exact ⟨_, .now fun n => by simp only [toTyped]; rfl⟩
  | .any => exact ⟨_, .now fun n => by simp only [toTyped]; rfl⟩
  | .union _ => exact ⟨_, .now fun n => by simp only [toTyped]; rfl⟩
  | .object fields =>
    match ho : v.asObject with
    | none => exact ⟨_, .now fun n => by simp only [toTyped, ho]; rfl⟩
    | some es =>
      have h1 : ∃ ps, Eventually (fun n => allDone (fun p => (toTyped types n p.2 ((getOwn p.1 fields).getD .any)).map
          fun x => (p.1, x)) (setEntries es)) ps := by
        refine allDone_eventually fun p hp => ?_
        have hle : defaultDepth d ((getOwn p.1 fields).getD .any) ≤ fieldsDepth d fields := by
          cases hg : getOwn p.1 fields with
          | none => simp [defaultDepth]
          | some t' => exact fieldsDepth_mem (getOwn_mem hg)
        have hlt := asObject_sizeOf ho hp
        obtain ⟨j, hj⟩ := toTyped_settles p.2 ((getOwn p.1 fields).getD .any)
        exact ⟨_, hj.map _⟩
      have h2 : ∃ ds, Eventually (fun n => allDone (fun f => (getDefault types n f.2).map fun x => (f.1, x))
          (missingFields fields es)) ds := by
        refine allDone_eventually fun f hf => ?_
        have hle := fieldsDepth_mem (d := d) (List.mem_filter.1 hf).1
        obtain ⟨j, hj⟩ := getDefault_settles ground (fieldsDepth d fields) _
          (fun v' t' hk => toTyped_settles v' t') f.2 hle (Nat.le_refl _)
        exact ⟨_, hj.map _⟩
      obtain ⟨ps, n, hn⟩ := h1
      obtain ⟨ds, n', hn'⟩ := h2
      refine ⟨objectOf (ps ++ definedOnly ds), max n n' + 1, fun m hm => ?_⟩
      obtain ⟨m, rfl⟩ : ∃ k, m = k + 1 := ⟨m - 1, by omega⟩
      have h1 := hn m (by omega)
      have h2 := hn' m (by omega)
      simp only [] at h1 h2
      simp only [toTyped, ho, h1, h2]
  | .seq inner =>
    match ho : v.asSequence with
    | none => exact ⟨_, .now fun n => by simp only [toTyped, ho]; rfl⟩
    | some items =>
      obtain ⟨js, hjs⟩ := allDone_eventually (f := fun n x => toTyped types n x inner) (l := items) fun x hx => by
        have hlt := asSequence_sizeOf ho hx
        exact toTyped_settles x inner
      exact ⟨.arr js, (hjs.map Js.arr).succ fun n => by simp only [toTyped, ho]⟩
  | .map inner =>
    match ho : v.asObject with
    | none => exact ⟨_, .now fun n => by simp only [toTyped, ho]; rfl⟩
    | some es =>
      obtain ⟨ps, hps⟩ := allDone_eventually
        (f := fun n (p : List Char × Value) => (toTyped types n p.2 inner).map fun x => (p.1, x)) (l := setEntries es) fun p hp => by
          have hlt := asObject_sizeOf ho hp
          obtain ⟨j, hj⟩ := toTyped_settles p.2 inner
          exact ⟨_, hj.map _⟩
      exact ⟨objectOf ps, (hps.map objectOf).succ fun n => by simp only [toTyped, ho]⟩
  | .optional inner =>
    obtain ⟨j, hj⟩ := toTyped_settles v inner
    exact ⟨j, hj.succ fun n => by simp only [toTyped]⟩
  | .default d' inner =>
    obtain ⟨j, hj⟩ := toTyped_settles v inner
    exact ⟨j, hj.succ fun n => by simp only [toTyped]⟩
termination_by (defaultDepth d t, sizeOf v, headRank h t, sizeOf t)
decreasing_by
  all_goals simp only [Prod.lex_def, defaultDepth, headRank, JsType.seq.sizeOf_spec, JsType.optional.sizeOf_spec] at *
  all_goals first | omega | (simp only [true_and]; omega) | skip
end

/-! ### More fuel -/

theorem allDone_mono {α β : Type} {f g : α → Option β} {l : List α} {ys : List β} (h : ∀ x ∈ l, ∀ y, f x = some y → g x = some y)
    (hf : allDone f l = some ys) : allDone g l = some ys := by
  induction l generalizing ys with
  | nil => exact hf
  | cons a l ih =>
    simp only [allDone] at hf ⊢
    split at hf
    · next y zs h1 h2 =>
      rw [h a (List.mem_cons_self ..) y h1, ih (fun x hx => h x (List.mem_cons_of_mem _ hx)) h2]
      exact hf
    · cases hf

theorem map_mono {α β : Type} {a b : Option α} {f : α → β} {y : β} (h : ∀ x, a = some x → b = some x)
    (hm : a.map f = some y) : b.map f = some y := by
  obtain ⟨x, hx, rfl⟩ := Option.map_eq_some_iff.1 hm
  rw [h x hx]; rfl

theorem typed_mono (types : List (List Char × JsType)) : ∀ n,
    (∀ v t j, toTyped types n v t = some j → toTyped types (n + 1) v t = some j) ∧
      ∀ t j, getDefault types n t = some j → getDefault types (n + 1) t = some j
  | 0 => ⟨fun _ _ _ h => (by simp only [toTyped] at h; cases h), fun _ _ h => (by simp only [getDefault] at h; cases h)⟩
  | n + 1 => by
    obtain ⟨i1, i2⟩ := typed_mono types n
    refine ⟨fun v t j h => ?_, fun t j h => ?_⟩
    · match t, h with
      | .ref name, h =>
        simp only [toTyped] at h ⊢
        split at h
        · exact i1 _ _ _ h
        · exact h
      | .object fields, h =>
        rw [toTyped] at h ⊢
        cases ho : v.asObject with
        | none => simp only [ho] at h ⊢; exact h
        | some es =>
          simp only [ho] at h ⊢
          split at h
          · next ps ds h1 h2 =>
            rw [allDone_mono (fun p _ y hy => map_mono (fun x hx => i1 _ _ _ hx) hy) h1,
              allDone_mono (fun p _ y hy => map_mono (fun x hx => i2 _ _ hx) hy) h2]
            exact h
          · cases h
      | .seq inner, h =>
        rw [toTyped] at h ⊢
        cases ho : v.asSequence with
        | none => simp only [ho] at h ⊢; exact h
        | some es =>
          simp only [ho] at h ⊢
          exact map_mono (fun x hx => allDone_mono (fun p _ y hy => i1 _ _ _ hy) hx) h
      | .map inner, h =>
        rw [toTyped] at h ⊢
        cases ho : v.asObject with
        | none => simp only [ho] at h ⊢; exact h
        | some es =>
          simp only [ho] at h ⊢
          exact map_mono (fun x hx => allDone_mono (fun p _ y hy => map_mono (fun x hx => i1 _ _ _ hx) hy) hx) h
      | .optional inner, h => simp only [toTyped] at h ⊢; exact i1 _ _ _ h
      | .default _ inner, h => simp only [toTyped] at h ⊢; exact i1 _ _ _ h
      | .string, h | .int, h | .float, h | .bool, h | .unit, h | .any, h | .union _, h =>
        simp only [toTyped] at h ⊢; exact h
    · match t, h with
      | .ref name, h =>
        simp only [getDefault] at h ⊢
        split at h
        · exact i2 _ _ h
        · exact h
      | .default _ inner, h => simp only [getDefault] at h ⊢; exact i1 _ _ _ h
      | .string, h | .int, h | .float, h | .bool, h | .unit, h | .any, h | .union _, h | .object _, h | .seq _, h
      | .map _, h | .optional _, h => simp only [getDefault] at h ⊢; exact h

theorem toTyped_eventually {types : List (List Char × JsType)} {n : Nat} {v : Value} {t : JsType} {j : Js}
    (h : toTyped types n v t = some j) : Eventually (fun n => toTyped types n v t) j := by
  refine ⟨n, fun m hm => ?_⟩
  induction hm with
  | refl => exact h
  | step _ ih => exact (typed_mono types _).1 _ _ _ ih

end Styx.Impl
