import Verif.Gen.GoSpec

/-!
# Lemmas about the generator of Go code
-/

namespace Styx.Go
open Styx.Schema Styx.Spec

variable {F : Type} {upper : Char → List Char}

/-! ## The table of types -/

def keys (ts : Types F) : List (List Char) := ts.map (·.1)

theorem mem_keys {ts : Types F} {k : List Char} : k ∈ keys ts ↔ ∃ t, (k, t) ∈ ts := by
  simp [keys]

theorem insert_keys {k k' : List Char} {t : GoType F} : ∀ {ts : Types F},
    k' ∈ keys (insert k t ts) ↔ k' = k ∨ k' ∈ keys ts
  | [] => by simp [insert, keys]
  | (k₀, t₀) :: rest => by
    have ih := insert_keys (k := k) (k' := k') (t := t) (ts := rest)
    rw [insert]
    split
    · next h => subst h; simp [keys]
    · simp only [keys, List.map_cons, List.mem_cons] at ih ⊢
      rw [ih]; grind

theorem insert_mem {k k' : List Char} {t t' : GoType F} : ∀ {ts : Types F},
    (k', t') ∈ insert k t ts → (k', t') = (k, t) ∨ (k', t') ∈ ts
  | [], h => by simpa [insert] using h
  | (k₀, t₀) :: rest, h => by
    rw [insert] at h
    split at h
    · rcases List.mem_cons.1 h with h | h
      · exact Or.inl h
      · exact Or.inr (List.mem_cons_of_mem _ h)
    · rcases List.mem_cons.1 h with h | h
      · exact Or.inr (h ▸ List.mem_cons_self ..)
      · rcases insert_mem h with h | h
        · exact Or.inl h
        · exact Or.inr (List.mem_cons_of_mem _ h)

theorem insert_lookup_self {k : List Char} {t : GoType F} : ∀ {ts : Types F},
    lookup k (insert k t ts) = some t
  | [] => by simp [insert, lookup]
  | (k₀, t₀) :: rest => by
    rw [insert]
    split
    · simp [lookup]
    · next h => rw [lookup, if_neg h, insert_lookup_self]

theorem lookup_mem {k : List Char} {t : GoType F} : ∀ {ts : Types F},
    lookup k ts = some t → (k, t) ∈ ts
  | [], h => by simp [lookup] at h
  | (k₀, t₀) :: rest, h => by
    rw [lookup] at h
    split at h
    · next h' => cases h; subst h'; exact List.mem_cons_self ..
    · exact List.mem_cons_of_mem _ (lookup_mem h)

theorem lookup_of_keys {k : List Char} : ∀ {ts : Types F}, k ∈ keys ts → ∃ t, lookup k ts = some t
  | [], h => by simp [keys] at h
  | (k₀, t₀) :: rest, h => by
    rw [lookup]
    split
    · exact ⟨_, rfl⟩
    · next hne =>
      simp only [keys, List.map_cons, List.mem_cons] at h
      rcases h with h | h
      · exact absurd h.symm hne
      · exact lookup_of_keys h

theorem any_keys {ts : Types F} {k : List Char} : (ts.any (·.1 = k)) = true ↔ k ∈ keys ts := by
  simp [keys]

/-! ## The fields do not depend on the table -/

/-- The field, without the table. -/
def fieldFor (upper : Char → List Char) (parent name : List Char) (optional : Bool) :
    Schema F → Field F
  | .default _ inner => fieldFor upper parent name optional inner
  | .optional inner => fieldFor upper parent name true inner
  | .object _ => fieldOf upper name optional (parent ++ pascal upper name) none
  | s => fieldOf upper name optional (typeName upper s) (extractConstraints s)

/-- The named entries of an object. -/
def named (fs : List (ObjectKey × Schema F)) : List (List Char × Schema F) :=
  fs.filterMap fun e => e.1.value.map (·, e.2)

/-- The fields of a struct, without the table. -/
def fieldsFor (upper : Char → List Char) (parent : List Char) (fs : List (ObjectKey × Schema F)) :
    List (Field F) :=
  (named fs).map fun e => fieldFor upper parent e.1 false e.2

theorem mapField_fst (s : Schema F) : ∀ (ts : Types F) (parent name : List Char) (o : Bool),
    (mapField upper ts parent name o s).1 = fieldFor upper parent name o s := by
  induction s using Schema.rec
    (motive_2 := fun _ => True) (motive_3 := fun _ => True) (motive_4 := fun _ => True)
    (motive_5 := fun _ => True) (motive_6 := fun _ => True)
    <;> first | trivial | (intro ts parent name o; simp_all [mapField, fieldFor])

theorem mapFields_fst : ∀ (fs : List (ObjectKey × Schema F)) (ts : Types F) (parent : List Char),
    (mapFields upper ts parent fs).1 = fieldsFor upper parent fs
  | [], _, _ => by simp [mapFields, fieldsFor, named]
  | (key, s) :: rest, ts, parent => by
    rw [mapFields]
    simp only [mapFields_fst rest]
    rw [mapEntry]
    cases h : key.value with
    | none => simp [fieldsFor, named, h]
    | some n => simp [fieldsFor, named, h, mapField_fst]

/-! ## The table has the struct of each object -/

theorem core_default {v : List Char} {i c : Schema F} {o : Bool} :
    FieldCore (.default v i) o c ↔ FieldCore i o c := by
  constructor
  · intro h
    cases h with
    | base h _ => exact absurd rfl (h _ _)
    | default h => exact h
  · exact .default

theorem core_optional {i c : Schema F} {o : Bool} :
    FieldCore (.optional i) o c ↔ o = true ∧ ∃ o', FieldCore i o' c := by
  constructor
  · intro h
    cases h with
    | base _ h => exact absurd rfl (h _)
    | optional h => exact ⟨rfl, _, h⟩
  · rintro ⟨rfl, _, h⟩
    exact .optional h

/-- What holds of the table while it is filled. -/
structure Inv (upper : Char → List Char) (sf : SchemaFile F) (ts : Types F) : Prop where
  right : ∀ {m t fs}, (m, t) ∈ ts → ObjectNamed upper sf m fs → t = .struct (fieldsFor upper m fs)
  closed : ∀ {m fs key name s o fs'}, m ∈ keys ts → ObjectNamed upper sf m fs → (key, s) ∈ fs →
    key.value = some name → FieldCore s o (.object fs') → m ++ pascal upper name ∈ keys ts

/-- The table is larger and still right. -/
structure Grows (upper : Char → List Char) (sf : SchemaFile F) (ts ts' : Types F) : Prop where
  inv : Inv upper sf ts'
  more : ∀ {k}, k ∈ keys ts → k ∈ keys ts'

theorem Grows.trans {sf : SchemaFile F} {a b c : Types F} (h : Grows upper sf a b)
    (h' : Grows upper sf b c) : Grows upper sf a c := ⟨h'.inv, fun hk => h'.more (h.more hk)⟩

mutual
theorem mapField_grows {sf : SchemaFile F} (hc : NoClash upper sf) : ∀ (s : Schema F)
    (ts : Types F) (parent name : List Char) (o : Bool), Inv upper sf ts →
    (∀ o fs, FieldCore s o (.object fs) → ObjectNamed upper sf (parent ++ pascal upper name) fs) →
    Grows upper sf ts (mapField upper ts parent name o s).2 ∧
      ∀ o' fs, FieldCore s o' (.object fs) →
        parent ++ pascal upper name ∈ keys (mapField upper ts parent name o s).2
  | .default v inner, ts, parent, name, o, hi, hn => by
    rw [mapField]
    have := mapField_grows hc inner ts parent name o hi
      (fun o fs h => hn o fs (core_default.2 h))
    exact ⟨this.1, fun o' fs h => this.2 o' fs (core_default.1 h)⟩
  | .optional inner, ts, parent, name, o, hi, hn => by
    rw [mapField]
    have := mapField_grows hc inner ts parent name true hi
      (fun o fs h => hn true fs (core_optional.2 ⟨rfl, _, h⟩))
    refine ⟨this.1, fun o' fs h => ?_⟩
    obtain ⟨_, o₂, h⟩ := core_optional.1 h
    exact this.2 o₂ fs h
  | .object fields, ts, parent, name, o, hi, hn => by
    have hobj : ObjectNamed upper sf (parent ++ pascal upper name) fields :=
      hn false fields (.base (by simp) (by simp))
    rw [mapField]
    by_cases hk : (ts.any (·.1 = parent ++ pascal upper name)) = true
    · simp only [hk, if_true]
      exact ⟨⟨hi, id⟩, fun _ _ _ => any_keys.1 hk⟩
    · simp only [hk]
      have ih := mapFields_grows hc fields ts (parent ++ pascal upper name) hi fields hobj
        (fun e he => he)
      have h1 := mapFields_fst (upper := upper) fields ts (parent ++ pascal upper name)
      simp only [h1]
      generalize (mapFields upper ts (parent ++ pascal upper name) fields).2 = ts' at ih
      refine ⟨⟨⟨?_, ?_⟩, fun h => insert_keys.2 (Or.inr (ih.1.more h))⟩,
        fun _ _ _ => insert_keys.2 (Or.inl rfl)⟩
      · intro m t fs hm ho
        rcases insert_mem hm with hm | hm
        · cases hm
          rw [hc.objects ho hobj]
        · exact ih.1.inv.right hm ho
      · intro m fs key n s o fs' hm ho he hkv hcore
        rcases insert_keys.1 hm with hm | hm
        · subst hm
          rw [hc.objects ho hobj] at he
          exact insert_keys.2 (Or.inr (ih.2 key s he n hkv o fs' hcore))
        · exact insert_keys.2 (Or.inr (ih.1.inv.closed hm ho he hkv hcore))
  | .string _, ts, _, _, _, hi, _ => ⟨⟨hi, id⟩, fun _ _ h => nomatch h⟩
  | .int _, ts, _, _, _, hi, _ => ⟨⟨hi, id⟩, fun _ _ h => nomatch h⟩
  | .float _, ts, _, _, _, hi, _ => ⟨⟨hi, id⟩, fun _ _ h => nomatch h⟩
  | .bool, ts, _, _, _, hi, _ => ⟨⟨hi, id⟩, fun _ _ h => nomatch h⟩
  | .unit, ts, _, _, _, hi, _ => ⟨⟨hi, id⟩, fun _ _ h => nomatch h⟩
  | .any, ts, _, _, _, hi, _ => ⟨⟨hi, id⟩, fun _ _ h => nomatch h⟩
  | .seq _, ts, _, _, _, hi, _ => ⟨⟨hi, id⟩, fun _ _ h => nomatch h⟩
  | .tuple _, ts, _, _, _, hi, _ => ⟨⟨hi, id⟩, fun _ _ h => nomatch h⟩
  | .map _, ts, _, _, _, hi, _ => ⟨⟨hi, id⟩, fun _ _ h => nomatch h⟩
  | .union _, ts, _, _, _, hi, _ => ⟨⟨hi, id⟩, fun _ _ h => nomatch h⟩
  | .enum _, ts, _, _, _, hi, _ => ⟨⟨hi, id⟩, fun _ _ h => nomatch h⟩
  | .oneOf _ _, ts, _, _, _, hi, _ => ⟨⟨hi, id⟩, fun _ _ h => nomatch h⟩
  | .flatten _, ts, _, _, _, hi, _ => ⟨⟨hi, id⟩, fun _ _ h => nomatch h⟩
  | .deprecated _ _, ts, _, _, _, hi, _ => ⟨⟨hi, id⟩, fun _ _ h => nomatch h⟩
  | .literal _, ts, _, _, _, hi, _ => ⟨⟨hi, id⟩, fun _ _ h => nomatch h⟩
  | .type _, ts, _, _, _, hi, _ => ⟨⟨hi, id⟩, fun _ _ h => nomatch h⟩
theorem mapEntry_grows {sf : SchemaFile F} (hc : NoClash upper sf) :
    ∀ (e : ObjectKey × Schema F) (ts : Types F) (parent : List Char), Inv upper sf ts →
    ∀ all, ObjectNamed upper sf parent all → e ∈ all →
    Grows upper sf ts (mapEntry upper ts parent e).2 ∧
      ∀ name, e.1.value = some name → ∀ o fs, FieldCore e.2 o (.object fs) →
        parent ++ pascal upper name ∈ keys (mapEntry upper ts parent e).2
  | (key, s), ts, parent, hi, all, ho, he => by
    rw [mapEntry]
    cases hv : key.value with
    | none => exact ⟨⟨hi, id⟩, fun n h => by simp at h⟩
    | some n =>
      have := mapField_grows hc s ts parent n false hi
        (fun o fs h => .nested ho he hv h)
      refine ⟨this.1, fun n' hn' o fs h => ?_⟩
      cases hn'
      exact this.2 o fs h
theorem mapFields_grows {sf : SchemaFile F} (hc : NoClash upper sf) :
    ∀ (es : List (ObjectKey × Schema F)) (ts : Types F) (parent : List Char), Inv upper sf ts →
    ∀ all, ObjectNamed upper sf parent all → (∀ e ∈ es, e ∈ all) →
    Grows upper sf ts (mapFields upper ts parent es).2 ∧
      ∀ key s, (key, s) ∈ es → ∀ name, key.value = some name → ∀ o fs, FieldCore s o (.object fs) →
        parent ++ pascal upper name ∈ keys (mapFields upper ts parent es).2
  | [], ts, parent, hi, all, ho, he => ⟨⟨hi, id⟩, fun _ _ h => nomatch h⟩
  | e :: rest, ts, parent, hi, all, ho, he => by
    rw [mapFields]
    have h1 := mapEntry_grows hc e ts parent hi all ho (he _ (List.mem_cons_self ..))
    have h2 := mapFields_grows hc rest (mapEntry upper ts parent e).2 parent h1.1.inv all ho
      (fun x hx => he x (List.mem_cons_of_mem _ hx))
    refine ⟨h1.1.trans h2.1, fun key s hm name hv o fs hcore => ?_⟩
    rcases List.mem_cons.1 hm with hm | hm
    · subst hm
      exact h2.1.more (h1.2 name hv o fs hcore)
    · exact h2.2 key s hm name hv o fs hcore
end

/-- The name of a schema file's type is the name of the object it defines. -/
theorem objectNamed_entry {sf : SchemaFile F} {k : Option (List Char)} {s : Schema F}
    {fs : List (ObjectKey × Schema F)} (he : (k, s) ∈ sf) (hd : DefinesObject s fs) :
    ObjectNamed upper sf (nameOf k) fs := by
  cases k with
  | none => exact .root he hd
  | some n => exact .named he hd

theorem definesObject_of_entry {sf : SchemaFile F} (hc : NoClash upper sf) {k : Option (List Char)}
    {s : Schema F} {fs : List (ObjectKey × Schema F)} (he : (k, s) ∈ sf)
    (ho : ObjectNamed upper sf (nameOf k) fs) : DefinesObject s fs := by
  have : ∃ fs', DefinesObject s fs' := by
    cases k with
    | none => exact hc.root ho he
    | some n => exact hc.named ho he
  obtain ⟨fs', h⟩ := this
  rw [hc.objects ho (objectNamed_entry he h)]
  exact h

theorem mapType_object {s : Schema F} {fs : List (ObjectKey × Schema F)} (h : DefinesObject s fs) :
    ∀ (ts : Types F) (parent : List Char),
      mapType upper ts parent s = (.struct (fieldsFor upper parent fs), (mapFields upper ts parent fs).2) := by
  induction h with
  | object fs => intro ts parent; rw [mapType, ← mapFields_fst fs ts parent]
  | default _ ih => intro ts parent; rw [mapType]; exact ih ts parent
  | flatten _ ih => intro ts parent; rw [mapType]; exact ih ts parent
  | deprecated _ ih => intro ts parent; rw [mapType]; exact ih ts parent

/-- A schema that defines no object leaves the table as it is. -/
theorem mapType_other (s : Schema F) : ∀ (ts : Types F) (parent : List Char),
    (∀ fs, ¬ DefinesObject s fs) → (mapType upper ts parent s).2 = ts := by
  induction s using Schema.rec
    (motive_2 := fun _ => True) (motive_3 := fun _ => True) (motive_4 := fun _ => True)
    (motive_5 := fun _ => True) (motive_6 := fun _ => True) <;> try trivial
  case object => intro ts parent h; exact absurd (.object _) (h _)
  case default ih => intro ts parent h; rw [mapType]; exact ih ts parent fun fs hd => h fs (.default hd)
  case flatten ih => intro ts parent h; rw [mapType]; exact ih ts parent fun fs hd => h fs (.flatten hd)
  case deprecated ih =>
    intro ts parent h; rw [mapType]; exact ih ts parent fun fs hd => h fs (.deprecated hd)
  case tuple items _ => intro ts parent h; cases items <;> simp [mapType]
  case map items _ =>
    intro ts parent h
    match items with
    | [] => simp [mapType]
    | [_] => simp [mapType]
    | _ :: _ :: _ => simp [mapType]
  case type n => intro ts parent h; cases n <;> simp [mapType]
  all_goals (intro ts parent h; simp [mapType])

theorem registerType_grows {sf : SchemaFile F} (hc : NoClash upper sf) {ts : Types F}
    (hi : Inv upper sf ts) {k : Option (List Char)} {s : Schema F} (he : (k, s) ∈ sf) :
    Grows upper sf ts (registerType upper ts (nameOf k) s) ∧
      nameOf k ∈ keys (registerType upper ts (nameOf k) s) := by
  rw [registerType]
  by_cases hd : ∃ fs, DefinesObject s fs
  · obtain ⟨fs, hd⟩ := hd
    have hobj := objectNamed_entry (upper := upper) he hd
    rw [mapType_object hd]
    have ih := mapFields_grows hc fs ts (nameOf k) hi fs hobj (fun e he => he)
    refine ⟨⟨⟨?_, ?_⟩, fun h => insert_keys.2 (Or.inr (ih.1.more h))⟩, insert_keys.2 (Or.inl rfl)⟩
    · intro m t fs' hm ho
      rcases insert_mem hm with hm | hm
      · cases hm
        rw [hc.objects ho hobj]
      · exact ih.1.inv.right hm ho
    · intro m fs' key n s o fs'' hm ho he' hkv hcore
      rcases insert_keys.1 hm with hm | hm
      · subst hm
        rw [hc.objects ho hobj] at he'
        exact insert_keys.2 (Or.inr (ih.2 key s he' n hkv o fs'' hcore))
      · exact insert_keys.2 (Or.inr (ih.1.inv.closed hm ho he' hkv hcore))
  · have hd' : ∀ fs, ¬ DefinesObject s fs := fun fs h => hd ⟨fs, h⟩
    have h2 := mapType_other (upper := upper) s ts (nameOf k) hd'
    simp only [h2]
    refine ⟨⟨⟨?_, ?_⟩, fun h => insert_keys.2 (Or.inr h)⟩, insert_keys.2 (Or.inl rfl)⟩
    · intro m t fs' hm ho
      rcases insert_mem hm with hm | hm
      · cases hm
        exact absurd (definesObject_of_entry hc he ho) (hd' _)
      · exact hi.right hm ho
    · intro m fs' key n s' o fs'' hm ho he' hkv hcore
      rcases insert_keys.1 hm with hm | hm
      · subst hm
        exact absurd (definesObject_of_entry hc he ho) (hd' _)
      · exact insert_keys.2 (Or.inr (hi.closed hm ho he' hkv hcore))

theorem generate_inv {sf : SchemaFile F} (hc : NoClash upper sf) :
    Inv upper sf (generate upper sf) ∧ ∀ {k s}, (k, s) ∈ sf → nameOf k ∈ keys (generate upper sf) := by
  have key : ∀ (l : SchemaFile F) (ts : Types F), (∀ e ∈ l, e ∈ sf) → Inv upper sf ts →
      Grows upper sf ts (l.foldl (fun types e => registerType upper types (nameOf e.1) e.2) ts) ∧
      ∀ {k s}, (k, s) ∈ l →
        nameOf k ∈ keys (l.foldl (fun types e => registerType upper types (nameOf e.1) e.2) ts) := by
    intro l
    induction l with
    | nil => intro ts _ hi; exact ⟨⟨hi, id⟩, fun h => nomatch h⟩
    | cons e rest ih =>
      intro ts hl hi
      have h1 := registerType_grows hc hi (k := e.1) (s := e.2) (hl _ (List.mem_cons_self ..))
      have h2 := ih (registerType upper ts (nameOf e.1) e.2)
        (fun x hx => hl x (List.mem_cons_of_mem _ hx)) h1.1.inv
      refine ⟨h1.1.trans h2.1, fun {k s} hm => ?_⟩
      rcases List.mem_cons.1 hm with hm | hm
      · subst hm
        exact h2.1.more h1.2
      · exact h2.2 hm
  have := key sf [] (fun e he => he) ⟨(fun h => nomatch h), (fun h => nomatch h)⟩
  exact ⟨this.1.inv, this.2⟩

/-- Each object has its struct in the table. -/
theorem generate_struct {sf : SchemaFile F} (hc : NoClash upper sf) {m : List Char}
    {fs : List (ObjectKey × Schema F)} (ho : ObjectNamed upper sf m fs) :
    lookup m (generate upper sf) = some (.struct (fieldsFor upper m fs)) := by
  obtain ⟨hi, hk⟩ := generate_inv hc
  have hm : m ∈ keys (generate upper sf) := by
    cases ho with
    | named he _ => exact hk he
    | root he _ => exact hk he
    | nested ho' he hv hcore =>
      have hp : ∀ {m fs}, ObjectNamed upper sf m fs → m ∈ keys (generate upper sf) := by
        intro m fs h
        induction h with
        | named he _ => exact hk he
        | root he _ => exact hk he
        | nested h' he hv hcore ih => exact hi.closed ih h' he hv hcore
      exact hp (.nested ho' he hv hcore)
  obtain ⟨t, ht⟩ := lookup_of_keys hm
  rw [ht, hi.right (lookup_mem ht) ho]

end Styx.Go
