import Verif.Schema.Spec

/-!
# Basic facts about the schema validator
-/

namespace Styx.Schema

section lists

theorem lookup_mem {K V : Type} [DecidableEq K] {k : K} {v : V} :
    ∀ {l : List (K × V)}, lookup k l = some v → (k, v) ∈ l
  | [], h => by simp [lookup] at h
  | (k', v') :: rest, h => by
    rw [lookup] at h
    split at h
    · next he => obtain rfl := Option.some.inj h; subst he; simp
    · exact List.mem_cons_of_mem _ (lookup_mem h)

theorem lookup_of_mem {K V : Type} [DecidableEq K] {k : K} {v : V} :
    ∀ {l : List (K × V)}, DistinctKeys l → (k, v) ∈ l → lookup k l = some v
  | (k', v') :: rest, hd, h => by
    rw [lookup]
    rw [DistinctKeys, List.map_cons, List.nodup_cons] at hd
    rcases List.mem_cons.mp h with h | h
    · cases h; simp
    · split
      · next he =>
        subst he
        exact absurd (List.mem_map_of_mem (f := (·.1)) h) hd.1
      · exact lookup_of_mem hd.2 h

theorem lookup_none {K V : Type} [DecidableEq K] {k : K} :
    ∀ {l : List (K × V)}, lookup k l = none → ∀ v, (k, v) ∉ l
  | [], _ => by simp
  | (k', v') :: rest, h => by
    rw [lookup] at h
    split at h
    · simp at h
    · next he =>
      intro v hm
      rcases List.mem_cons.mp hm with hm | hm
      · cases hm; exact he rfl
      · exact lookup_none h v hm

theorem distinct_unique {K V : Type} [DecidableEq K] {l : List (K × V)} (hd : DistinctKeys l) {k v w}
    (h : (k, v) ∈ l) (g : (k, w) ∈ l) : v = w := by
  have := lookup_of_mem hd h
  rw [lookup_of_mem hd g] at this
  exact (Option.some.inj this).symm

end lists

section results

theorem isValid_ok : Result.ok.isValid = true := rfl

theorem isValid_fail (p s k) : (Result.fail p s k).isValid = false := rfl

theorem isValid_merge (r s : Result) : (r.merge s).isValid = (r.isValid && s.isValid) := by
  simp only [Result.isValid, Result.merge]
  cases r.errors <;> simp

theorem isValid_when (c p s k) : (Result.when c p s k).isValid = !c := by
  cases c <;> rfl

theorem isValid_warning (r : Result) (w) : (r.warning w).isValid = r.isValid := rfl

theorem mergeAll_some {α : Type} {f : α → Option Result} : ∀ {xs : List α} {r},
    mergeAll f xs = some r →
    (∀ x ∈ xs, ∃ a, f x = some a) ∧ (r.isValid = true ↔ ∀ x ∈ xs, ∀ a, f x = some a → a.isValid = true)
  | [], r, h => by
    simp only [mergeAll, Option.some.injEq] at h
    subst h
    simp [isValid_ok]
  | x :: xs, r, h => by
    simp only [mergeAll, Option.bind_eq_some_iff, Option.map_eq_some_iff] at h
    obtain ⟨a, ha, b, hb, rfl⟩ := h
    obtain ⟨h1, h2⟩ := mergeAll_some hb
    refine ⟨by
      intro y hy
      rcases List.mem_cons.mp hy with rfl | hy
      · exact ⟨a, ha⟩
      · exact h1 y hy, ?_⟩
    rw [isValid_merge, Bool.and_eq_true, h2]
    constructor
    · rintro ⟨e1, e2⟩ y hy c hc
      rcases List.mem_cons.mp hy with rfl | hy
      · rw [ha] at hc; obtain rfl := Option.some.inj hc; exact e1
      · exact e2 y hy c hc
    · intro e
      exact ⟨e x (by simp) a ha, fun y hy => e y (List.mem_cons_of_mem _ hy)⟩

end results

section values

theorem scalarText_iff {v : Value} {t} : v.scalarText = some t ↔ HasText v t := by
  obtain ⟨tag, p, sp⟩ := v
  constructor
  · intro h
    rcases p with _ | p
    · simp [Value.scalarText] at h
    · cases p with
      | scalar text kind s =>
        simp only [Value.scalarText, Option.some.injEq] at h
        subst h
        exact ⟨_, _, _, _, rfl⟩
      | sequence => simp [Value.scalarText] at h
      | object => simp [Value.scalarText] at h
  · rintro ⟨tag', k, s, s', h⟩
    cases h
    rfl

theorem scalarText_none {v : Value} (h : v.scalarText = none) : ∀ t, ¬ HasText v t := by
  intro t ht
  rw [← scalarText_iff, h] at ht
  cases ht

theorem HasText.unique {v : Value} {t u} (h : HasText v t) (g : HasText v u) : t = u := by
  rw [← scalarText_iff] at h g
  rw [h] at g
  exact Option.some.inj g

theorem asObject_iff {v : Value} {es} : v.asObject = some es ↔ HasEntries v es := by
  obtain ⟨tag, p, sp⟩ := v
  constructor
  · intro h
    rcases p with _ | p
    · simp [Value.asObject] at h
    · cases p with
      | object es' s =>
        simp only [Value.asObject, Option.some.injEq] at h
        subst h
        exact ⟨_, _, _, rfl⟩
      | sequence => simp [Value.asObject] at h
      | scalar => simp [Value.asObject] at h
  · rintro ⟨tag', s, s', h⟩
    cases h
    rfl

theorem asSequence_iff {v : Value} {es} : v.asSequence = some es ↔ HasItems v es := by
  obtain ⟨tag, p, sp⟩ := v
  constructor
  · intro h
    rcases p with _ | p
    · simp [Value.asSequence] at h
    · cases p with
      | sequence es' s =>
        simp only [Value.asSequence, Option.some.injEq] at h
        subst h
        exact ⟨_, _, _, rfl⟩
      | object => simp [Value.asSequence] at h
      | scalar => simp [Value.asSequence] at h
  · rintro ⟨tag', s, s', h⟩
    cases h
    rfl

theorem isUnit_iff {v : Value} : v.isUnit = true ↔ IsUnitValue v := by
  obtain ⟨tag, p, sp⟩ := v
  constructor
  · intro h
    cases tag <;> cases p <;> simp [Value.isUnit, Value.tag, Value.payload] at h
    exact ⟨_, rfl⟩
  · rintro ⟨s, h⟩
    cases h
    rfl

theorem asStr_iff {e : Entry} {n} : e.key.asStr = some n ↔ KeyIs e n := by
  rw [KeyIs]
  obtain ⟨tag, p, sp⟩ := e.key
  constructor
  · intro h
    rcases tag with _ | tag
    · rcases p with _ | p
      · simp [Value.asStr] at h
      · cases p with
        | scalar text kind s =>
          simp only [Value.asStr, Option.some.injEq] at h
          subst h
          exact ⟨_, _, _, rfl⟩
        | sequence => simp [Value.asStr] at h
        | object => simp [Value.asStr] at h
    · simp [Value.asStr] at h
  · rintro ⟨k, s, s', h⟩
    cases h
    rfl

theorem KeyIs.unique {e : Entry} {m n} (h : KeyIs e m) (g : KeyIs e n) : m = n := by
  rw [← asStr_iff] at h g
  rw [h] at g
  exact Option.some.inj g

theorem keyOpt_unit {e : Entry} : keyOpt e = some none ↔ IsUnitValue e.key := by
  rw [← isUnit_iff, keyOpt]
  split
  · simp [*]
  · next h => simp only [h]; split <;> simp

theorem keyOpt_named {e : Entry} {n} : keyOpt e = some (some n) ↔ KeyIs e n := by
  rw [← asStr_iff, keyOpt]
  split
  · next h =>
    obtain ⟨sp, h⟩ := isUnit_iff.mp h
    rw [h]; simp [Value.asStr]
  · split
    · next s hs => rw [hs]; simp
    · next hs => rw [hs]; simp

theorem keyOpt_none {e : Entry} (h : keyOpt e = none) :
    ¬ (IsUnitValue e.key ∨ ∃ name, KeyIs e name) := by
  rintro (hu | ⟨n, hn⟩)
  · rw [← keyOpt_unit, h] at hu; cases hu
  · rw [← keyOpt_named, h] at hn; cases hn

end values

section ints

theorem digitsVal_iff : ∀ {ds : List Char} {acc n : Nat}, digitsVal ds acc = some n ↔
    (∀ c ∈ ds, '0' ≤ c ∧ c ≤ '9') ∧ n = ds.foldl (fun a c => a * 10 + (c.toNat - 48)) acc
  | [], acc, n => by simp [digitsVal, eq_comm]
  | c :: ds, acc, n => by
    rw [digitsVal]
    split
    · next h =>
      have ih := digitsVal_iff (ds := ds) (acc := acc * 10 + (c.toNat - '0'.toNat)) (n := n)
      rw [ih]
      have e : ('0' : Char).toNat = 48 := rfl
      rw [e]
      simp only [List.mem_cons, forall_eq_or_imp, List.foldl_cons, h, and_self, true_and]
    · next h => simp [h]

theorem parseInt_iff {lo hi : Int} {t n} : parseInt lo hi t = some n ↔
    IsInt t n ∧ lo ≤ n ∧ n ≤ hi := by
  have key : ∀ (ds : List Char) (m : Nat), digitsVal ds 0 = some m ↔
      (∀ c ∈ ds, '0' ≤ c ∧ c ≤ '9') ∧ m = decVal ds := fun ds m => digitsVal_iff
  have np : ¬ ('0' ≤ '+' ∧ '+' ≤ '9') := by decide
  have nm : ¬ ('0' ≤ '-' ∧ '-' ≤ '9') := by decide
  rw [parseInt]
  simp only [Option.bind_eq_some_iff, Option.ite_none_right_eq_some, Option.some.injEq]
  constructor
  · rintro ⟨m, hm, ⟨h1, rfl⟩⟩
    refine ⟨?_, h1⟩
    rw [parseSigned.eq_def] at hm
    split at hm
    · simp at hm
    · simp at hm
    · simp at hm
    · next ds hne =>
      simp only [Option.map_eq_some_iff] at hm
      obtain ⟨k, hk, rfl⟩ := hm
      obtain ⟨hd, rfl⟩ := (key _ _).mp hk
      exact ⟨ds, fun e => hne e, hd, Or.inr (Or.inl ⟨rfl, rfl⟩)⟩
    · next ds hne =>
      simp only [Option.map_eq_some_iff] at hm
      obtain ⟨k, hk, rfl⟩ := hm
      obtain ⟨hd, rfl⟩ := (key _ _).mp hk
      exact ⟨ds, fun e => hne e, hd, Or.inr (Or.inr ⟨rfl, rfl⟩)⟩
    · next hne _ _ _ _ =>
      simp only [Option.map_eq_some_iff] at hm
      obtain ⟨k, hk, rfl⟩ := hm
      obtain ⟨hd, rfl⟩ := (key _ _).mp hk
      exact ⟨t, fun e => hne e, hd, Or.inl ⟨rfl, rfl⟩⟩
  · rintro ⟨⟨ds, hne, hd, h⟩, hr⟩
    refine ⟨n, ?_, hr, rfl⟩
    rw [parseSigned.eq_def]
    have hk := (key ds _).mpr ⟨hd, rfl⟩
    obtain ⟨d, ds', rfl⟩ := List.exists_cons_of_ne_nil hne
    have hdd := hd d (by simp)
    rcases h with ⟨rfl, rfl⟩ | ⟨rfl, rfl⟩ | ⟨rfl, rfl⟩
    · split
      · next h => cases h
      · next h => cases h; exact absurd hdd np
      · next h => cases h; exact absurd hdd nm
      · next h => cases h; exact absurd hdd np
      · next h => cases h; exact absurd hdd nm
      · rw [hk]; rfl
    · split
      · next h => cases h
      · next h => cases h
      · next h => cases h
      · next h => cases h; rw [hk]; rfl
      · next h => cases h
      · next h _ => exact absurd rfl (h _)
    · split
      · next h => cases h
      · next h => cases h
      · next h => cases h
      · next h => cases h
      · next h => cases h; rw [hk]; rfl
      · next h => exact absurd rfl (h _)

theorem parseI128_iff {t n} : parseI128 t = some n ↔
    IsInt t n ∧ -(2 ^ 127) ≤ n ∧ n ≤ 2 ^ 127 - 1 := parseInt_iff

theorem parseI64_i128 {t} (h : (parseI64 t).isSome) : ∃ n, parseI128 t = some n := by
  obtain ⟨n, hn⟩ := Option.isSome_iff_exists.mp h
  obtain ⟨h1, h2, h3⟩ := parseInt_iff.mp hn
  refine ⟨n, parseI128_iff.mpr ⟨h1, ?_, ?_⟩⟩
  · have : (-(2 ^ 127) : Int) ≤ -(2 ^ 63) := by decide
    omega
  · have : (2 ^ 63 - 1 : Int) ≤ 2 ^ 127 - 1 := by decide
    omega

theorem IsInt.unique {t m n} (h : IsInt t m) (g : IsInt t n)  : m = n := by
  have e1 := (parseInt_iff (lo := min m n) (hi := max m n)).mpr ⟨h, by omega, by omega⟩
  have e2 := (parseInt_iff (lo := min m n) (hi := max m n)).mpr ⟨g, by omega, by omega⟩
  rw [e1] at e2
  exact Option.some.inj e2

end ints

end Styx.Schema
