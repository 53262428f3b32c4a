import Verif.Gen.GoText

/-!
# What generated `Validate` methods report
-/

namespace Styx.Go
open Styx.Schema Styx.Spec

variable {F : Type} {upper : Char → List Char} {ltF : F → F → Bool}

theorem run_append {v : List Char → GoValue F} : ∀ {a b : List (Stmt F)} {x y : List (List Char × Message)},
    runStmts ltF v a = some x → runStmts ltF v b = some y → runStmts ltF v (a ++ b) = some (x ++ y)
  | [], b, x, y, h1, h2 => by
    simp only [runStmts, Option.some.injEq] at h1
    subst h1
    simpa using h2
  | s :: a, b, x, y, h1, h2 => by
    rw [runStmts] at h1
    split at h1
    · next e es he hes =>
      cases h1
      rw [List.cons_append, runStmts, he, run_append hes h2]
      simp
    · simp at h1

theorem out_core {s c : Schema F} {o : Bool} (h : FieldCore s o c) {v : GoValue F} {m : Message} :
    OutOfBounds ltF s v m ↔ OutOfBounds ltF c v m := by
  constructor
  · intro ho
    induction ho generalizing o with
    | default _ ih => exact ih (core_default.1 h)
    | optional _ ih => obtain ⟨_, _, h⟩ := core_optional.1 h; exact ih h
    | present _ ih => exact .present (ih h)
    | short a b => cases h; exact .short a b
    | long a b => cases h; exact .long a b
    | small a b => cases h; exact .small a b
    | large a b => cases h; exact .large a b
    | floatSmall a b => cases h; exact .floatSmall a b
    | floatLarge a b => cases h; exact .floatLarge a b
    | deprecated a => cases h; exact .deprecated a
    | flatten a => cases h; exact .flatten a
  · intro ho
    induction h with
    | base => exact ho
    | default _ ih => exact .default (ih ho)
    | optional _ ih => exact .optional (ih ho)

theorem out_pointer {s : Schema F} {v : GoValue F} {m : Message} :
    OutOfBounds ltF s (.pointer v) m ↔ OutOfBounds ltF s v m := by
  refine ⟨fun h => ?_, .present⟩
  generalize hv : GoValue.pointer v = w at h
  induction h with
  | present h => cases hv; exact h
  | default _ ih => exact .default (ih hv)
  | optional _ ih => exact .optional (ih hv)
  | deprecated _ ih => exact .deprecated (ih hv)
  | flatten _ ih => exact .flatten (ih hv)
  | _ => cases hv

theorem out_string {c : StringConstraints} {t : List Char} {m : Message} :
    OutOfBounds ltF (.string (some c) : Schema F) (.text t) m ↔
      (m = .tooShort ∧ ∃ n, c.minLen = some n ∧ utf8Len t < n) ∨
      (m = .tooLong ∧ ∃ n, c.maxLen = some n ∧ n < utf8Len t) := by
  constructor
  · intro h
    cases h with
    | short a b => exact Or.inl ⟨rfl, _, a, b⟩
    | long a b => exact Or.inr ⟨rfl, _, a, b⟩
  · rintro (⟨rfl, _, a, b⟩ | ⟨rfl, _, a, b⟩)
    · exact .short a b
    · exact .long a b

theorem out_int {c : IntConstraints} {x : Int} {m : Message} :
    OutOfBounds ltF (.int (some c) : Schema F) (.int x) m ↔
      (m = .tooSmall ∧ ∃ n, c.min = some n ∧ x < n) ∨
      (m = .tooLarge ∧ ∃ n, c.max = some n ∧ n < x) := by
  constructor
  · intro h
    cases h with
    | small a b => exact Or.inl ⟨rfl, _, a, b⟩
    | large a b => exact Or.inr ⟨rfl, _, a, b⟩
  · rintro (⟨rfl, _, a, b⟩ | ⟨rfl, _, a, b⟩)
    · exact .small a b
    · exact .large a b

theorem out_float {c : FloatConstraints F} {x : F} {m : Message} :
    OutOfBounds ltF (.float (some c) : Schema F) (.float x) m ↔
      (m = .tooSmall ∧ ∃ n, c.min = some n ∧ ltF x n = true) ∨
      (m = .tooLarge ∧ ∃ n, c.max = some n ∧ ltF n x = true) := by
  constructor
  · intro h
    cases h with
    | floatSmall a b => exact Or.inl ⟨rfl, _, a, b⟩
    | floatLarge a b => exact Or.inr ⟨rfl, _, a, b⟩
  · rintro (⟨rfl, _, a, b⟩ | ⟨rfl, _, a, b⟩)
    · exact .floatSmall a b
    · exact .floatLarge a b

/-- Only scalar types with bounds have values out of bounds. -/
theorem out_bounded {c : Schema F} {v : GoValue F} {m : Message} (h : OutOfBounds ltF c v m)
    (h1 : ∀ v i, c ≠ .default v i) (h2 : ∀ i, c ≠ .optional i) (h3 : ∀ r i, c ≠ .deprecated r i)
    (h4 : ∀ i, c ≠ .flatten i) : ∃ k, extractConstraints c = some k := by
  induction h with
  | default => exact absurd rfl (h1 _ _)
  | optional => exact absurd rfl (h2 _)
  | deprecated => exact absurd rfl (h3 _ _)
  | flatten => exact absurd rfl (h4 _)
  | present _ ih => exact ih h1 h2 h3 h4
  | _ => exact ⟨_, rfl⟩

theorem toI64_id {n : Int} (h : -(2 ^ 63) ≤ n ∧ n < 2 ^ 63) : toI64 n = n := by
  unfold toI64
  omega

/-- A check of a plain value. -/
theorem run_check {v : List Char → GoValue F} {x field : List Char} {deref : Bool} {cond : Cond F}
    {msg : Message} {y : GoValue F} {b : Bool}
    (hy : v x = if deref then .pointer y else y) (hc : condHolds ltF cond y = some b) :
    runStmts ltF v [.check x field deref cond msg] = some (if b then [(field, msg)] else []) := by
  cases deref <;> cases b <;> simp_all [runStmts, runStmt]

/-- The checks of a field with a value: each bound that is violated is reported. -/
theorem run_checks {v : List Char → GoValue F} {f : Field F} {c : Constraints F} {y : GoValue F}
    (hy : v f.goName = if f.typeName.head? == some '*' then .pointer y else y)
    (hlen : (c.minLength.isSome ∨ c.maxLength.isSome) → ∃ t, y = .text t)
    (hint : (c.minInt.isSome ∨ c.maxInt.isSome) → ∃ n, y = .int n)
    (hfloat : (c.minFloat.isSome ∨ c.maxFloat.isSome) → ∃ n, y = .float n) :
    ∃ es, runStmts ltF v (checks f c) = some es ∧ ∀ p, p ∈ es ↔ p.1 = f.name ∧
      ((p.2 = .tooShort ∧ ∃ n, c.minLength = some n ∧ ∃ t, y = .text t ∧ utf8Len t < n) ∨
       (p.2 = .tooLong ∧ ∃ n, c.maxLength = some n ∧ ∃ t, y = .text t ∧ n < utf8Len t) ∨
       (p.2 = .tooSmall ∧ ∃ n, c.minInt = some n ∧ ∃ x, y = .int x ∧ x < n) ∨
       (p.2 = .tooLarge ∧ ∃ n, c.maxInt = some n ∧ ∃ x, y = .int x ∧ n < x) ∨
       (p.2 = .tooSmall ∧ ∃ n, c.minFloat = some n ∧ ∃ x, y = .float x ∧ ltF x n = true) ∨
       (p.2 = .tooLarge ∧ ∃ n, c.maxFloat = some n ∧ ∃ x, y = .float x ∧ ltF n x = true)) := by
  have part : ∀ {A : Type} (o : Option A) (cond : A → Cond F) (msg : Message) (P : A → Prop),
      (∀ a, o = some a → ∃ b, condHolds ltF (cond a) y = some b ∧ (b = true ↔ P a)) →
      ∃ es, runStmts ltF v ((o.map fun a =>
          Stmt.check f.goName f.name (f.typeName.head? == some '*') (cond a) msg).toList) = some es ∧
        ∀ p, p ∈ es ↔ p.1 = f.name ∧ p.2 = msg ∧ ∃ a, o = some a ∧ P a := by
    intro A o cond msg P h
    cases o with
    | none => exact ⟨[], rfl, by simp⟩
    | some a =>
      obtain ⟨b, hb, hP⟩ := h a rfl
      refine ⟨_, run_check hy hb, ?_⟩
      intro p
      cases b
      · simp at hP; simp [hP]
      · simp at hP
        constructor
        · intro h; simp at h; subst h; exact ⟨rfl, rfl, a, rfl, hP⟩
        · rintro ⟨h1, h2, _⟩; simp; exact Prod.ext h1 h2
  obtain ⟨e1, r1, p1⟩ := part c.minLength Cond.lenBelow .tooShort
    (fun n => ∃ t, y = .text t ∧ utf8Len t < n) (by
      intro n hn
      obtain ⟨t, rfl⟩ := hlen (Or.inl (by simp [hn]))
      exact ⟨_, rfl, by simp⟩)
  obtain ⟨e2, r2, p2⟩ := part c.maxLength Cond.lenAbove .tooLong
    (fun n => ∃ t, y = .text t ∧ n < utf8Len t) (by
      intro n hn
      obtain ⟨t, rfl⟩ := hlen (Or.inr (by simp [hn]))
      exact ⟨_, rfl, by simp⟩)
  obtain ⟨e3, r3, p3⟩ := part c.minInt Cond.intBelow .tooSmall
    (fun n => ∃ x, y = .int x ∧ x < n) (by
      intro n hn
      obtain ⟨t, rfl⟩ := hint (Or.inl (by simp [hn]))
      exact ⟨_, rfl, by simp⟩)
  obtain ⟨e4, r4, p4⟩ := part c.maxInt Cond.intAbove .tooLarge
    (fun n => ∃ x, y = .int x ∧ n < x) (by
      intro n hn
      obtain ⟨t, rfl⟩ := hint (Or.inr (by simp [hn]))
      exact ⟨_, rfl, by simp⟩)
  obtain ⟨e5, r5, p5⟩ := part c.minFloat Cond.floatBelow .tooSmall
    (fun n => ∃ x, y = .float x ∧ ltF x n = true) (by
      intro n hn
      obtain ⟨t, rfl⟩ := hfloat (Or.inl (by simp [hn]))
      exact ⟨_, rfl, by simp⟩)
  obtain ⟨e6, r6, p6⟩ := part c.maxFloat Cond.floatAbove .tooLarge
    (fun n => ∃ x, y = .float x ∧ ltF n x = true) (by
      intro n hn
      obtain ⟨t, rfl⟩ := hfloat (Or.inr (by simp [hn]))
      exact ⟨_, rfl, by simp⟩)
  refine ⟨_, run_append (run_append (run_append (run_append (run_append r1 r2) r3) r4) r5) r6, ?_⟩
  intro p
  simp only [List.mem_append, p1, p2, p3, p4, p5, p6, ← and_or_left, or_assoc]

/-- The value of a field with bounds: what the checks look at. -/
theorem operand {o : Bool} {t : List Char} {w : GoValue F} (hn : nilable t = false)
    (ht : OfGoType (optionalType o t) w) :
    (o = true ∧ w = .nil) ∨ ∃ y, w = (if o then .pointer y else y) ∧ OfGoType t y := by
  cases o with
  | false => exact Or.inr ⟨w, rfl, by simpa [optionalType] using ht⟩
  | true =>
    have he : optionalType true t = '*' :: t := by simp [optionalType, hn]
    rw [he] at ht
    generalize hg : '*' :: t = g at ht
    cases ht with
    | nil => exact Or.inl ⟨rfl, rfl⟩
    | pointer h => cases hg; exact Or.inr ⟨_, rfl, h⟩
    | other _ h => subst hg; simp at h
    | text => cases hg
    | int => cases hg
    | float => cases hg

theorem optionalType_star {o : Bool} {t : List Char} (hn : nilable t = false) :
    ((optionalType o t).head? == some '*') = o := by
  cases o with
  | false =>
    simp only [optionalType, Bool.false_and, Bool.false_eq_true, if_false]
    simp [nilable] at hn
    simp [hn.1]
  | true => simp [optionalType, hn]

/-- A field with bounds reports the bounds that are violated, and nothing else. -/
theorem run_bounded {v : List Char → GoValue F} {f : Field F} {c : Constraints F} {t : List Char}
    (hf : f.typeName = optionalType f.optional t) (hcs : f.constraints = some c)
    (hn : nilable t = false) (ht : OfGoType f.typeName (v f.goName))
    {s : Schema F}
    (hs : ∀ y, OfGoType t y →
      (((c.minLength.isSome ∨ c.maxLength.isSome) → ∃ t, y = .text t) ∧
       ((c.minInt.isSome ∨ c.maxInt.isSome) → ∃ n, y = .int n) ∧
       ((c.minFloat.isSome ∨ c.maxFloat.isSome) → ∃ n, y = .float n)) ∧
      ∀ m, OutOfBounds ltF s y m ↔
       ((m = .tooShort ∧ ∃ n, c.minLength = some n ∧ ∃ t, y = .text t ∧ utf8Len t < n) ∨
       (m = .tooLong ∧ ∃ n, c.maxLength = some n ∧ ∃ t, y = .text t ∧ n < utf8Len t) ∨
       (m = .tooSmall ∧ ∃ n, c.minInt = some n ∧ ∃ x, y = .int x ∧ x < n) ∨
       (m = .tooLarge ∧ ∃ n, c.maxInt = some n ∧ ∃ x, y = .int x ∧ n < x) ∨
       (m = .tooSmall ∧ ∃ n, c.minFloat = some n ∧ ∃ x, y = .float x ∧ ltF x n = true) ∨
       (m = .tooLarge ∧ ∃ n, c.maxFloat = some n ∧ ∃ x, y = .float x ∧ ltF n x = true)))
    (hnil : ∀ m, ¬ OutOfBounds ltF s .nil m) :
    ∃ es, runStmts ltF v (validateField f) = some es ∧
      ∀ p, p ∈ es ↔ p.1 = f.name ∧ OutOfBounds ltF s (v f.goName) p.2 := by
  have hstar : (f.typeName.head? == some '*') = f.optional := by rw [hf]; exact optionalType_star hn
  have hv : validateField f = if f.optional then [.unlessNil f.goName (checks f c)] else checks f c := by
    simp only [validateField, hstar, hcs]
    cases f.optional <;> simp
  rw [hf] at ht
  rcases operand hn ht with ⟨ho, hw⟩ | ⟨y, hw, hy⟩
  · refine ⟨[], ?_, ?_⟩
    · rw [hv, ho]; simp [runStmts, runStmt, hw]
    · intro p
      simp only [List.not_mem_nil, false_iff, hw]
      exact fun h => hnil _ h.2
  · obtain ⟨⟨h1, h2, h3⟩, hout⟩ := hs y hy
    obtain ⟨es, hr, hp⟩ := run_checks (ltF := ltF) (v := v) (f := f) (c := c) (y := y)
      (by rw [hw, hstar]) h1 h2 h3
    have hov : ∀ m, OutOfBounds ltF s (v f.goName) m ↔ OutOfBounds ltF s y m := by
      intro m
      rw [hw]
      cases f.optional
      · rfl
      · exact out_pointer
    refine ⟨es, ?_, ?_⟩
    · rw [hv]
      cases ho : f.optional with
      | false => simpa using hr
      | true =>
        rw [ho] at hw
        simp only [if_true] at hw ⊢
        simp [runStmts, runStmt, hw, hr]
    · intro p
      rw [hp, hov, hout]

theorem ofGoType_string {y : GoValue F} (h : OfGoType (chars! "string") y) : ∃ t, y = .text t := by
  generalize hg : chars! "string" = g at h
  cases h with
  | text t => exact ⟨t, rfl⟩
  | other h => subst hg; simp at h
  | _ => exact absurd hg (by simp)

theorem ofGoType_int {y : GoValue F} (h : OfGoType (chars! "int64") y) : ∃ n, y = .int n := by
  generalize hg : chars! "int64" = g at h
  cases h with
  | int => exact ⟨_, rfl⟩
  | other h => subst hg; simp at h
  | _ => exact absurd hg (by simp)

theorem ofGoType_float {y : GoValue F} (h : OfGoType (chars! "float64") y) : ∃ n, y = .float n := by
  generalize hg : chars! "float64" = g at h
  cases h with
  | float => exact ⟨_, rfl⟩
  | other h => subst hg; simp at h
  | _ => exact absurd hg (by simp)

/-- A field without bounds reports at most that it is missing. -/
theorem run_free {v : List Char → GoValue F} {f : Field F} (hcs : f.constraints = none)
    (ht : OfGoType f.typeName (v f.goName)) :
    ∃ es, runStmts ltF v (validateField f) = some es ∧
      ∀ p ∈ es, p = (f.name, .missing) ∧ f.optional = false := by
  by_cases h : (!f.optional && f.typeName.head? == some '*') = true
  · have hv : validateField f = [.whenNil f.goName f.name] := by
      simp [validateField, hcs, h]
    rw [hv]
    simp only [Bool.and_eq_true, Bool.not_eq_true', beq_iff_eq] at h
    generalize hg : f.typeName = g at ht h
    generalize hw : v f.goName = w at ht
    have : w = .nil ∨ ∃ y, w = .pointer y := by
      cases ht with
      | nil => exact Or.inl rfl
      | pointer => exact Or.inr ⟨_, rfl⟩
      | other _ h' => exact absurd h.2 h'
      | _ => simp at h
    rcases this with rfl | ⟨y, rfl⟩
    · exact ⟨[(f.name, .missing)], by simp [runStmts, runStmt, hw], by simp [h.1]⟩
    · exact ⟨[], by simp [runStmts, runStmt, hw], by simp⟩
  · refine ⟨[], ?_, by simp⟩
    have hv : validateField f = [] := by
      simp only [validateField, hcs, h]
      simp
    rw [hv]; rfl

/-- What one field reports. -/
theorem run_field {v : List Char → GoValue F} {parent name : List Char} {s : Schema F}
    (hu : Unmarked s) (hb : Bounds64 s)
    (ht : OfGoType (fieldFor upper parent name false s).typeName (v (pascal upper name))) :
    ∃ es, runStmts ltF v (validateField (fieldFor upper parent name false s)) = some es ∧
      (∀ p ∈ es, p.1 = name) ∧
      (∀ m, m ≠ .missing → ((name, m) ∈ es ↔ OutOfBounds ltF s (v (pascal upper name)) m)) ∧
      ((name, .missing) ∈ es → ∀ c, ¬ FieldCore s true c) := by
  obtain ⟨o, c, hcore, h1, h2⟩ := core_exists s
  have hout : ∀ w m, OutOfBounds ltF s w m ↔ OutOfBounds ltF c w m := fun w m => out_core hcore
  have hmiss : o = false → ∀ c, ¬ FieldCore s true c := by
    rintro rfl c' h
    exact absurd (core_unique hcore h).1 (by simp)
  rw [fieldFor_core hcore, Bool.false_or] at ht ⊢
  have h3 : ∀ r i, c ≠ .deprecated r i := by rintro r i rfl; exact (hu o i r).1 hcore
  have h4 : ∀ i, c ≠ .flatten i := by rintro i rfl; exact (hu o i []).2 hcore
  have free : (fieldFor upper parent name o c).name = name →
      (fieldFor upper parent name o c).goName = pascal upper name →
      (fieldFor upper parent name o c).optional = o →
      (fieldFor upper parent name o c).constraints = none → extractConstraints c = none →
      ∃ es, runStmts ltF v (validateField (fieldFor upper parent name o c)) = some es ∧
      (∀ p ∈ es, p.1 = name) ∧
      (∀ m, m ≠ .missing → ((name, m) ∈ es ↔ OutOfBounds ltF s (v (pascal upper name)) m)) ∧
      ((name, .missing) ∈ es → ∀ c, ¬ FieldCore s true c) := by
    intro hname hgo hopt hc hx
    obtain ⟨es, hr, hp⟩ := run_free (ltF := ltF) (v := v) hc (by rw [hgo]; exact ht)
    refine ⟨es, hr, fun p hpe => by rw [(hp p hpe).1]; exact hname, fun m hm => ?_, fun hpe => ?_⟩
    · constructor
      · intro h
        have := (hp _ h).1
        rw [Prod.mk.injEq] at this
        exact absurd this.2 hm
      · intro h
        obtain ⟨k, hk⟩ := out_bounded ((hout _ _).1 h) h1 h2 h3 h4
        rw [hx] at hk
        cases hk
    · exact hmiss (hopt ▸ (hp _ hpe).2)
  have bounded : ∀ (k : Constraints F) (t : List Char),
      fieldFor upper parent name o c = fieldOf upper name o t (some k) → nilable t = false →
      (∀ y, OfGoType t y →
      (((k.minLength.isSome ∨ k.maxLength.isSome) → ∃ t, y = .text t) ∧
       ((k.minInt.isSome ∨ k.maxInt.isSome) → ∃ n, y = .int n) ∧
       ((k.minFloat.isSome ∨ k.maxFloat.isSome) → ∃ n, y = .float n)) ∧
      ∀ m, OutOfBounds ltF c y m ↔
       ((m = .tooShort ∧ ∃ n, k.minLength = some n ∧ ∃ t, y = .text t ∧ utf8Len t < n) ∨
       (m = .tooLong ∧ ∃ n, k.maxLength = some n ∧ ∃ t, y = .text t ∧ n < utf8Len t) ∨
       (m = .tooSmall ∧ ∃ n, k.minInt = some n ∧ ∃ x, y = .int x ∧ x < n) ∨
       (m = .tooLarge ∧ ∃ n, k.maxInt = some n ∧ ∃ x, y = .int x ∧ n < x) ∨
       (m = .tooSmall ∧ ∃ n, k.minFloat = some n ∧ ∃ x, y = .float x ∧ ltF x n = true) ∨
       (m = .tooLarge ∧ ∃ n, k.maxFloat = some n ∧ ∃ x, y = .float x ∧ ltF n x = true))) →
      (∀ m, ¬ OutOfBounds ltF c .nil m) →
      ∃ es, runStmts ltF v (validateField (fieldFor upper parent name o c)) = some es ∧
      (∀ p ∈ es, p.1 = name) ∧
      (∀ m, m ≠ .missing → ((name, m) ∈ es ↔ OutOfBounds ltF s (v (pascal upper name)) m)) ∧
      ((name, .missing) ∈ es → ∀ c, ¬ FieldCore s true c) := by
    intro k t he hn hs hnil
    rw [he] at ht ⊢
    obtain ⟨es, hr, hp⟩ := run_bounded (ltF := ltF) (v := v) (f := fieldOf upper name o t (some k))
      (t := t) (s := c) rfl rfl hn ht hs hnil
    refine ⟨es, hr, fun p hpe => ((hp p).1 hpe).1, fun m hm => ?_, fun hpe => ?_⟩
    · rw [hp, hout]
      exact ⟨fun h => h.2, fun h => ⟨rfl, h⟩⟩
    · exfalso
      have h := ((hp _).1 hpe).2
      have : ∀ {c : Schema F} {w : GoValue F}, ¬ OutOfBounds ltF c w .missing := by
        intro c w h
        generalize hm : Message.missing = m at h
        induction h <;> first | (rename_i ih; exact ih hm) | cases hm
      exact this h
  match c, h1, h2, h3, h4, hcore, bounded, free with
  | .string (some k), _, _, _, _, _, bounded, _ =>
    refine bounded _ (chars! "string") rfl (by decide) (fun y hy => ?_) (fun m h => by cases h)
    obtain ⟨t, rfl⟩ := ofGoType_string hy
    exact ⟨⟨fun _ => ⟨t, rfl⟩, by simp, by simp⟩, fun m => by rw [out_string]; simp⟩
  | .int (some k), _, _, _, _, hcore, bounded, _ =>
    refine bounded _ (chars! "int64") rfl (by decide) (fun y hy => ?_) (fun m h => by cases h)
    obtain ⟨x, rfl⟩ := ofGoType_int hy
    refine ⟨⟨by simp, fun _ => ⟨x, rfl⟩, by simp⟩, fun m => ?_⟩
    rw [out_int]
    have hmin : k.min.map toI64 = k.min := by
      cases h : k.min with
      | none => rfl
      | some n => simp [toI64_id (hb o k n hcore (Or.inl h))]
    have hmax : k.max.map toI64 = k.max := by
      cases h : k.max with
      | none => rfl
      | some n => simp [toI64_id (hb o k n hcore (Or.inr h))]
    simp [hmin, hmax]
  | .float (some k), _, _, _, _, _, bounded, _ =>
    refine bounded _ (chars! "float64") rfl (by decide) (fun y hy => ?_) (fun m h => by cases h)
    obtain ⟨x, rfl⟩ := ofGoType_float hy
    exact ⟨⟨by simp, by simp, fun _ => ⟨x, rfl⟩⟩, fun m => by rw [out_float]; simp⟩
  | .string none, _, _, _, _, _, _, free => exact free rfl rfl rfl rfl rfl
  | .int none, _, _, _, _, _, _, free => exact free rfl rfl rfl rfl rfl
  | .float none, _, _, _, _, _, _, free => exact free rfl rfl rfl rfl rfl
  | .default _ _, h1, _, _, _, _, _, _ => exact absurd rfl (h1 _ _)
  | .optional _, _, h2, _, _, _, _, _ => exact absurd rfl (h2 _)
  | .deprecated _ _, _, _, h3, _, _, _, _ => exact absurd rfl (h3 _ _)
  | .flatten _, _, _, _, h4, _, _, _ => exact absurd rfl (h4 _)
  | .bool, _, _, _, _, _, _, free => exact free rfl rfl rfl rfl rfl
  | .unit, _, _, _, _, _, _, free => exact free rfl rfl rfl rfl rfl
  | .any, _, _, _, _, _, _, free => exact free rfl rfl rfl rfl rfl
  | .object _, _, _, _, _, _, _, free => exact free rfl rfl rfl rfl rfl
  | .seq _, _, _, _, _, _, _, free => exact free rfl rfl rfl rfl rfl
  | .tuple _, _, _, _, _, _, _, free => exact free rfl rfl rfl rfl rfl
  | .map _, _, _, _, _, _, _, free => exact free rfl rfl rfl rfl rfl
  | .union _, _, _, _, _, _, _, free => exact free rfl rfl rfl rfl rfl
  | .enum _, _, _, _, _, _, _, free => exact free rfl rfl rfl rfl rfl
  | .oneOf _ _, _, _, _, _, _, _, free => exact free rfl rfl rfl rfl rfl
  | .literal _, _, _, _, _, _, _, free => exact free rfl rfl rfl rfl rfl
  | .type _, _, _, _, _, _, _, free => exact free rfl rfl rfl rfl rfl

end Styx.Go
