import Verif.Tree.PathSpec

/-! # Lemmas about objects as maps, and about paths -/

namespace Styx

open Spec

/-! ## Insert -/

theorem updateFirst_eq (p : Entry → Bool) (v : Value) (es : List Entry) :
    updateFirst p v es = none ∧ (∀ e ∈ es, p e = false) ∨
    ∃ a k v' d b, es = a ++ .mk k v' d :: b ∧ p (.mk k v' d) = true ∧ (∀ e ∈ a, p e = false) ∧
      updateFirst p v es = some (a ++ .mk k v d :: b) := by
  induction es with
  | nil => exact .inl ⟨rfl, by simp⟩
  | cons e es ih =>
    obtain ⟨k, v', d⟩ := e
    rw [updateFirst]
    cases hp : p (.mk k v' d) with
    | true => exact .inr ⟨[], k, v', d, es, rfl, hp, by simp, rfl⟩
    | false =>
      rcases ih with ⟨h1, h2⟩ | ⟨a, k1, v1, d1, b, rfl, h2, h3, h4⟩
      · refine .inl ⟨by simp [h1], ?_⟩
        intro e he
        rcases List.mem_cons.1 he with rfl | he
        · exact hp
        · exact h2 e he
      · refine .inr ⟨.mk k v' d :: a, k1, v1, d1, b, rfl, h2, ?_, by simp [h4]⟩
        intro e he
        rcases List.mem_cons.1 he with rfl | he
        · exact hp
        · exact h3 e he

/-- Both inserts at once. -/
def insertWith (p : Entry → Bool) (v : Value) (new : Entry) (es : List Entry) : List Entry :=
  match updateFirst p v es with
  | some es' => es'
  | none => es ++ [new]

theorem objInsert_eq (es : List Entry) (key : List Char) (v : Value) : objInsert es key v =
    insertWith (fun e => e.key.asStr == some key) v (.mk (Value.scalar key) v none) es := rfl

theorem objInsertUnit_eq (es : List Entry) (v : Value) : objInsertUnit es v =
    insertWith (fun e => e.key.isUnit) v (.mk Value.unit v none) es := rfl

/-- Insert either replaces the value of the first matching entry, or appends an entry. -/
theorem insert_cases (p : Entry → Bool) (v : Value) (new : Entry) (es : List Entry) :
    (insertWith p v new es = es ++ [new] ∧
      es.any p = false) ∨
    ∃ a k v' d b, es = a ++ .mk k v' d :: b ∧ p (.mk k v' d) = true ∧ (∀ e ∈ a, p e = false) ∧
      insertWith p v new es = a ++ .mk k v d :: b := by
  unfold insertWith
  rcases updateFirst_eq p v es with ⟨h1, h2⟩ | ⟨a, k, v', d, b, h1, h2, h3, h4⟩
  · left
    rw [h1]
    refine ⟨rfl, ?_⟩
    rw [List.any_eq_false]
    intro e he
    rw [h2 e he]; simp
  · right
    exact ⟨a, k, v', d, b, h1, h2, h3, by rw [h4]⟩

/-- Looking up the inserted key. -/
theorem insert_find_same (p : Entry → Bool) (hk : ∀ k v v' d d', p (.mk k v d) = p (.mk k v' d'))
    (v : Value) (k0 : Value) (d0 : Option (List Char)) (hn : p (.mk k0 v d0) = true) (es : List Entry) :
    ((insertWith p v (.mk k0 v d0) es).find? p).map (·.value)
      = some v := by
  rcases insert_cases p v (.mk k0 v d0) es with ⟨h1, h2⟩ | ⟨a, k, v', d, b, h1, h2, h3, h4⟩
  · rw [h1, List.find?_append]
    have : es.find? p = none := by
      rw [List.find?_eq_none]
      intro e he
      rw [List.any_eq_false] at h2
      exact h2 e he
    rw [this]
    simp [hn, Entry.value]
  · rw [h4, List.find?_append]
    have : a.find? p = none := by
      rw [List.find?_eq_none]
      intro e he
      simp [h3 e he]
    rw [this]
    have : p (.mk k v d) = true := by rw [hk k v v' d d]; exact h2
    simp [this, Entry.value]

/-- Looking up another key. -/
theorem insert_find_other (p q : Entry → Bool) (hk : ∀ k v v' d d', q (.mk k v d) = q (.mk k v' d'))
    (hpq : ∀ e, p e = true → q e = false)
    (v : Value) (k0 : Value) (d0 : Option (List Char)) (hn : p (.mk k0 v d0) = true) (es : List Entry) :
    ((insertWith p v (.mk k0 v d0) es).find? q)
      = es.find? q := by
  rcases insert_cases p v (.mk k0 v d0) es with ⟨h1, h2⟩ | ⟨a, k, v', d, b, h1, h2, h3, h4⟩
  · rw [h1, List.find?_append]
    simp [hpq _ hn]
  · rw [h4, h1, List.find?_append, List.find?_append]
    have h5 := hpq _ h2
    have h6 : q (.mk k v d) = false := by rw [hk k v v' d d]; exact h5
    simp [h5, h6]

/-- Keys and doc comments keep their order; a new key comes last. -/
theorem insert_keys (p : Entry → Bool) (v : Value) (k0 : Value) (d0 : Option (List Char)) (es : List Entry) :
    (insertWith p v (.mk k0 v d0) es).map
      (fun e => (e.key, e.doc)) =
    es.map (fun e => (e.key, e.doc)) ++ if es.any p then [] else [(k0, d0)] := by
  rcases insert_cases p v (.mk k0 v d0) es with ⟨h1, h2⟩ | ⟨a, k, v', d, b, h1, h2, h3, h4⟩
  · rw [h1, h2]
    simp [Entry.key, Entry.doc]
  · rw [h4]
    have : es.any p = true := by rw [h1]; simp [h2]
    rw [this, h1]
    simp [Entry.key, Entry.doc]

/-! ## Decimal numbers -/

theorem digit_isDigit {n : Nat} (h : n < 10) : (digit n).isDigit = true ∧ (digit n).toNat - '0'.toNat = n := by
  have : n = 0 ∨ n = 1 ∨ n = 2 ∨ n = 3 ∨ n = 4 ∨ n = 5 ∨ n = 6 ∨ n = 7 ∨ n = 8 ∨ n = 9 := by omega
  rcases this with h | h | h | h | h | h | h | h | h | h <;> subst h <;> decide

theorem decimal_digits (n : Nat) : ∀ c ∈ decimal n, c.isDigit = true := by
  fun_induction decimal n with
  | case1 n h => intro c hc; rw [List.mem_singleton] at hc; rw [hc]; exact (digit_isDigit h).1
  | case2 n h ih =>
    intro c hc
    rcases List.mem_append.1 hc with hc | hc
    · exact ih c hc
    · rw [List.mem_singleton] at hc; rw [hc]; exact (digit_isDigit (Nat.mod_lt _ (by decide))).1

theorem decimal_ne_nil (n : Nat) : decimal n ≠ [] := by
  rw [decimal]; split <;> simp

theorem parseDigits_append (xs ys : List Char) (a : Nat) :
    parseDigits a (xs ++ ys) = (parseDigits a xs).bind (parseDigits · ys) := by
  fun_induction parseDigits a xs with
  | case1 => rfl
  | case2 n c cs hd n' hn ih =>
    rw [List.cons_append, parseDigits, if_pos hd]
    simp only
    rw [if_pos hn]; exact ih
  | case3 n c cs hd n' hn =>
    rw [List.cons_append, parseDigits, if_pos hd]
    simp only
    rw [if_neg hn]; rfl
  | case4 n c cs hd =>
    rw [List.cons_append, parseDigits, if_neg hd]; rfl

theorem parseDigits_decimal (n : Nat) (h : n ≤ usizeMax) : parseDigits 0 (decimal n) = some n := by
  have one : ∀ a m, m < 10 → a * 10 + m ≤ usizeMax → parseDigits a [digit m] = some (a * 10 + m) := by
    intro a m hm hle
    obtain ⟨h1, h2⟩ := digit_isDigit hm
    rw [parseDigits, if_pos h1]
    simp only
    rw [h2, if_pos hle, parseDigits]
  fun_induction decimal n with
  | case1 n hn =>
    have := one 0 n hn (by omega)
    simpa using this
  | case2 n hn ih =>
    rw [parseDigits_append, ih (by omega)]
    have := one (n / 10) (n % 10) (Nat.mod_lt _ (by decide)) (by omega)
    simp only [Option.bind_some, this]
    congr 1; omega

theorem parseUsize_decimal (n : Nat) (h : n ≤ usizeMax) : parseUsize (decimal n) = some n := by
  have hp := parseDigits_decimal n h
  have hd := decimal_digits n
  have hn := decimal_ne_nil n
  cases hdec : decimal n with
  | nil => exact absurd hdec hn
  | cons c cs =>
    rw [hdec] at hp hd
    have hc : c ≠ '+' := by
      intro hc
      have := hd c (by simp)
      rw [hc] at this
      exact absurd this (by decide)
    unfold parseUsize
    split <;> simp_all

/-! ## Splitting a path -/

theorem splitAtFirst_append (p : Char → Bool) (k rest : List Char) (hk : ∀ c ∈ k, p c = false)
    (hr : rest = [] ∨ ∃ c r, rest = c :: r ∧ p c = true) : splitAtFirst p (k ++ rest) = (k, rest) := by
  induction k with
  | nil =>
    rcases hr with rfl | ⟨c, r, rfl, h⟩
    · rfl
    · simp [splitAtFirst, h]
  | cons c k ih =>
    rw [List.cons_append, splitAtFirst, ih (fun x hx => hk x (by simp [hx]))]
    simp [hk c (by simp)]

theorem renderRest_form (r : List PathStep) :
    renderRest r = [] ∨ ∃ c t, renderRest r = c :: t ∧ (c == '.' || c == '[') = true := by
  match r with
  | [] => exact .inl rfl
  | .key k :: r => exact .inr ⟨_, _, rfl, rfl⟩
  | .idx n :: r => exact .inr ⟨_, _, rfl, rfl⟩

/-- Dropping the dot gives the path of the remaining steps. -/
theorem renderRest_strip (r : List PathStep) :
    (match renderRest r with | '.' :: x => x | x => x) = render r := by
  match r with
  | [] => rfl
  | .key k :: r => rfl
  | .idx n :: r => rfl

theorem render_nil {r : List PathStep} (hok : ∀ s ∈ r, StepOK s) : render r = [] ↔ r = [] := by
  match r with
  | [] => simp [render, renderRest]
  | .key k :: r =>
    have := (hok (.key k) (by simp)).1
    simp [render, this]
  | .idx n :: r => simp [render, renderRest]

theorem splitPath_key {k : List Char} {r : List PathStep} (hk : StepOK (.key k)) :
    splitPath (render (.key k :: r)) = (k, render r) := by
  obtain ⟨h1, h2, h3⟩ := hk
  have hsp : splitAtFirst (fun c => c == '.' || c == '[') (k ++ renderRest r) = (k, renderRest r) := by
    refine splitAtFirst_append _ _ _ ?_ (renderRest_form r)
    intro c hc
    have a : c ≠ '.' := by rintro rfl; exact h2 hc
    have b : c ≠ '[' := by rintro rfl; exact h3 hc
    simp [a, b]
  cases k with
  | nil => exact absurd rfl h1
  | cons c k =>
    have hc : c ≠ '[' := by rintro rfl; exact h3 (by simp)
    rw [render]
    unfold splitPath
    rw [hsp]
    rw [← renderRest_strip r]
    simp only [List.cons_append]
    split
    · rename_i heq; cases heq; exact absurd rfl hc
    · split
      · rename_i heq; simp only [Prod.mk.injEq] at heq; rw [← heq.1, heq.2]; rfl
      · rename_i heq
        simp only [Prod.mk.injEq] at heq
        obtain ⟨e1, e2⟩ := heq
        subst e1 e2
        split
        · rename_i hne _ x heq
          exact (hne _ heq).elim
        · rfl

theorem splitPath_idx {n : Nat} {r : List PathStep} :
    splitPath (render (.idx n :: r)) = ('[' :: (decimal n ++ [']']), render r) := by
  have hsp : splitAtFirst (· == ']') ('[' :: decimal n ++ ']' :: renderRest r) =
      ('[' :: decimal n, ']' :: renderRest r) := by
    refine splitAtFirst_append _ _ _ ?_ (.inr ⟨_, _, rfl, rfl⟩)
    intro c hc
    rcases List.mem_cons.1 hc with rfl | hc
    · rfl
    · have := decimal_digits n c hc
      by_cases h : c = ']'
      · subst h; exact absurd this (by decide)
      · simp [h]
  have hr : render (.idx n :: r) = '[' :: decimal n ++ ']' :: renderRest r := by
    simp [render, renderRest]
  rw [hr]
  unfold splitPath
  rw [hsp]
  simp only [List.cons_append]
  rw [← renderRest_strip r]
  rfl

theorem bracketIndex_decimal (n : Nat) : bracketIndex ('[' :: (decimal n ++ [']'])) = some (decimal n) := by
  simp [bracketIndex]

/-! ## Lookup -/

theorem getInEntries_eq (seg rest : List Char) (es : List Entry) :
    getInEntries seg rest es = (objGet es seg).bind fun v => if rest = [] then some v else v.get rest := by
  induction es with
  | nil => rfl
  | cons e es ih =>
    obtain ⟨k, v, d⟩ := e
    rw [getInEntries]
    simp only [objGet, List.find?, Entry.key]
    by_cases h : k.asStr == some seg
    · rw [if_pos h, h]; rfl
    · rw [if_neg h]
      simp only [Bool.not_eq_true] at h
      rw [h, ih]; rfl

theorem getInItems_eq (rest : List Char) (n : Nat) (items : List Value) :
    getInItems rest n items = (items[n]?).bind fun v => if rest = [] then some v else v.get rest := by
  induction items generalizing n with
  | nil => cases n <;> rfl
  | cons v vs ih =>
    cases n with
    | zero => rfl
    | succ n => rw [getInItems, ih]; simp

theorem objGet_eq (k : List Char) (es : List Entry) : objGet es k = entryOf k es := by
  induction es with
  | nil => rfl
  | cons e es ih =>
    obtain ⟨key, v, d⟩ := e
    have other : key.asStr = none → objGet (.mk key v d :: es) k = objGet es k := by
      intro h
      simp [objGet, List.find?, Entry.key, h]
    match key with
    | .mk none (some (.scalar text sk sp)) s =>
      rw [entryOf]
      by_cases h : text = k
      · simp [objGet, List.find?, Entry.key, Value.asStr, h, Entry.value]
      · rw [if_neg h, ← ih]
        have hb : (text == k) = false := by simp [h]
        simp [objGet, List.find?, Entry.key, Value.asStr, hb]
    | .mk (some t) p s => rw [other rfl, ih, entryOf]; intros; simp_all
    | .mk none none s => rw [other rfl, ih, entryOf]; intros; simp_all
    | .mk none (some (.sequence _ _)) s => rw [other rfl, ih, entryOf]; intros; simp_all
    | .mk none (some (.object _ _)) s => rw [other rfl, ih, entryOf]; intros; simp_all

theorem get_follow (steps : List PathStep) (hok : ∀ s ∈ steps, StepOK s) (v : Value) :
    v.get (render steps) = followLoose steps v := by
  induction steps generalizing v with
  | nil => obtain ⟨t, p, s⟩ := v; simp [render, renderRest, Value.get, followLoose]
  | cons s r ih =>
    have hr : ∀ x ∈ r, StepOK x := fun x hx => hok x (by simp [hx])
    have hcont : (fun v => if render r = [] then some v else v.get (render r)) = followLoose r := by
      funext w
      by_cases h : r = []
      · subst h; simp [render, renderRest, followLoose]
      · rw [if_neg (fun hc => h ((render_nil hr).1 hc)), ih hr]
    obtain ⟨t, p, sp⟩ := v
    rw [Value.get, if_neg (fun hc => by have := (render_nil hok).1 hc; cases this), followLoose]
    match s with
    | .key k =>
      rw [splitPath_key (hok _ (by simp))]
      match p with
      | none => rfl
      | some (.scalar ..) => rfl
      | some (.object es _) =>
        simp only [getInEntries_eq, stepLoose, step, objGet_eq, hcont]
      | some (.sequence items _) =>
        simp only [stepLoose, step, Option.bind_none]
        have : bracketIndex k = none := by
          have := hok (.key k) (by simp)
          unfold bracketIndex
          split
          · exact absurd (by simp) this.2.2
          · rfl
        rw [this]
    | .idx n =>
      rw [splitPath_idx]
      match p with
      | none => rfl
      | some (.scalar ..) => rfl
      | some (.object es _) =>
        simp only [getInEntries_eq, stepLoose, objGet_eq, hcont]
      | some (.sequence items _) =>
        simp only [stepLoose, step, bracketIndex_decimal, parseUsize_decimal n (hok (.idx n) (by simp)),
          getInItems_eq, hcont]

theorem follow_loose {steps : List PathStep} {v w : Value} (h : follow steps v = some w) :
    followLoose steps v = some w := by
  induction steps generalizing v with
  | nil => exact h
  | cons s r ih =>
    rw [follow, Option.bind_eq_some_iff] at h
    obtain ⟨x, h1, h2⟩ := h
    have : stepLoose s v = some x := by
      unfold stepLoose
      split
      · simp [step] at h1
      · exact h1
    rw [followLoose, this]
    exact ih h2

theorem noBracket_entryOf (k : List Char) (es : List Entry) (h : NoBracketEntries es) :
    (∀ w, entryOf k es = some w → NoBracketKeys w) ∧ (∀ rest, k = '[' :: rest → entryOf k es = none) := by
  induction es with
  | nil => simp [entryOf]
  | cons e es ih =>
    obtain ⟨key, v, d⟩ := e
    obtain ⟨h1, h2, h3⟩ := h
    unfold entryOf
    split
    · rename_i heq; cases heq
    · rename_i heq
      cases heq
      split
      · rename_i ht
        subst ht
        refine ⟨fun w hw => by cases hw; exact h2, fun rest hr => ?_⟩
        exact absurd (by rw [hr]; rfl) (h1 rest)
      · exact ih h3
    · rename_i heq; cases heq; exact ih h3

theorem noBracket_items (n : Nat) (items : List Value) (h : NoBracketItems items) (w : Value)
    (hw : items[n]? = some w) : NoBracketKeys w := by
  induction items generalizing n with
  | nil => simp at hw
  | cons v vs ih =>
    cases n with
    | zero => simp at hw; subst hw; exact h.1
    | succ n => exact ih n h.2 (by simpa using hw)

theorem follow_strict {steps : List PathStep} {v : Value} (h : NoBracketKeys v) :
    followLoose steps v = follow steps v := by
  induction steps generalizing v with
  | nil => rfl
  | cons s r ih =>
    rw [follow, followLoose]
    have h1 : stepLoose s v = step s v := by
      unfold stepLoose
      split
      · rw [(noBracket_entryOf _ _ h).2 _ rfl]; rfl
      · rfl
    rw [h1]
    cases hs : step s v with
    | none => rfl
    | some w =>
      refine ih ?_
      unfold step at hs
      split at hs
      · exact (noBracket_entryOf _ _ h).1 _ hs
      · exact noBracket_items _ _ h _ hs
      · cases hs

end Styx
