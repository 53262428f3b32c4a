import Verif.Tree.Modify
import Verif.Tree.ModifySpec
import Verif.Tree.ValueLemmas

/-!
# Lemmas about writing into a tree
-/

namespace Styx

open Styx.Spec

/-- Search for an entry and go on in its value. -/
def entryMod (key : List Char) (g : Value → Option Value) : List Entry → Option (List Entry)
  | [] => none
  | .mk k v d :: es =>
    if k.asStr == some key then (g v).map fun v' => .mk k v' d :: es else (entryMod key g es).map (.mk k v d :: ·)

/-- Go on in an item. -/
def itemMod (n : Nat) (g : Value → Option Value) (items : List Value) : Option (List Value) :=
  items[n]?.bind fun v => (g v).map (items.set n ·)

theorem modify_nil (f : Value → Value) (v : Value) : v.modify [] f = some (f v) := by
  obtain ⟨t, p, s⟩ := v
  simp [Value.modify]

theorem value_get_nil (v : Value) : v.get [] = some v := by
  obtain ⟨t, p, s⟩ := v
  rw [Value.get, if_pos rfl]

theorem modifyEntries_eq (seg rest : List Char) (f : Value → Value) : ∀ es : List Entry,
    modifyEntries seg rest f es = entryMod seg (Value.modify rest f) es
  | [] => rfl
  | .mk k v d :: es => by
    rw [modifyEntries, entryMod, modifyEntries_eq seg rest f es]
    have : (if rest = [] then some (f v) else v.modify rest f) = v.modify rest f := by
      split
      · rename_i h; rw [h, modify_nil]
      · rfl
    rw [this]

theorem modifyItems_eq (rest : List Char) (f : Value → Value) : ∀ (n : Nat) (items : List Value),
    modifyItems rest f n items = itemMod n (Value.modify rest f) items
  | n, [] => by cases n <;> rfl
  | 0, v :: vs => by
    rw [modifyItems]
    have : (if rest = [] then some (f v) else v.modify rest f) = v.modify rest f := by
      split
      · rename_i h; rw [h, modify_nil]
      · rfl
    rw [this]
    simp [itemMod]
  | n + 1, v :: vs => by
    rw [modifyItems, modifyItems_eq rest f n vs, itemMod, itemMod, List.getElem?_cons_succ]
    cases vs[n]? with
    | none => rfl
    | some x => simp [Option.map_map, Function.comp_def]

theorem entryMod_cases (key : List Char) (es : List Entry) :
    (objGet es key = none ∧ ∀ g, entryMod key g es = none) ∨
    ∃ a k x d b, es = a ++ .mk k x d :: b ∧ k.asStr = some key ∧ (∀ e ∈ a, e.key.asStr ≠ some key) ∧
      ∀ g, entryMod key g es = (g x).map fun x' => a ++ .mk k x' d :: b := by
  induction es with
  | nil => exact Or.inl ⟨rfl, fun _ => rfl⟩
  | cons e es ih =>
    obtain ⟨k, v, d⟩ := e
    by_cases hk : k.asStr = some key
    · exact Or.inr ⟨[], k, v, d, es, rfl, hk, (nofun), fun g => by simp [entryMod, hk]⟩
    · rcases ih with ⟨h1, h2⟩ | ⟨a, k', x, d', b, h1, h2, h3, h4⟩
      · refine Or.inl ⟨?_, fun g => by simp [entryMod, hk, h2]⟩
        have hb : (k.asStr == some key) = false := by simpa using hk
        rw [objGet, List.find?_cons]
        simp only [Entry.key, hb]
        exact h1
      · refine Or.inr ⟨.mk k v d :: a, k', x, d', b, by rw [h1]; rfl, h2, ?_, fun g => ?_⟩
        · intro e he
          rcases List.mem_cons.mp he with rfl | he
          · exact hk
          · exact h3 e he
        · simp [entryMod, hk, h4, Option.map_map, Function.comp_def]

theorem objGet_mid {a b : List Entry} {k x : Value} {d : Option (List Char)} {key : List Char}
    (hk : k.asStr = some key) (ha : ∀ e ∈ a, e.key.asStr ≠ some key) :
    objGet (a ++ .mk k x d :: b) key = some x := by
  have : a.find? (fun e => e.key.asStr == some key) = none := by
    rw [List.find?_eq_none]
    intro e he
    simpa using ha e he
  rw [objGet, List.find?_append, this]
  simp [Entry.key, hk, Entry.value]

theorem objGet_beside {a b : List Entry} {k x x' : Value} {d : Option (List Char)} {key : List Char}
    (hk : k.asStr ≠ some key) : objGet (a ++ .mk k x' d :: b) key = objGet (a ++ .mk k x d :: b) key := by
  have hb : (k.asStr == some key) = false := by simpa using hk
  simp only [objGet, List.find?_append, List.find?_cons]
  simp only [Entry.key, hb]

/-! ## The place -/

theorem modify_place : ∀ (n : Nat) (path : List Char) (v : Value), sizeOf v < n →
    (v.get path = none ∧ ∀ f, v.modify path f = none) ∨
    ∃ x place, v.get path = some x ∧ ∀ f, ∃ v', v.modify path f = some v' ∧ Replaced place v x (f x) v' ∧
      v'.get path = some (f x)
  | 0, _, _, h => by omega
  | n + 1, path, .mk t p s, hn => by
    by_cases hp : path = []
    · subst hp
      exact Or.inr ⟨.mk t p s, [], value_get_nil _, fun f => ⟨f (.mk t p s), modify_nil f _, .here _ _,
        value_get_nil _⟩⟩
    have hif : ∀ (rest : List Char) (x : Value), (if rest = [] then some x else x.get rest) = x.get rest := by
      intro rest x
      split
      · rename_i h; rw [h, value_get_nil]
      · rfl
    match p with
    | none => exact Or.inl ⟨by simp [Value.get, hp], fun f => by simp [Value.modify, hp]⟩
    | some (.scalar ..) => exact Or.inl ⟨by simp [Value.get, hp], fun f => by simp [Value.modify, hp]⟩
    | some (.object es o) =>
      have hg : ∀ es : List Entry, (Value.mk t (some (.object es o)) s).get path =
          (objGet es (splitPath path).1).bind fun v => v.get (splitPath path).2 := by
        intro es
        rw [Value.get, if_neg hp]
        simp only [getInEntries_eq, hif]
      have hm : ∀ f, (Value.mk t (some (.object es o)) s).modify path f =
          (entryMod (splitPath path).1 (Value.modify (splitPath path).2 f) es).map
            fun es' => .mk t (some (.object es' o)) s := by
        intro f
        rw [Value.modify, if_neg hp]
        simp only [modifyEntries_eq]
      rcases entryMod_cases (splitPath path).1 es with ⟨h1, h2⟩ | ⟨a, k, x, d, b, h1, h2, h3, h4⟩
      · exact Or.inl ⟨by rw [hg, h1]; rfl, fun f => by rw [hm, h2]; rfl⟩
      · have hx : sizeOf x < n := by
          rw [h1] at hn
          simp at hn
          have : sizeOf (Entry.mk k x d) < 1 + sizeOf (a ++ Entry.mk k x d :: b) := by
            have := List.sizeOf_lt_of_mem (List.mem_append_right a (List.mem_cons_self (a := Entry.mk k x d) (l := b)))
            omega
          simp at this
          omega
        have hgx : ∀ x' : Value, (Value.mk t (some (.object (a ++ .mk k x' d :: b) o)) s).get path =
            x'.get (splitPath path).2 := fun x' => by rw [hg, objGet_mid h2 h3]; rfl
        rcases modify_place n (splitPath path).2 x hx with ⟨k1, k2⟩ | ⟨y, place, k1, k2⟩
        · exact Or.inl ⟨by rw [h1, hgx, k1], fun f => by rw [hm, h4, k2]; rfl⟩
        · refine Or.inr ⟨y, a.length :: place, by rw [h1, hgx, k1], fun f => ?_⟩
          obtain ⟨x', e1, e2, e3⟩ := k2 f
          refine ⟨.mk t (some (.object (a ++ .mk k x' d :: b) o)) s, by rw [hm, h4, e1]; rfl, ?_, by rw [hgx, e3]⟩
          rw [h1]
          exact .entry t a k d b o s e2
    | some (.sequence items o) =>
      have hg : ∀ items : List Value, (Value.mk t (some (.sequence items o)) s).get path =
          ((bracketIndex (splitPath path).1).bind parseUsize).bind fun i => (items[i]?).bind fun v =>
            v.get (splitPath path).2 := by
        intro items
        rw [Value.get, if_neg hp]
        simp only [getInItems_eq, hif]
        cases bracketIndex (splitPath path).1 with
        | none => rfl
        | some ds => simp only [Option.bind_some]; cases parseUsize ds <;> rfl
      have hm : ∀ f, (Value.mk t (some (.sequence items o)) s).modify path f =
          ((bracketIndex (splitPath path).1).bind parseUsize).bind fun i =>
            (itemMod i (Value.modify (splitPath path).2 f) items).map fun items' => .mk t (some (.sequence items' o)) s := by
        intro f
        rw [Value.modify, if_neg hp]
        simp only [modifyItems_eq]
        cases bracketIndex (splitPath path).1 with
        | none => rfl
        | some ds => simp only [Option.bind_some]; cases parseUsize ds <;> rfl
      cases hi : (bracketIndex (splitPath path).1).bind parseUsize with
      | none => exact Or.inl ⟨by rw [hg, hi]; rfl, fun f => by rw [hm, hi]; rfl⟩
      | some i =>
        cases hx : items[i]? with
        | none => exact Or.inl ⟨by rw [hg, hi]; simp [hx], fun f => by rw [hm, hi]; simp [itemMod, hx]⟩
        | some x =>
          obtain ⟨hlt, hxe⟩ := List.getElem?_eq_some_iff.mp hx
          have hsplit : items = items.take i ++ x :: items.drop (i + 1) := by
            rw [← hxe, ← List.drop_eq_getElem_cons, List.take_append_drop]
          have hset : ∀ x', items.set i x' = items.take i ++ x' :: items.drop (i + 1) := fun x' =>
            List.set_eq_take_append_cons_drop.trans (by rw [if_pos hlt])
          have hlen : (items.take i).length = i := by rw [List.length_take]; omega
          have hsz : sizeOf x < n := by
            have := List.sizeOf_lt_of_mem (List.mem_of_getElem? hx)
            simp at hn
            omega
          rcases modify_place n (splitPath path).2 x hsz with ⟨k1, k2⟩ | ⟨y, place, k1, k2⟩
          · exact Or.inl ⟨by rw [hg, hi]; simp [hx, k1], fun f => by rw [hm, hi]; simp [itemMod, hx, k2]⟩
          · refine Or.inr ⟨y, i :: place, by rw [hg, hi]; simp [hx, k1], fun f => ?_⟩
            obtain ⟨x', e1, e2, e3⟩ := k2 f
            refine ⟨.mk t (some (.sequence (items.set i x') o)) s, by rw [hm, hi]; simp [itemMod, hx, e1], ?_, ?_⟩
            · have := Replaced.item t (items.take i) (items.drop (i + 1)) o s e2
              rw [hlen] at this
              rw [hset, ← hsplit] at *
              exact this
            · rw [hg, hi]
              simp [hlt, e3]

/-! ## Steps -/

/-- The text of a step as it is looked up in an object. -/
def stepName : PathStep → List Char
  | .key k => k
  | .idx n => '[' :: (decimal n ++ [']'])

theorem stepName_inj {s s' : PathStep} (h : StepOK s) (h' : StepOK s') (he : stepName s = stepName s') : s = s' := by
  have hdec : ∀ {k : List Char} {n : Nat}, StepOK (.key k) → k ≠ '[' :: (decimal n ++ [']']) := by
    intro k n hk e
    exact hk.2.2 (by rw [e]; exact List.mem_cons_self ..)
  match s, s' with
  | .key k, .key k' => exact congrArg _ he
  | .key k, .idx n => exact absurd he (hdec h)
  | .idx n, .key k => exact absurd he.symm (hdec h')
  | .idx m, .idx n =>
    simp only [stepName, List.cons.injEq, List.append_cancel_right_eq, true_and] at he
    have h1 := parseDigits_decimal m h
    rw [he, parseDigits_decimal n h'] at h1
    exact congrArg _ (Option.some.inj h1).symm

/-- Go one step and go on there. -/
def stepMod (s : PathStep) (g : Value → Option Value) : Value → Option Value
  | .mk t (some (.object es o)) sp => (entryMod (stepName s) g es).map fun es' => .mk t (some (.object es' o)) sp
  | .mk t (some (.sequence items o)) sp =>
    match s with
    | .idx n => (itemMod n g items).map fun items' => .mk t (some (.sequence items' o)) sp
    | .key _ => none
  | _ => none

theorem modify_step {s : PathStep} {r : List PathStep} (hok : ∀ x ∈ s :: r, StepOK x) (f : Value → Value) (v : Value) :
    v.modify (render (s :: r)) f = stepMod s (Value.modify (render r) f) v := by
  obtain ⟨t, p, sp⟩ := v
  rw [Value.modify, if_neg (fun hc => by have := (render_nil hok).1 hc; cases this)]
  have hsp : splitPath (render (s :: r)) = (stepName s, render r) := by
    cases s with
    | key k => exact splitPath_key (hok _ (List.mem_cons_self ..))
    | idx n => exact splitPath_idx
  rw [hsp]
  match p with
  | none => rfl
  | some (.scalar ..) => rfl
  | some (.object es o) => simp only [modifyEntries_eq, stepMod]
  | some (.sequence items o) =>
    match s with
    | .key k =>
      have : bracketIndex k = none := by
        have := hok (.key k) (List.mem_cons_self ..)
        unfold bracketIndex
        split
        · exact absurd (by simp) this.2.2
        · rfl
      simp only [stepMod, stepName, this]
    | .idx n =>
      simp only [stepMod, stepName, bracketIndex_decimal, parseUsize_decimal n (hok (.idx n) (List.mem_cons_self ..)),
        modifyItems_eq]

theorem get_step {s : PathStep} {r : List PathStep} (hok : ∀ x ∈ s :: r, StepOK x) (v : Value) :
    v.get (render (s :: r)) = (stepLoose s v).bind fun x => x.get (render r) := by
  rw [get_follow _ hok, followLoose]
  congr 1
  funext x
  exact (get_follow r (fun y hy => hok y (List.mem_cons_of_mem _ hy)) x).symm

theorem stepLoose_object (s : PathStep) (t : Option Tag) (es : List Entry) (o sp : Option Span) :
    stepLoose s (.mk t (some (.object es o)) sp) = objGet es (stepName s) := by
  cases s <;> simp [stepLoose, step, stepName, objGet_eq]

/-- A step leads nowhere, or to a value in its surroundings `C`. -/
theorem stepMod_cases {s : PathStep} (hs : StepOK s) (v : Value) :
    (stepLoose s v = none ∧ ∀ g, stepMod s g v = none) ∨
    ∃ (x : Value) (C : Value → Value), stepLoose s v = some x ∧ v = C x ∧
      (∀ y, stepLoose s (C y) = some y) ∧ (∀ y g, stepMod s g (C y) = (g y).map C) ∧
      ∀ s', StepOK s' → s' ≠ s → ∀ y, stepLoose s' (C y) = stepLoose s' v := by
  obtain ⟨t, p, sp⟩ := v
  match p with
  | none => exact Or.inl ⟨by cases s <;> rfl, fun _ => rfl⟩
  | some (.scalar ..) => exact Or.inl ⟨by cases s <;> rfl, fun _ => rfl⟩
  | some (.object es o) =>
    rcases entryMod_cases (stepName s) es with ⟨h1, h2⟩ | ⟨a, k, x, d, b, h1, h2, h3, h4⟩
    · exact Or.inl ⟨by rw [stepLoose_object, h1], fun g => by simp only [stepMod, h2]; rfl⟩
    · have hmod : ∀ y g, entryMod (stepName s) g (a ++ .mk k y d :: b) =
          (g y).map fun x' => a ++ .mk k x' d :: b := by
        intro y g
        clear h1 h4
        induction a with
        | nil => simp [entryMod, h2]
        | cons e a ih =>
          obtain ⟨k', v', d'⟩ := e
          have hk' : k'.asStr ≠ some (stepName s) := h3 _ (List.mem_cons_self ..)
          rw [List.cons_append, entryMod, if_neg (by simpa using hk'), ih (fun e he => h3 e (List.mem_cons_of_mem _ he)),
            Option.map_map]
          rfl
      refine Or.inr ⟨x, fun y => .mk t (some (.object (a ++ .mk k y d :: b) o)) sp, ?_, by rw [h1], ?_, ?_, ?_⟩
      · rw [stepLoose_object, h1, objGet_mid h2 h3]
      · intro y; rw [stepLoose_object, objGet_mid h2 h3]
      · intro y g
        simp only [stepMod, hmod, Option.map_map]
        rfl
      · intro s' hs' hne y
        rw [stepLoose_object, stepLoose_object, h1]
        refine objGet_beside fun hc => hne ?_
        rw [h2] at hc
        exact stepName_inj hs' hs (Option.some.inj hc).symm
  | some (.sequence items o) =>
    match s with
    | .key k => exact Or.inl ⟨rfl, fun _ => rfl⟩
    | .idx n =>
      cases hx : items[n]? with
      | none => exact Or.inl ⟨by simp [stepLoose, step, hx], fun g => by simp [stepMod, itemMod, hx]⟩
      | some x =>
        obtain ⟨hlt, hxe⟩ := List.getElem?_eq_some_iff.mp hx
        refine Or.inr ⟨x, fun y => .mk t (some (.sequence (items.set n y) o)) sp, by simp [stepLoose, step, hx], ?_, ?_, ?_, ?_⟩
        · show _ = Value.mk t (some (.sequence (items.set n x) o)) sp
          rw [← hxe, List.set_getElem_self]
        · intro y; simp [stepLoose, step, hlt]
        · intro y g
          simp only [stepMod, itemMod, List.getElem?_set_self hlt, Option.bind_some, Option.map_map, List.set_set]
          rfl
        · intro s' _ hne y
          match s' with
          | .key k => rfl
          | .idx m =>
            have : n ≠ m := fun hc => hne (by rw [hc])
            simp only [stepLoose, step, List.getElem?_set_ne this]

/-- Neither path leads through the place of the other. -/
def Apart (p q : List PathStep) : Prop := ¬ p <+: q ∧ ¬ q <+: p

theorem Apart.cons {s s' : PathStep} {p q : List PathStep} (h : Apart (s :: p) (s' :: q)) : s' ≠ s ∨ Apart p q := by
  by_cases he : s' = s
  · subst he
    exact Or.inr ⟨fun hc => h.1 (List.cons_prefix_cons.mpr ⟨rfl, hc⟩), fun hc => h.2 (List.cons_prefix_cons.mpr ⟨rfl, hc⟩)⟩
  · exact Or.inl he

theorem modify_apart : ∀ {p q : List PathStep} {v v' : Value} {f : Value → Value}, (∀ x ∈ p, StepOK x) →
    (∀ x ∈ q, StepOK x) → Apart p q → v.modify (render p) f = some v' → v'.get (render q) = v.get (render q)
  | [], q, _, _, _, _, _, ha, _ => absurd (List.nil_prefix) ha.1
  | _ :: _, [], _, _, _, _, _, ha, _ => absurd (List.nil_prefix) ha.2
  | s :: p, s' :: q, v, v', f, hp, hq, ha, h => by
    have hp' : ∀ x ∈ p, StepOK x := fun x hx => hp x (List.mem_cons_of_mem _ hx)
    have hq' : ∀ x ∈ q, StepOK x := fun x hx => hq x (List.mem_cons_of_mem _ hx)
    rw [modify_step hp] at h
    rw [get_step hq, get_step hq]
    rcases stepMod_cases (hp s (List.mem_cons_self ..)) v with ⟨_, h2⟩ | ⟨x, C, h1, h2, h3, h4, h5⟩
    · rw [h2] at h; cases h
    · rw [h2, h4] at h
      obtain ⟨x', hx', rfl⟩ := Option.map_eq_some_iff.mp h
      by_cases he : s' = s
      · subst he
        have ha' : Apart p q := (Apart.cons ha).resolve_left (fun hc => hc rfl)
        rw [h3, h1]
        exact modify_apart hp' hq' ha' hx'
      · rw [h5 s' (hq s' (List.mem_cons_self ..)) he]

theorem modify_above : ∀ {q r : List PathStep} {v v' : Value} {f : Value → Value}, (∀ x ∈ q ++ r, StepOK x) →
    v.modify (render (q ++ r)) f = some v' →
    ∃ x x', v.get (render q) = some x ∧ v'.get (render q) = some x' ∧ x.modify (render r) f = some x'
  | [], r, v, v', f, _, h => ⟨v, v', value_get_nil v, value_get_nil v', h⟩
  | s :: q, r, v, v', f, hok, h => by
    have hq : ∀ x ∈ s :: q, StepOK x := fun x hx => hok x (List.mem_append_left _ hx)
    have hr : ∀ x ∈ q ++ r, StepOK x := fun x hx => hok x (List.mem_cons_of_mem _ hx)
    rw [List.cons_append, modify_step (r := q ++ r) hok] at h
    rw [get_step hq, get_step hq]
    rcases stepMod_cases (hok s (List.mem_cons_self ..)) v with ⟨_, h2⟩ | ⟨x, C, h1, h2, h3, h4, h5⟩
    · rw [h2] at h; cases h
    · rw [h2, h4] at h
      obtain ⟨x', hx', rfl⟩ := Option.map_eq_some_iff.mp h
      rw [h3, h1]
      exact modify_above hr hx'

theorem get_append : ∀ {p r : List PathStep} {v : Value}, (∀ x ∈ p ++ r, StepOK x) →
    v.get (render (p ++ r)) = (v.get (render p)).bind fun x => x.get (render r)
  | [], r, v, _ => by
    show v.get (render r) = (v.get []).bind _
    rw [value_get_nil]; rfl
  | s :: p, r, v, hok => by
    have hp : ∀ x ∈ s :: p, StepOK x := fun x hx => hok x (List.mem_append_left _ hx)
    rw [List.cons_append, get_step (r := p ++ r) hok, get_step hp]
    cases stepLoose s v with
    | none => rfl
    | some x => exact get_append fun x hx => hok x (List.mem_cons_of_mem _ hx)

/-! ## Two writes -/

theorem map_bind_step {α β : Type} (A : Option α) {c : α → β} {M : α → Option α} {M' : β → Option β}
    (h : ∀ a, M' (c a) = (M a).map c) : (A.map c).bind M' = (A.bind M).map c := by
  cases A with
  | none => rfl
  | some a => exact h a

theorem entryMod_comm {k k' : List Char} (hne : k ≠ k') (g g' : Value → Option Value) : ∀ es : List Entry,
    (entryMod k g es).bind (entryMod k' g') = (entryMod k' g' es).bind (entryMod k g)
  | [] => rfl
  | .mk key v d :: es => by
    have ih := entryMod_comm hne g g' es
    by_cases h1 : key.asStr = some k
    · have h2 : key.asStr ≠ some k' := by rw [h1]; simpa using hne
      simp only [entryMod, h1, beq_iff_eq, if_true, Option.some.injEq, hne, if_false, beq_self_eq_true]
      cases e1 : g v <;> cases e2 : entryMod k' g' es <;> simp [entryMod, h1, hne, e1, e2]
    · by_cases h2 : key.asStr = some k'
      · have hne' : k' ≠ k := Ne.symm hne
        simp only [entryMod, h2, beq_iff_eq, Option.some.injEq, hne', if_false, if_true, beq_self_eq_true]
        cases e1 : g' v <;> cases e2 : entryMod k g es <;> simp [entryMod, h2, hne', e1, e2]
      · have hs : ∀ (q : List Char) (k : Value → Option Value), key.asStr ≠ some q → ∀ l,
            entryMod q k (.mk key v d :: l) = (entryMod q k l).map (.mk key v d :: ·) := by
          intro q k hq l
          rw [entryMod, if_neg (by simpa using hq)]
        rw [hs k g h1, hs k' g' h2, map_bind_step _ (hs k' g' h2), map_bind_step _ (hs k g h1), ih]

theorem itemMod_comm {m n : Nat} (hne : m ≠ n) (g g' : Value → Option Value) (items : List Value) :
    (itemMod m g items).bind (itemMod n g') = (itemMod n g' items).bind (itemMod m g) := by
  have hi : ∀ (i : Nat) (k : Value → Option Value) (l : List Value),
      itemMod i k l = l[i]?.bind fun v => (k v).map (l.set i ·) := fun _ _ _ => rfl
  rw [hi, hi]
  cases hm : items[m]? with
  | none =>
    cases hn : items[n]? with
    | none => rfl
    | some y => cases hy : g' y <;> simp [hi, hy, List.getElem?_set_ne (Ne.symm hne), hm]
  | some x =>
    cases hn : items[n]? with
    | none => cases hx : g x <;> simp [hi, hx, List.getElem?_set_ne hne, hn]
    | some y =>
      cases hx : g x <;> cases hy : g' y <;>
        simp [hi, hx, hy, List.getElem?_set_ne hne, List.getElem?_set_ne (Ne.symm hne), hn, hm]
      exact List.set_comm _ _ hne

theorem stepMod_comm {s s' : PathStep} (hs : StepOK s) (hs' : StepOK s') (hne : s ≠ s') (g g' : Value → Option Value)
    (v : Value) : (stepMod s g v).bind (stepMod s' g') = (stepMod s' g' v).bind (stepMod s g) := by
  obtain ⟨t, p, sp⟩ := v
  match p with
  | none => rfl
  | some (.scalar ..) => rfl
  | some (.object es o) =>
    have := entryMod_comm (fun hc => hne (stepName_inj hs hs' hc)) g g' es
    have hc : ∀ (s : PathStep) (k : Value → Option Value) (l : List Entry),
        stepMod s k (.mk t (some (.object l o)) sp) =
          (entryMod (stepName s) k l).map fun l' => .mk t (some (.object l' o)) sp := fun _ _ _ => rfl
    rw [hc, hc, map_bind_step _ (hc s' g'), map_bind_step _ (hc s g), this]
  | some (.sequence items o) =>
    match s, s' with
    | .key _, .key _ => rfl
    | .key _, .idx n => simp only [stepMod]; cases itemMod n g' items <;> rfl
    | .idx n, .key _ => simp only [stepMod]; cases itemMod n g items <;> rfl
    | .idx m, .idx n =>
      have := itemMod_comm (fun hc => hne (by rw [hc])) g g' items (m := m) (n := n)
      have hc : ∀ (i : Nat) (k : Value → Option Value) (l : List Value),
          stepMod (.idx i) k (.mk t (some (.sequence l o)) sp) =
            (itemMod i k l).map fun l' => .mk t (some (.sequence l' o)) sp := fun _ _ _ => rfl
      rw [hc, hc, map_bind_step _ (hc n g'), map_bind_step _ (hc m g), this]

theorem modify_comm : ∀ {p q : List PathStep} {f g : Value → Value} (v : Value), (∀ x ∈ p, StepOK x) →
    (∀ x ∈ q, StepOK x) → Apart p q →
    (v.modify (render p) f).bind (Value.modify (render q) g) = (v.modify (render q) g).bind (Value.modify (render p) f)
  | [], _, _, _, _, _, _, ha => absurd (List.nil_prefix) ha.1
  | _ :: _, [], _, _, _, _, _, ha => absurd (List.nil_prefix) ha.2
  | s :: p, s' :: q, f, g, v, hp, hq, ha => by
    have hp' : ∀ x ∈ p, StepOK x := fun x hx => hp x (List.mem_cons_of_mem _ hx)
    have hq' : ∀ x ∈ q, StepOK x := fun x hx => hq x (List.mem_cons_of_mem _ hx)
    have e1 : Value.modify (render (s :: p)) f = stepMod s (Value.modify (render p) f) := funext fun v => modify_step hp f v
    have e2 : Value.modify (render (s' :: q)) g = stepMod s' (Value.modify (render q) g) := funext fun v => modify_step hq g v
    rw [e1, e2]
    by_cases he : s' = s
    · subst he
      have ha' : Apart p q := (Apart.cons ha).resolve_left (fun hc => hc rfl)
      rcases stepMod_cases (hp s' (List.mem_cons_self ..)) v with ⟨_, h2⟩ | ⟨x, C, h1, h2, h3, h4, h5⟩
      · rw [h2, h2]
        simp
      · have ih := modify_comm (f := f) (g := g) x hp' hq' ha'
        rw [h2, h4, h4]
        have hb : ∀ (o : Option Value) (k : Value → Option Value),
            (o.map C).bind (stepMod s' k) = (o.bind k).map C := by
          intro o k
          cases o with
          | none => rfl
          | some y => exact h4 y k
        rw [hb, hb, ih]
    · exact stepMod_comm (hp s (List.mem_cons_self ..)) (hq s' (List.mem_cons_self ..)) (Ne.symm he) _ _ v

end Styx
