import Verif.Lsp.Context
import Verif.Lsp.ContextSpec
import Verif.Lsp.CursorLemmas

/-!
# Lemmas about the object and the tagged value around the cursor
-/

namespace Styx.Lsp

open Styx Styx.Spec

theorem touches_iff {off : Nat} {sp : Option Span} : touches off sp = true ↔ Touches off sp := by
  cases sp <;> simp [touches, Touches]

theorem touches_false {off : Nat} {sp : Option Span} : touches off sp = false ↔ ¬ Touches off sp := by
  rw [← touches_iff]; simp

theorem behind_touches {off : Nat} {sp : Option Span} (h : Behind off sp) : Touches off sp := by
  obtain ⟨s, h1, h2, h3⟩ := h
  exact ⟨s, h1, by omega, h3⟩

theorem nestedPath_eq (path : List (List Char)) (k v : Value) : nestedPath path k v = path ++ stepNames k v := by
  unfold nestedPath stepNames Value.tagName
  cases k.asStr <;> cases v.tag <;> simp

theorem asObject_some {v : Value} {es : List Entry} (h : v.asObject = some es) :
    ∃ t o sp, v = .mk t (some (.object es o)) sp := by
  obtain ⟨t, p, sp⟩ := v
  match p, h with
  | some (.object es' o), h => cases h; exact ⟨t, o, sp, rfl⟩

/-- Every object of the tree notes the same place as its value. -/
def Even (v : Value) : Prop := ∀ w, Node w v → ∀ es o, w.payload = some (.object es o) → o = w.span

theorem Even.child {v x : Value} (h : Even v) (hc : Child x v) : Even x := fun w hw => h w (.inside hc hw)

/-- The object around the cursor, below `v`. -/
def Around (off : Nat) (path : List (List Char)) (v : Value) (ctx : ObjectContext) : Prop :=
  ∃ x p, ctx.path = path ++ p ∧ ThroughObjects x v p ∧ x.payload = some (.object ctx.entries ctx.span) ∧
    ctx.span = x.span ∧ (x = v ∨ Touches off x.span) ∧
    ∀ k y d, Entry.mk k y d ∈ ctx.entries → y.asObject ≠ none → ¬ Touches off y.span

mutual
theorem findObject_around (off : Nat) : ∀ (v : Value) (path : List (List Char)), Even v → v.asObject ≠ none →
    v.span = none ∨ Touches off v.span → ∃ ctx, findObject off path v = some ctx ∧ Around off path v ctx
  | .mk t (some (.object es o)) sp, path, he, _, hs => by
    have ho : o = sp := he _ .self es o rfl
    subst ho
    have hc : (o.isSome && !touches off o) = false := by
      rcases hs with hs | hs
      · simp only [Value.span] at hs
        simp [hs]
      · have := touches_iff.mpr hs
        simp only [Value.span] at this
        simp [this]
    rw [findObject, hc]
    simp only [Bool.false_eq_true, if_false]
    rcases findObjectEntries_around off es path (fun k y d hm => he.child (.value hm)) with ⟨h1, h2⟩ | ⟨ctx, h1, h2⟩
    · refine ⟨_, rfl, .mk t (some (.object es o)) o, [], ?_⟩
      rw [h1]
      refine ⟨by simp, .here, rfl, rfl, .inl rfl, h2⟩
    · refine ⟨ctx, by rw [h1]; rfl, ?_⟩
      obtain ⟨k, y, d, hm, hy, x, p, g1, g2, g3, g4, g5, g6⟩ := h2
      refine ⟨x, stepNames k y ++ p, by rw [g1, List.append_assoc], .entry hm g2, g3, g4, .inr ?_, g6⟩
      rcases g5 with rfl | g5
      · exact hy
      · exact g5
  | .mk _ (some (.sequence _ _)) _, _, _, h, _ => absurd rfl h
  | .mk _ (some (.scalar _ _ _)) _, _, _, h, _ => absurd rfl h
  | .mk _ none _, _, _, h, _ => absurd rfl h

theorem findObjectEntries_around (off : Nat) : ∀ (es : List Entry) (path : List (List Char)),
    (∀ k y d, Entry.mk k y d ∈ es → Even y) →
    (findObjectEntries off path es = none ∧
      ∀ k y d, Entry.mk k y d ∈ es → y.asObject ≠ none → ¬ Touches off y.span) ∨
    ∃ ctx, findObjectEntries off path es = some ctx ∧ ∃ k y d, Entry.mk k y d ∈ es ∧ Touches off y.span ∧
      Around off (path ++ stepNames k y) y ctx
  | [], _, _ => .inl ⟨rfl, fun _ _ _ hm => by cases hm⟩
  | .mk k v d :: es, path, he => by
    by_cases hv : Touches off v.span ∧ v.asObject ≠ none
    · obtain ⟨ctx, h1, h2⟩ := findObject_around off v (path ++ stepNames k v) (he _ _ _ (List.mem_cons_self ..)) hv.2
        (.inr hv.1)
      right
      refine ⟨ctx, ?_, k, v, d, List.mem_cons_self .., hv.1, h2⟩
      cases ho : v.asObject with
      | none => exact absurd ho hv.2
      | some nested =>
        rw [findObjectEntries, touches_iff.mpr hv.1]
        simp only [if_true, ho]
        rw [nestedPath_eq, h1]
        rfl
    · have hn : (if touches off v.span = true then v.asObject else none) = none := by
        split
        · rename_i ht
          cases ho : v.asObject with
          | none => rfl
          | some _ => exact absurd ⟨touches_iff.mp ht, by simp [ho]⟩ hv
        · rfl
      rw [findObjectEntries, hn]
      rcases findObjectEntries_around off es path (fun k y d hm => he k y d (List.mem_cons_of_mem _ hm)) with
        ⟨h1, h2⟩ | ⟨ctx, h1, k', y, d', hm, h2⟩
      · refine .inl ⟨h1, fun k' y d' hm ho ht => ?_⟩
        rcases List.mem_cons.mp hm with hm | hm
        · cases hm; exact hv ⟨ht, ho⟩
        · exact h2 k' y d' hm ho ht
      · exact .inr ⟨ctx, h1, k', y, d', List.mem_cons_of_mem _ hm, h2⟩
end

theorem tree_even {s : List Char} {v : Value} (h : parseTree s = some (.ok v)) : Even v := by
  intro w hw es o hp
  rcases tree_placed h hw with rfl | hw
  · obtain ⟨es', rfl, _⟩ := parseTree_std h
    cases hp
    rfl
  · obtain ⟨sp, h1, h2, _⟩ := hw.own
    rw [h1]
    exact h2 _ hp

/-! ## Places in order -/

theorem through_node {x v : Value} {p : List (List Char)} (h : ThroughObjects x v p) : Node x v := by
  induction h with
  | here => exact .self
  | entry hm _ ih => exact .inside (.value hm) ih

/-- The place of a node is in the place of the value it is in. -/
theorem node_behind {s : List Char} {off lo hi : Nat} {x y : Value} (h : Std s lo hi y) (hn : Node x y)
    (hx : Behind off x.span) : Behind off y.span := by
  obtain ⟨sp, hsp, _⟩ := h.placed.own
  have : Placed s sp.start sp.stop x ∨ x = y := by
    cases hn with
    | self => exact .inr rfl
    | inside hc hn =>
      left
      obtain ⟨sp', h1, h2, h3, h4⟩ := h.child hc
      rw [hsp] at h1
      cases h1
      rcases h4 with ⟨ksp, k1, k2⟩ | ⟨ksp, k1, k2, k3, rfl⟩ | g
      · rw [k1.node hn]; exact k1.placed k2
      · rw [unit_node hn]; exact unit_placed k1 k2 k3
      · exact Std.node hn g
  rcases this with this | rfl
  · obtain ⟨xsp, g1, g2, g3⟩ := hx
    have := (this.ok xsp (.inl g1)).2
    exact ⟨sp, hsp, by omega, by omega⟩
  · exact hx

/-- A value in an object: the places before it do not touch the cursor. -/
theorem entries_before {s : List Char} {off lo hi : Nat} {a b : List Entry} {k y x : Value} {d : Option (List Char)}
    (h : EntriesStd s lo hi (a ++ .mk k y d :: b)) (hn : Node x y) (hx : Behind off x.span) :
    Behind off y.span ∧ LaidNode s y ∧
    ∀ k' y' d', Entry.mk k' y' d' ∈ a → y'.span.isSome = true ∧ ¬ Touches off y'.span := by
  obtain ⟨m, n, sp, h1, h2, h3, h4⟩ := EntriesStd.split h
  have hk := h2.spanOK
  have hk' := hk.1.le
  have hy : Behind off y.span ∧ LaidNode s y := by
    rcases h3 with ⟨rfl, _⟩ | h3
    · rw [unit_node hn] at hx
      exact ⟨hx, unit_laid⟩
    · exact ⟨node_behind h3 hn hx, std_laid h3⟩
  refine ⟨hy.1, hy.2, ?_⟩
  have hoff : m < off := by
    obtain ⟨ysp, g1, g2, g3⟩ := hy.1
    rcases h3 with ⟨rfl, _⟩ | h3
    · cases g1; omega
    · have := (h3.placed.ok ysp (.inl g1)).2
      omega
  intro k' y' d' hm
  obtain ⟨sp', e1, e2, e3⟩ := h1.mem hm
  rcases e3 with rfl | e3
  · refine ⟨rfl, ?_⟩
    rintro ⟨sp'', g1, g2, g3⟩
    cases g1
    omega
  · obtain ⟨sp'', g1, _⟩ := e3.placed.own
    refine ⟨by rw [g1]; rfl, ?_⟩
    rintro ⟨sp3, f1, f2, f3⟩
    have := (e3.placed.ok sp3 (.inl f1)).2
    omega

/-- An item of a sequence: the places before it do not touch the cursor. -/
theorem items_before {s : List Char} {off : Nat} {y x : Value} (hn : Node x y) (hx : Behind off x.span) :
    ∀ {a : List Value} {lo hi : Nat} {b : List Value}, ItemsStd s lo hi (a ++ y :: b) →
    Behind off y.span ∧ LaidNode s y ∧ lo < off ∧ ∀ y' ∈ a, y'.span.isSome = true ∧ ¬ Touches off y'.span
  | [], lo, hi, b, h => by
    obtain ⟨m, h1, h2⟩ := h
    have hb := node_behind h1 hn hx
    refine ⟨hb, std_laid h1, ?_, fun _ hm => by cases hm⟩
    obtain ⟨ysp, g1, g2, g3⟩ := hb
    have := (h1.placed.ok ysp (.inl g1)).2
    omega
  | z :: a, lo, hi, b, h => by
    obtain ⟨m, h1, h2⟩ := h
    obtain ⟨i1, i2, i3, i4⟩ := items_before hn hx h2
    have := h1.le
    refine ⟨i1, i2, by omega, fun y' hm => ?_⟩
    rcases List.mem_cons.mp hm with rfl | hm
    · obtain ⟨sp, g1, _⟩ := h1.placed.own
      refine ⟨by rw [g1]; rfl, ?_⟩
      rintro ⟨sp3, f1, f2, f3⟩
      have := (h1.placed.ok sp3 (.inl f1)).2
      omega
    · exact i4 y' hm

theorem findObjectEntries_skip {off : Nat} {path : List (List Char)} {a b : List Entry}
    (h : ∀ k y d, Entry.mk k y d ∈ a → ¬ Touches off y.span) :
    findObjectEntries off path (a ++ b) = findObjectEntries off path b := by
  induction a with
  | nil => rfl
  | cons e a ih =>
    obtain ⟨k, v, d⟩ := e
    rw [List.cons_append, findObjectEntries, touches_false.mpr (h k v d (List.mem_cons_self ..))]
    simp only [Bool.false_eq_true, if_false]
    exact ih fun k y d hm => h k y d (List.mem_cons_of_mem _ hm)

/-- What is found from above is what is found from the object the cursor is in. -/
theorem through_find {s : List Char} {off : Nat} {x v : Value} {p : List (List Char)} (h : ThroughObjects x v p) :
    ∀ (path : List (List Char)) (ctx : ObjectContext), LaidNode s v → Even v → v.span = none ∨ Touches off v.span →
    x.asObject ≠ none → Behind off x.span → findObject off (path ++ p) x = some ctx → findObject off path v = some ctx := by
  induction h with
  | here => intro path ctx _ _ _ _ _ hf; simpa using hf
  | @entry t es o sp k y d p hm ht ih =>
    intro path ctx hl he hs ho hx hf
    obtain ⟨lo, hi, hes⟩ := hl.1 _ _ rfl
    have hm0 := hm
    obtain ⟨a, b, rfl⟩ := List.append_of_mem hm
    obtain ⟨h1, h2, h3⟩ := entries_before hes (through_node ht) hx
    have hy := ih (path ++ stepNames k y) ctx h2 (he.child (.value hm0)) (.inr (behind_touches h1)) ho hx
      (by rw [List.append_assoc]; exact hf)
    have ho' : o = sp := he _ .self _ o rfl
    subst ho'
    have hc : (o.isSome && !touches off o) = false := by
      rcases hs with hs | hs
      · simp only [Value.span] at hs
        simp [hs]
      · have := touches_iff.mpr hs
        simp only [Value.span] at this
        simp [this]
    rw [findObject, hc]
    simp only [Bool.false_eq_true, if_false]
    rw [findObjectEntries_skip fun k' y' d' hm' => (h3 k' y' d' hm').2, findObjectEntries,
      touches_iff.mpr (behind_touches h1)]
    cases hyo : y.asObject with
    | none =>
      obtain ⟨t', p', sp'⟩ := y
      cases ht with
      | here => exact absurd hyo ho
      | entry _ _ => cases hyo
    | some nested =>
      simp only [if_true, nestedPath_eq, hy]
      rfl

/-! ## Tagged values -/

mutual
theorem findTagged_sound (off : Nat) : ∀ (v : Value) (cur : Option Value) (w : Value), findTagged off cur v = some w →
    cur = some w ∨ (Node w v ∧ w.tag ≠ none ∧ (w.span = none ∨ Touches off w.span))
  | .mk t p sp, cur, w, h => by
    have hs : sp = none ∨ Touches off sp := by
      rw [← touches_iff]
      cases sp with
      | none => exact .inl rfl
      | some sp =>
        by_cases hc : touches off (some sp) = true
        · exact .inr hc
        · exfalso
          match p, h with
          | some (.object es o), h => rw [findTagged] at h; simp [hc] at h
          | some (.sequence items o), h => rw [findTagged] at h; simp [hc] at h
          | some (.scalar _ _ _), h => rw [findTagged] at h; simp [hc] at h; all_goals nofun
          | none, h => rw [findTagged] at h; simp [hc] at h; all_goals nofun
    have hc : (sp.isNone || touches off sp) = true := by
      rcases hs with hs | hs
      · simp [hs]
      · simp [touches_iff.mpr hs]
    have hnew : ∀ w, (if t.isSome then some (.mk t p sp) else cur) = some w →
        cur = some w ∨ (Node w (.mk t p sp) ∧ w.tag ≠ none ∧ (w.span = none ∨ Touches off w.span)) := by
      intro w hw
      split at hw
      · rename_i ht
        cases hw
        refine .inr ⟨.self, ?_, hs⟩
        intro h0
        simp only [Value.tag] at h0
        simp [h0] at ht
      · exact .inl hw
    match p, h, hnew with
    | some (.object es o), h, hnew =>
      rw [findTagged, if_pos hc] at h
      simp only [Option.or_eq_some_iff, Option.or_eq_none_iff] at h
      have main : ∀ new, findTaggedEntries off new es = some w →
          new = some w ∨ (Node w (.mk t (some (.object es o)) sp) ∧ w.tag ≠ none ∧ (w.span = none ∨ Touches off w.span)) := by
        intro new hw
        rcases findTaggedEntries_sound off es new w hw with h | ⟨k, y, d, hm, h1, h2⟩
        · exact .inl h
        · exact .inr ⟨.inside (.value hm) h1, h2⟩
      rcases h with (h | ⟨_, h⟩) | ⟨_, h⟩
      · rcases main _ h with h | h
        · exact hnew w h
        · exact .inr h
      · rcases main _ h with h | h
        · exact hnew w h
        · exact .inr h
      · exact hnew w h
    | some (.sequence items o), h, hnew =>
      rw [findTagged, if_pos hc] at h
      simp only [Option.or_eq_some_iff] at h
      rcases h with h | ⟨_, h⟩
      · rcases findTaggedItems_sound off items _ w h with h | ⟨y, hm, h1, h2⟩
        · exact hnew w h
        · exact .inr ⟨.inside (.item hm) h1, h2⟩
      · exact hnew w h
    | some (.scalar text k o), h, hnew =>
      rw [findTagged, if_pos hc] at h
      · exact hnew w h
      all_goals nofun
    | none, h, hnew =>
      rw [findTagged, if_pos hc] at h
      · exact hnew w h
      all_goals nofun

theorem findTaggedEntries_sound (off : Nat) : ∀ (es : List Entry) (cur : Option Value) (w : Value),
    findTaggedEntries off cur es = some w →
    cur = some w ∨ ∃ k y d, Entry.mk k y d ∈ es ∧ Node w y ∧ w.tag ≠ none ∧ (w.span = none ∨ Touches off w.span)
  | [], _, _, h => by cases h
  | .mk k v d :: es, cur, w, h => by
    rw [findTaggedEntries, Option.or_eq_some_iff] at h
    rcases h with h | ⟨_, h⟩
    · rcases findTagged_sound off v cur w h with h | h
      · exact .inl h
      · exact .inr ⟨k, v, d, List.mem_cons_self .., h⟩
    · rcases findTaggedEntries_sound off es cur w h with h | ⟨k', y, d', hm, h⟩
      · exact .inl h
      · exact .inr ⟨k', y, d', List.mem_cons_of_mem _ hm, h⟩

theorem findTaggedItems_sound (off : Nat) : ∀ (vs : List Value) (cur : Option Value) (w : Value),
    findTaggedItems off cur vs = some w →
    cur = some w ∨ ∃ y, y ∈ vs ∧ Node w y ∧ w.tag ≠ none ∧ (w.span = none ∨ Touches off w.span)
  | [], _, _, h => by cases h
  | v :: vs, cur, w, h => by
    rw [findTaggedItems, Option.or_eq_some_iff] at h
    rcases h with h | ⟨_, h⟩
    · rcases findTagged_sound off v cur w h with h | h
      · exact .inl h
      · exact .inr ⟨v, List.mem_cons_self .., h⟩
    · rcases findTaggedItems_sound off vs cur w h with h | ⟨y, hm, h⟩
      · exact .inl h
      · exact .inr ⟨y, List.mem_cons_of_mem _ hm, h⟩
end

theorem findTagged_outside {off : Nat} {cur : Option Value} {v : Value} (h : v.span.isSome = true)
    (ht : ¬ Touches off v.span) : findTagged off cur v = none := by
  obtain ⟨t, p, sp⟩ := v
  cases sp with
  | none => cases h
  | some sp =>
    have hc : (Option.isNone (some sp) || touches off (some sp)) = false := by
      have : touches off (some sp) = false := touches_false.mpr ht
      simp [this]
    match p with
    | some (.object es o) => rw [findTagged, hc]; rfl
    | some (.sequence es o) => rw [findTagged, hc]; rfl
    | some (.scalar _ _ _) => rw [findTagged, hc]; · rfl
                              all_goals nofun
    | none => rw [findTagged, hc]; · rfl
              all_goals nofun

/-- A tagged value the cursor is in gives itself or something inside. -/
theorem tagged_self {off : Nat} {cur : Option Value} {x : Value} (ht : x.tag ≠ none) (hx : Touches off x.span) :
    ∃ w, findTagged off cur x = some w ∧ Node w x := by
  have h : ∃ w, findTagged off cur x = some w ∧ (some x = some w ∨ (Node w x ∧ w.tag ≠ none ∧
      (w.span = none ∨ Touches off w.span))) := by
    obtain ⟨t, p, sp⟩ := x
    have hc : (sp.isNone || touches off sp) = true := by
      have : touches off sp = true := touches_iff.mpr hx
      simp [this]
    have hn : t.isSome = true := by
      cases t with
      | none => exact absurd rfl ht
      | some _ => rfl
    have main : ∀ f : Option Value → Option Value, (∀ w, f (some (.mk t p sp)) = some w →
        (some (Value.mk t p sp) = some w ∨ (Node w (.mk t p sp) ∧ w.tag ≠ none ∧ (w.span = none ∨ Touches off w.span)))) →
        ∃ w, (f (some (.mk t p sp))).or (some (.mk t p sp)) = some w ∧
          (some (Value.mk t p sp) = some w ∨ (Node w (.mk t p sp) ∧ w.tag ≠ none ∧ (w.span = none ∨ Touches off w.span))) := by
      intro f hf
      cases hw : f (some (.mk t p sp)) with
      | none => exact ⟨_, rfl, .inl rfl⟩
      | some w => exact ⟨w, rfl, hf w hw⟩
    match p, main with
    | some (.object es o), main =>
      rw [findTagged, if_pos hc, if_pos hn]
      refine main (fun new => (findTaggedEntries off new es).or (findTaggedEntries off new es)) ?_
      intro w hw
      simp only [Option.or_self] at hw
      rcases findTaggedEntries_sound off es _ w hw with h | ⟨k, y, d, hm, h1, h2⟩
      · exact .inl h
      · exact .inr ⟨.inside (.value hm) h1, h2⟩
    | some (.sequence items o), main =>
      rw [findTagged, if_pos hc, if_pos hn]
      refine main (fun new => findTaggedItems off new items) ?_
      intro w hw
      rcases findTaggedItems_sound off items _ w hw with h | ⟨y, hm, h1, h2⟩
      · exact .inl h
      · exact .inr ⟨.inside (.item hm) h1, h2⟩
    | some (.scalar text k o), _ =>
      rw [findTagged, if_pos hc, if_pos hn]
      · exact ⟨_, rfl, .inl rfl⟩
      all_goals nofun
    | none, _ =>
      rw [findTagged, if_pos hc, if_pos hn]
      · exact ⟨_, rfl, .inl rfl⟩
      all_goals nofun
  obtain ⟨w, h1, h2⟩ := h
  refine ⟨w, h1, ?_⟩
  rcases h2 with h2 | h2
  · cases h2; exact .self
  · exact h2.1

theorem findTaggedEntries_skip {off : Nat} {cur : Option Value} {a b : List Entry}
    (h : ∀ k y d, Entry.mk k y d ∈ a → y.span.isSome = true ∧ ¬ Touches off y.span) :
    findTaggedEntries off cur (a ++ b) = findTaggedEntries off cur b := by
  induction a with
  | nil => rfl
  | cons e a ih =>
    obtain ⟨k, v, d⟩ := e
    obtain ⟨h1, h2⟩ := h k v d (List.mem_cons_self ..)
    rw [List.cons_append, findTaggedEntries, findTagged_outside h1 h2]
    exact ih fun k y d hm => h k y d (List.mem_cons_of_mem _ hm)

theorem findTaggedItems_skip {off : Nat} {cur : Option Value} {a b : List Value}
    (h : ∀ y ∈ a, y.span.isSome = true ∧ ¬ Touches off y.span) :
    findTaggedItems off cur (a ++ b) = findTaggedItems off cur b := by
  induction a with
  | nil => rfl
  | cons v a ih =>
    obtain ⟨h1, h2⟩ := h v (List.mem_cons_self ..)
    rw [List.cons_append, findTaggedItems, findTagged_outside h1 h2]
    exact ih fun y hm => h y (List.mem_cons_of_mem _ hm)

theorem tagged_entries {s : List Char} {off lo hi : Nat} {cur : Option Value} {es : List Entry} {o sp : Option Span}
    {t : Option Tag} {k y x : Value} {d : Option (List Char)} (hes : EntriesStd s lo hi es) (hm : Entry.mk k y d ∈ es)
    (hn : Node x y) (hx : Behind off x.span) (hs : sp = none ∨ Touches off sp)
    (ih : ∀ cur, LaidNode s y → y.span = none ∨ Touches off y.span → ∃ w, findTagged off cur y = some w ∧ Node w x) :
    ∃ w, findTagged off cur (.mk t (some (.object es o)) sp) = some w ∧ Node w x := by
  obtain ⟨a, b, rfl⟩ := List.append_of_mem hm
  obtain ⟨h1, h2, h3⟩ := entries_before hes hn hx
  have hc : (sp.isNone || touches off sp) = true := by
    rcases hs with hs | hs
    · simp [hs]
    · simp [touches_iff.mpr hs]
  rw [findTagged, if_pos hc]
  generalize (if t.isSome = true then some (Value.mk t (some (.object (a ++ .mk k y d :: b) o)) sp) else cur) = new
  obtain ⟨w, g1, g2⟩ := ih new h2 (.inr (behind_touches h1))
  refine ⟨w, ?_, g2⟩
  simp only [Option.or_self]
  rw [findTaggedEntries_skip h3, findTaggedEntries, g1]
  rfl

/-- A tagged value the cursor is in gives itself or something inside, wherever it is. -/
theorem tagged_find {s : List Char} {off : Nat} {x v : Value} {p : List Seg} (h : LeadsTo x v p) :
    ∀ (cur : Option Value), LaidNode s v → v.span = none ∨ Touches off v.span → x.tag ≠ none → Behind off x.span →
    ∃ w, findTagged off cur v = some w ∧ Node w x := by
  induction h with
  | here => exact fun cur _ _ ht hx => tagged_self ht (behind_touches hx)
  | field hm hk hl ih =>
    intro cur hlaid hs ht hx
    obtain ⟨lo, hi, hes⟩ := hlaid.1 _ _ rfl
    exact tagged_entries hes hm (leadsTo_node hl) hx hs fun cur g1 g2 => ih cur g1 g2 ht hx
  | unnamed hm hk hl ih =>
    intro cur hlaid hs ht hx
    obtain ⟨lo, hi, hes⟩ := hlaid.1 _ _ rfl
    exact tagged_entries hes hm (leadsTo_node hl) hx hs fun cur g1 g2 => ih cur g1 g2 ht hx
  | @item t items o sp i y p hm hl ih =>
    intro cur hlaid hs ht hx
    obtain ⟨lo, hi, hes⟩ := hlaid.2 _ _ rfl
    obtain ⟨a, b, rfl⟩ := List.append_of_mem (List.mem_of_getElem? hm)
    obtain ⟨h1, h2, _, h3⟩ := items_before (leadsTo_node hl) hx hes
    have hc : (sp.isNone || touches off sp) = true := by
      rcases hs with hs | hs
      · simp only [Value.span] at hs; simp [hs]
      · have := touches_iff.mpr hs
        simp only [Value.span] at this
        simp [this]
    rw [findTagged, if_pos hc]
    generalize (if t.isSome = true then some (Value.mk t (some (.sequence (a ++ y :: b) o)) sp) else cur) = new
    obtain ⟨w, g1, g2⟩ := ih new h2 (.inr (behind_touches h1)) ht hx
    refine ⟨w, ?_, g2⟩
    show (findTaggedItems off new (a ++ y :: b)).or new = some w
    rw [findTaggedItems_skip h3, findTaggedItems, g1]
    rfl

end Styx.Lsp
