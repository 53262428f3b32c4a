import Verif.Tree.ModifyLemmas

/-!
# C127: writing to a place of a tree changes that place and nothing else

`Value.modify path f` is the tree after `f` was applied through `get_mut(path)`.  `Tree/ModifySpec.lean` says what it
means that one place is replaced, `Tree/PathSpec.lean` what the steps of a path are.
-/

namespace Styx.Props

open Styx Styx.Spec

/-! ## One write -/

/-- **C127**: what `get` finds can be written: a path leads to one place, whatever is written, and the tree afterwards is
the tree before with the new value at that place. -/
theorem C127_place (path : List Char) (v x : Value) (h : v.get path = some x) :
    ∃ place, ∀ f, ∃ v', v.modify path f = some v' ∧ Replaced place v x (f x) v' := by
  rcases modify_place _ path v (Nat.lt_succ_self _) with ⟨h1, _⟩ | ⟨y, place, h1, h2⟩
  · rw [h1] at h; cases h
  · obtain rfl : y = x := by rw [h1] at h; exact Option.some.inj h
    exact ⟨place, fun f => let ⟨v', k1, k2, _⟩ := h2 f; ⟨v', k1, k2⟩⟩

/-- **C127**: `get_mut` fails exactly where `get` fails. -/
theorem C127_none (path : List Char) (f : Value → Value) (v : Value) : v.modify path f = none ↔ v.get path = none := by
  rcases modify_place _ path v (Nat.lt_succ_self _) with ⟨h1, h2⟩ | ⟨y, place, h1, h2⟩
  · simp [h1, h2]
  · obtain ⟨v', k1, _, _⟩ := h2 f
    simp [h1, k1]

/-- **C127**: what was written is read back through the same path. -/
theorem C127_read_back (path : List Char) (f : Value → Value) (v v' : Value) (h : v.modify path f = some v') :
    ∃ x, v.get path = some x ∧ v'.get path = some (f x) := by
  rcases modify_place _ path v (Nat.lt_succ_self _) with ⟨h1, h2⟩ | ⟨y, place, h1, h2⟩
  · rw [h2] at h; cases h
  · obtain ⟨w, k1, _, k3⟩ := h2 f
    obtain rfl : w = v' := by rw [k1] at h; exact Option.some.inj h
    exact ⟨y, h1, k3⟩

theorem replaced_same {place : List Nat} {v x v' : Value} (h : Replaced place v x x v') : v' = v := by
  have : ∀ {place : List Nat} {v x y v' : Value}, Replaced place v x y v' → x = y → v' = v := by
    intro place v x y v' h
    induction h with
    | here => intro he; exact he.symm
    | entry t a k d b o s _ ih => intro he; rw [ih he]
    | item t a b o s _ ih => intro he; rw [ih he]
  exact this h rfl

/-- **C127**: writing what is already there changes nothing, not even spans. -/
theorem C127_same (path : List Char) (f : Value → Value) (v x : Value) (h : v.get path = some x) (hf : f x = x) :
    v.modify path f = some v := by
  obtain ⟨place, hp⟩ := C127_place path v x h
  obtain ⟨v', k1, k2⟩ := hp f
  rw [hf] at k2
  rw [k1, replaced_same k2]

/-! ## Other paths -/

/-- **C127**: a path that does not lead through the written place, and not to something around it, finds what it
found before. -/
theorem C127_apart (p q : List PathStep) (hp : ∀ s ∈ p, StepOK s) (hq : ∀ s ∈ q, StepOK s) (h1 : ¬ p <+: q)
    (h2 : ¬ q <+: p) (f : Value → Value) (v v' : Value) (h : v.modify (render p) f = some v') :
    v'.get (render q) = v.get (render q) := modify_apart hp hq ⟨h1, h2⟩ h

/-- **C127**: a path to something around the written place finds what it found before, with the write done inside. -/
theorem C127_around (q r : List PathStep) (hok : ∀ s ∈ q ++ r, StepOK s) (f : Value → Value) (v v' : Value)
    (h : v.modify (render (q ++ r)) f = some v') :
    ∃ x x', v.get (render q) = some x ∧ v'.get (render q) = some x' ∧ x.modify (render r) f = some x' :=
  modify_above hok h

/-- **C127**: a path that leads on from the written place finds what is there in the new value. -/
theorem C127_inside (p r : List PathStep) (hok : ∀ s ∈ p ++ r, StepOK s) (f : Value → Value) (v v' : Value)
    (h : v.modify (render p) f = some v') :
    ∃ x, v.get (render p) = some x ∧ v'.get (render (p ++ r)) = (f x).get (render r) := by
  obtain ⟨x, h1, h2⟩ := C127_read_back _ f v v' h
  exact ⟨x, h1, by rw [get_append hok, h2]; rfl⟩

/-- **C127**: two writes to places of which none is inside the other can be done in any order. -/
theorem C127_order (p q : List PathStep) (hp : ∀ s ∈ p, StepOK s) (hq : ∀ s ∈ q, StepOK s) (h1 : ¬ p <+: q)
    (h2 : ¬ q <+: p) (f g : Value → Value) (v : Value) :
    (v.modify (render p) f).bind (Value.modify (render q) g) =
      (v.modify (render q) g).bind (Value.modify (render p) f) := modify_comm v hp hq ⟨h1, h2⟩

/-! ## Entries and items through a path -/

/-- `if let Some(o) = v.as_object_mut() { o.insert(key, w) }`. -/
def insertInto (key : List Char) (w x : Value) : Value := (x.modifyObject fun es => objInsert es key w).getD x

/-- `if let Some(s) = v.as_sequence_mut() { s.push(w) }`. -/
def pushOnto (w x : Value) : Value := (x.modifySequence fun items => seqPush items w).getD x

theorem get_one_key {k : List Char} (hk : StepOK (.key k)) (t : Option Tag) (es : List Entry) (o s : Option Span) :
    (Value.mk t (some (.object es o)) s).get (render [.key k]) = objGet es k := by
  rw [get_step (by simpa using hk), stepLoose_object]
  show (objGet es k).bind (fun x => x.get []) = _
  cases objGet es k with
  | none => rfl
  | some x => exact value_get_nil x

theorem get_one_idx {n : Nat} (hn : StepOK (.idx n)) (t : Option Tag) (items : List Value) (o s : Option Span) :
    (Value.mk t (some (.sequence items o)) s).get (render [.idx n]) = items[n]? := by
  rw [get_step (by simpa using hn)]
  show (items[n]?).bind (fun x => x.get []) = _
  cases items[n]? with
  | none => rfl
  | some x => exact value_get_nil x

/-- **C127**, inserting into an object that a path leads to: the inserted value is found behind the path, and the
values of the other keys are the same. -/
theorem C127_insert (p : List PathStep) (k : List Char) (hok : ∀ s ∈ p ++ [.key k], StepOK s) (w v : Value)
    (t : Option Tag) (es : List Entry) (o s : Option Span)
    (h : v.get (render p) = some (.mk t (some (.object es o)) s)) :
    ∃ v', v.modify (render p) (insertInto k w) = some v' ∧ v'.get (render (p ++ [.key k])) = some w ∧
      ∀ k', StepOK (.key k') → k' ≠ k →
        v'.get (render (p ++ [.key k'])) = v.get (render (p ++ [.key k'])) := by
  have hp : ∀ s ∈ p, StepOK s := fun s hs => hok s (List.mem_append_left _ hs)
  have hk : StepOK (.key k) := hok _ (by simp)
  cases hv : v.modify (render p) (insertInto k w) with
  | none => rw [(C127_none _ _ _).mp hv] at h; cases h
  | some v' =>
    obtain ⟨x, h1, h2⟩ := C127_read_back _ _ v v' hv
    obtain rfl : x = .mk t (some (.object es o)) s := by rw [h1] at h; exact Option.some.inj h
    have hi : insertInto k w (.mk t (some (.object es o)) s) = .mk t (some (.object (objInsert es k w) o)) s := rfl
    refine ⟨v', rfl, ?_, fun k' hk' hne => ?_⟩
    · rw [get_append hok, h2, Option.bind_some, hi, get_one_key hk, objGet, objInsert_eq]
      exact insert_find_same _ (fun _ _ _ _ _ => rfl) w _ _ (by simp [Entry.key, Value.scalar, Value.asStr]) es
    · have hok' : ∀ s ∈ p ++ [PathStep.key k'], StepOK s := by
        intro s hs
        rcases List.mem_append.mp hs with hs | hs
        · exact hp s hs
        · rw [List.mem_singleton.mp hs]; exact hk'
      rw [get_append hok', get_append hok', h2, h1, Option.bind_some, Option.bind_some, hi, get_one_key hk',
        get_one_key hk', objGet, objGet, objInsert_eq]
      rw [insert_find_other _ _ (fun _ _ _ _ _ => rfl) ?_ w _ _ (by simp [Entry.key, Value.scalar, Value.asStr]) es]
      intro e he
      simp only [beq_iff_eq] at he
      simp only [he, beq_eq_false_iff_ne, ne_eq, Option.some.injEq]
      exact fun hc => hne hc.symm

/-- **C127**, pushing onto a sequence that a path leads to: the new item is the last one, and the others are the
same. -/
theorem C127_push (p : List PathStep) (hp : ∀ s ∈ p, StepOK s) (w v : Value) (t : Option Tag) (items : List Value)
    (o s : Option Span) (h : v.get (render p) = some (.mk t (some (.sequence items o)) s)) :
    ∃ v', v.modify (render p) (pushOnto w) = some v' ∧
      ∀ n, n ≤ usizeMax → v'.get (render (p ++ [.idx n])) = if n = items.length then some w else items[n]? := by
  cases hv : v.modify (render p) (pushOnto w) with
  | none => rw [(C127_none _ _ _).mp hv] at h; cases h
  | some v' =>
    obtain ⟨x, h1, h2⟩ := C127_read_back _ _ v v' hv
    obtain rfl : x = .mk t (some (.sequence items o)) s := by rw [h1] at h; exact Option.some.inj h
    have hi : pushOnto w (.mk t (some (.sequence items o)) s) = .mk t (some (.sequence (items ++ [w]) o)) s := rfl
    refine ⟨v', rfl, fun n hn => ?_⟩
    have hok : ∀ s ∈ p ++ [PathStep.idx n], StepOK s := by
      intro s hs
      rcases List.mem_append.mp hs with hs | hs
      · exact hp s hs
      · rw [List.mem_singleton.mp hs]; exact hn
    rw [get_append hok, h2, Option.bind_some, hi, get_one_idx hn]
    by_cases he : n = items.length
    · subst he; simp
    · rw [if_neg he]
      rcases Nat.lt_or_gt_of_ne he with hlt | hgt
      · rw [List.getElem?_append_left hlt]
      · rw [List.getElem?_eq_none (by simp; omega), List.getElem?_eq_none (by omega)]

/-! ## Entries of one object -/

theorem modifyFirst_cases (p : Value → Bool) (f : Value → Value) (es : List Entry) :
    (modifyFirst p f es = none ∧ ∀ e ∈ es, p e.key = false) ∨
    ∃ a k x d b, es = a ++ .mk k x d :: b ∧ p k = true ∧ (∀ e ∈ a, p e.key = false) ∧
      modifyFirst p f es = some (a ++ .mk k (f x) d :: b) := by
  induction es with
  | nil => exact Or.inl ⟨rfl, (nofun)⟩
  | cons e es ih =>
    obtain ⟨k, v, d⟩ := e
    cases hk : p k with
    | true => exact Or.inr ⟨[], k, v, d, es, rfl, hk, (nofun), by simp [modifyFirst, hk]⟩
    | false =>
      rcases ih with ⟨h1, h2⟩ | ⟨a, k', x, d', b, h1, h2, h3, h4⟩
      · refine Or.inl ⟨by simp [modifyFirst, hk, h1], fun e he => ?_⟩
        rcases List.mem_cons.mp he with rfl | he
        · exact hk
        · exact h2 e he
      · refine Or.inr ⟨.mk k v d :: a, k', x, d', b, by rw [h1]; rfl, h2, fun e he => ?_, by
          simp [modifyFirst, hk, h4]⟩
        rcases List.mem_cons.mp he with rfl | he
        · exact hk
        · exact h3 e he

theorem find_mid {p q : Value → Bool} {f : Value → Value} {es es' : List Entry} (h : modifyFirst p f es = some es') :
    ((∀ k, p k = true → q k = false) →
      (es'.find? fun e => q e.key).map (·.value) = (es.find? fun e => q e.key).map (·.value)) ∧
    (es'.find? fun e => p e.key).map (·.value) = ((es.find? fun e => p e.key).map (·.value)).map f ∧
    es'.map (fun e => (e.key, e.doc)) = es.map fun e => (e.key, e.doc) := by
  rcases modifyFirst_cases p f es with ⟨h1, _⟩ | ⟨a, k, x, d, b, h1, h2, h3, h4⟩
  · rw [h1] at h; cases h
  · obtain rfl := Option.some.inj (h4.symm.trans h)
    subst h1
    have hnone : a.find? (fun e => p e.key) = none := List.find?_eq_none.mpr fun e he => by simp [h3 e he]
    refine ⟨fun hq => ?_, ?_, by simp [Entry.key, Entry.doc]⟩
    · have : q k = false := hq k h2
      simp only [List.find?_append, List.find?_cons]
      simp only [Entry.key, this]
    · simp only [List.find?_append, hnone, List.find?_cons]
      simp only [Entry.key, h2]
      rfl

/-- **C127**, `get_mut` of an object: it changes what `get` finds for the key, nothing that is found for another key
or for the unit key, and no key or doc comment. -/
theorem C127_object (key : List Char) (f : Value → Value) (es : List Entry) :
    (objModify key f es = none ↔ objGet es key = none) ∧
    ∀ es', objModify key f es = some es' → objGet es' key = (objGet es key).map f ∧
      (∀ key', key' ≠ key → objGet es' key' = objGet es key') ∧ objGetUnit es' = objGetUnit es ∧
      es'.map (fun e => (e.key, e.doc)) = es.map fun e => (e.key, e.doc) := by
  constructor
  · rcases modifyFirst_cases (fun k => k.asStr == some key) f es with ⟨h1, h2⟩ | ⟨a, k, x, d, b, h1, h2, h3, h4⟩
    · have : objGet es key = none := by
        rw [objGet, List.find?_eq_none.mpr fun e he => by simpa using h2 e he]; rfl
      simp [objModify, h1, this]
    · have : objGet es key = some x := by
        rw [h1]; exact objGet_mid (by simpa using h2) (fun e he => by simpa using h3 e he)
      simp [objModify, h4, this]
  · intro es' h
    have hu : ∀ k : Value, k.isUnit = true → k.asStr = none := by
      rintro ⟨t, p, s⟩ hk
      cases t <;> cases p <;> simp_all [Value.isUnit, Value.tag, Value.payload, Value.asStr]
    refine ⟨(find_mid (q := fun _ => false) h).2.1, fun key' hne => ?_, ?_, (find_mid (q := fun _ => false) h).2.2⟩
    · refine (find_mid (q := fun k => k.asStr == some key') h).1 fun k hk => ?_
      simp only [beq_iff_eq] at hk
      simp only [hk, beq_eq_false_iff_ne, ne_eq, Option.some.injEq]
      exact fun hc => hne hc.symm
    · refine (find_mid (q := fun k => k.isUnit) h).1 fun k hk => ?_
      cases hc : k.isUnit with
      | false => rfl
      | true => simp [hu k hc] at hk

/-- **C127**, `get_unit_mut` likewise. -/
theorem C127_unit (f : Value → Value) (es : List Entry) :
    (objModifyUnit f es = none ↔ objGetUnit es = none) ∧
    ∀ es', objModifyUnit f es = some es' → objGetUnit es' = (objGetUnit es).map f ∧
      (∀ key, objGet es' key = objGet es key) ∧
      es'.map (fun e => (e.key, e.doc)) = es.map fun e => (e.key, e.doc) := by
  constructor
  · rcases modifyFirst_cases (·.isUnit) f es with ⟨h1, h2⟩ | ⟨a, k, x, d, b, h1, h2, h3, h4⟩
    · have : objGetUnit es = none := by
        rw [objGetUnit, List.find?_eq_none.mpr fun e he => by simp [h2 e he]]; rfl
      simp [objModifyUnit, h1, this]
    · have : objGetUnit es = some x := by
        have hn : a.find? (fun e => e.key.isUnit) = none := List.find?_eq_none.mpr fun e he => by simp [h3 e he]
        rw [h1, objGetUnit, List.find?_append, hn, List.find?_cons]
        simp only [Entry.key, h2]
        rfl
      simp [objModifyUnit, h4, this]
  · intro es' h
    refine ⟨(find_mid (q := fun _ => false) h).2.1, fun key => ?_, (find_mid (q := fun _ => false) h).2.2⟩
    refine (find_mid (q := fun k => k.asStr == some key) h).1 fun k hk => ?_
    obtain ⟨t, p, s⟩ := k
    cases t <;> cases p <;> simp_all [Value.isUnit, Value.tag, Value.payload, Value.asStr]

/-- **C127**, `get_mut` of a sequence: it changes the item with the index and no other. -/
theorem C127_sequence (n : Nat) (f : Value → Value) (items : List Value) :
    (seqModify n f items = none ↔ items[n]? = none) ∧
    ∀ items', seqModify n f items = some items' → items'.length = items.length ∧
      ∀ m, items'[m]? = if m = n then items[n]?.map f else items[m]? := by
  constructor
  · simp [seqModify]
  · intro items' h
    obtain ⟨x, h1, rfl⟩ := Option.map_eq_some_iff.mp h
    refine ⟨by simp, fun m => ?_⟩
    have hlt := (List.getElem?_eq_some_iff.mp h1).1
    by_cases he : m = n
    · subst he; rw [if_pos rfl, h1, List.getElem?_set_self hlt]; rfl
    · rw [if_neg he, List.getElem?_set_ne (Ne.symm he)]

/-! ## A case of the hypotheses -/

section Examples

/-- `a {b (1 2), c x}, d y`. -/
def editedTree : Value :=
  .mk none (some (.object [.mk (Value.scalar ['a']) (.mk none (some (.object
    [.mk (Value.scalar ['b']) (Value.seq [Value.scalar ['1'], Value.scalar ['2']]) (some ['z']),
     .mk (Value.scalar ['c']) (Value.scalar ['x']) none] none)) none) none,
    .mk (Value.scalar ['d']) (Value.scalar ['y']) none] none)) none

/-- The second item of `a.b` is found and written; `a.c` is not touched. -/
example : ∃ v', editedTree.modify (chars! "a.b[1]") (fun _ => Value.scalar ['3']) = some v' ∧
    (v'.get (chars! "a.b[1]")).bind Value.asStr = some ['3'] ∧ (v'.get (chars! "a.b[0]")).bind Value.asStr = some ['1'] ∧
    (v'.get (chars! "a.c")).bind Value.asStr = some ['x'] := ⟨_, rfl, rfl, rfl, rfl⟩

example : render [.key ['a'], .key ['b'], .idx 1] = chars! "a.b[1]" ∧
    ¬ [PathStep.key ['a'], .key ['b'], .idx 1] <+: [.key ['a'], .key ['c']] ∧
    ¬ [PathStep.key ['a'], .key ['c']] <+: [.key ['a'], .key ['b'], .idx 1] := by decide +kernel

example : ∃ v', editedTree.modify (chars! "a.b") (pushOnto (Value.scalar ['3'])) = some v' ∧
    (v'.get (chars! "a.b[2]")).bind Value.asStr = some ['3'] := ⟨_, rfl, rfl⟩

end Examples

end Styx.Props
