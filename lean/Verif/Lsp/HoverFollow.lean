import Verif.Lsp.HoverLemmas
import Verif.Tree.ValueLemmas

/-!
# Lemmas: hover follows the path of a field
-/

namespace Styx.Lsp

open Styx Styx.Spec Styx.Props

/-! ### Shapes of types -/

theorem braces_shape {v : Value} {name : List Char} {es : List Entry} (h : Braces v name es) :
    ∃ tsp o sp, v = .mk (some ⟨name, tsp⟩) (some (.object es o)) sp := by
  obtain ⟨t, p, sp⟩ := v
  obtain ⟨h1, h2⟩ := h
  rcases p with _ | _ | _ | ⟨es', o⟩ <;> simp [Value.asObject] at h2
  simp only [Value.tagName, Value.tag, Option.map_eq_some_iff] at h1
  obtain ⟨⟨n, tsp⟩, rfl, rfl⟩ := h1
  exact ⟨tsp, o, sp, by rw [h2]⟩

theorem parens_shape {v : Value} {name : List Char} {items : List Value} (h : Parens v name items) :
    ∃ tsp o sp, v = .mk (some ⟨name, tsp⟩) (some (.sequence items o)) sp := by
  obtain ⟨t, p, sp⟩ := v
  obtain ⟨h1, h2⟩ := h
  rcases p with _ | _ | ⟨es', o⟩ | _ <;> simp [Value.asSequence] at h2
  simp only [Value.tagName, Value.tag, Option.map_eq_some_iff] at h1
  obtain ⟨⟨n, tsp⟩, rfl, rfl⟩ := h1
  exact ⟨tsp, o, sp, by rw [h2]⟩

theorem ref_shape {defs : List Entry} {v : Value} {e : Entry} (h : RefTo defs v e) :
    ∃ name tsp sp, v = .mk (some ⟨name, tsp⟩) none sp ∧ FirstNamed defs name e := by
  obtain ⟨t, p, sp⟩ := v
  obtain ⟨name, h1, h2, h3⟩ := h
  simp only [Value.tagName, Value.tag, Option.map_eq_some_iff] at h1
  obtain ⟨⟨n, tsp⟩, rfl, rfl⟩ := h1
  cases h2
  exact ⟨n, tsp, sp, rfl, h3⟩

/-- A wrapper is a tag with a sequence that ends with what is wrapped. -/
theorem wraps_shape {v t : Value} (h : Wraps v t) : ∃ name tsp items o sp,
    v = .mk (some ⟨name, tsp⟩) (some (.sequence items o)) sp ∧
    (items = [t] ∨ ∃ x, items = [x, t]) ∧
    (name = chars! "optional" ∨ name = chars! "default" ∨ name = chars! "deprecated") := by
  cases h with
  | optional h =>
    obtain ⟨tsp, o, sp, rfl⟩ := parens_shape h
    exact ⟨_, tsp, _, o, sp, rfl, .inl rfl, .inl rfl⟩
  | default h =>
    obtain ⟨tsp, o, sp, rfl⟩ := parens_shape h
    exact ⟨_, tsp, _, o, sp, rfl, .inr ⟨_, rfl⟩, .inr (.inl rfl)⟩
  | deprecated h =>
    obtain ⟨tsp, o, sp, rfl⟩ := parens_shape h
    exact ⟨_, tsp, _, o, sp, rfl, .inr ⟨_, rfl⟩, .inr (.inr rfl)⟩

theorem wraps_unique {v t u : Value} (h : Wraps v t) (h' : Wraps v u) : t = u := by
  obtain ⟨n, s, i, o, sp, rfl, h1, h2⟩ := wraps_shape h
  obtain ⟨n', s', i', o', sp', he, h1', h2'⟩ := wraps_shape h'
  cases he
  rcases h1 with rfl | ⟨x, rfl⟩ <;> rcases h1' with h | ⟨y, h⟩ <;> cases h <;> rfl

/-- What a type can stand for, by what is written. -/
theorem means_object {defs : List Entry} {v w : Value} {name : List Char} {es : List Entry} (h : Braces v name es)
    (hm : Means defs v w) : w = v := by
  obtain ⟨_, _, _, rfl⟩ := braces_shape h
  cases hm with
  | self => rfl
  | ref hr _ => obtain ⟨_, _, _, he, _⟩ := ref_shape hr; cases he
  | wrapped hw _ => obtain ⟨_, _, _, _, _, he, _⟩ := wraps_shape hw; cases he

theorem means_parens {defs : List Entry} {v w : Value} {name : List Char} {items : List Value}
    (h : Parens v name items) (hn : name = chars! "seq" ∨ name = chars! "map") (hm : Means defs v w) : w = v := by
  obtain ⟨_, _, _, rfl⟩ := parens_shape h
  cases hm with
  | self => rfl
  | ref hr _ => obtain ⟨_, _, _, he, _⟩ := ref_shape hr; cases he
  | wrapped hw _ =>
    obtain ⟨_, _, _, _, _, he, _, h2⟩ := wraps_shape hw
    cases he
    rcases hn with rfl | rfl <;> rcases h2 with h2 | h2 | h2 <;> cases h2

/-- A type with keys or items. -/
def Has (w : Value) : Prop := (∃ name t e, Member w name t e) ∨ ∃ u, Parens w (chars! "seq") [u]

theorem has_shape {w : Value} (h : Has w) : (∃ es, Braces w (chars! "object") es) ∨
    ∃ items, Parens w (chars! "map") items ∨ Parens w (chars! "seq") items := by
  rcases h with ⟨name, t, e, h⟩ | ⟨u, h⟩
  · cases h with
    | field h _ => exact .inl ⟨_, h⟩
    | other h _ _ _ => exact .inl ⟨_, h⟩
    | value h => exact .inr ⟨_, .inl h⟩
    | value2 h => exact .inr ⟨_, .inl h⟩
  · exact .inr ⟨_, .inr h⟩

theorem ref_hasn't {defs : List Entry} {v : Value} {e : Entry} (h : RefTo defs v e) : ¬ Has v := by
  obtain ⟨_, _, _, rfl, _⟩ := ref_shape h
  intro hh
  rcases has_shape hh with ⟨_, hb⟩ | ⟨_, hb | hb⟩
  · obtain ⟨_, _, _, he⟩ := braces_shape hb; cases he
  · obtain ⟨_, _, _, he⟩ := parens_shape hb; cases he
  · obtain ⟨_, _, _, he⟩ := parens_shape hb; cases he

theorem wraps_hasn't {v t : Value} (h : Wraps v t) : ¬ Has v := by
  obtain ⟨_, _, _, _, _, rfl, _, hn⟩ := wraps_shape h
  intro hh
  rcases has_shape hh with ⟨_, hb⟩ | ⟨_, hb | hb⟩
  · obtain ⟨_, _, _, he⟩ := braces_shape hb; cases he
  · obtain ⟨_, _, _, he⟩ := parens_shape hb; cases he; rcases hn with hn | hn | hn <;> cases hn
  · obtain ⟨_, _, _, he⟩ := parens_shape hb; cases he; rcases hn with hn | hn | hn <;> cases hn

theorem means_ref {defs : List Entry} {v w : Value} {e : Entry} (h : RefTo defs v e) (hm : Means defs v w)
    (hw : Has w) : Means defs e.value w := by
  cases hm with
  | self => exact absurd hw (ref_hasn't h)
  | ref hr hm =>
    obtain ⟨_, _, _, rfl, h1⟩ := ref_shape h
    obtain ⟨_, _, _, he, h2⟩ := ref_shape hr
    cases he
    cases firstNamed_unique h1 h2
    exact hm
  | wrapped hwr _ =>
    obtain ⟨_, _, _, rfl, _⟩ := ref_shape h
    obtain ⟨_, _, _, _, _, he, _⟩ := wraps_shape hwr
    cases he

theorem means_wrapped {defs : List Entry} {v t w : Value} (h : Wraps v t) (hm : Means defs v w) (hw : Has w) :
    Means defs t w := by
  cases hm with
  | self => exact absurd hw (wraps_hasn't h)
  | ref hr hm =>
    obtain ⟨_, _, _, rfl, _⟩ := ref_shape hr
    obtain ⟨_, _, _, _, _, he, _⟩ := wraps_shape h
    cases he
  | wrapped hwr hm =>
    cases wraps_unique h hwr
    exact hm

theorem means_deref {defs : List Entry} {v u w : Value} (h : Deref defs v u) (hm : Means defs v w) (hw : Has w) :
    Means defs u w := by
  rcases h with ⟨e, he, rfl⟩ | ⟨_, rfl⟩
  · exact means_ref he hm hw
  · exact hm

/-- The code resolves names as the specification does, for a type with something declared in it. -/
theorem resolveRef_deref {defs : List Entry} {v w : Value} (hm : Means defs v w) (hw : Has w) :
    Deref defs v (resolveRef defs v) := by
  cases hm with
  | ref hr _ => exact .inl ⟨_, hr, resolveRef_ref hr⟩
  | wrapped hwr _ =>
    refine .inr ⟨fun e he => ?_, ?_⟩
    · obtain ⟨_, _, _, rfl, _⟩ := ref_shape he
      obtain ⟨_, _, _, _, _, he, _⟩ := wraps_shape hwr
      cases he
    · obtain ⟨_, _, _, _, _, rfl, _⟩ := wraps_shape hwr
      exact resolveRef_sequence rfl
  | self =>
    refine .inr ⟨fun e he => ref_hasn't he hw, ?_⟩
    rcases has_shape hw with ⟨_, hb⟩ | ⟨_, hb | hb⟩
    · exact resolveRef_object hb.2
    · exact resolveRef_sequence hb.2
    · exact resolveRef_sequence hb.2

/-! ### Objects and lists in wrappers -/

theorem opensTo_means {defs : List Entry} {v w : Value} {es : List Entry} (h : OpensTo defs v es)
    (hm : Means defs v w) (hw : Has w) : Braces w (chars! "object") es := by
  induction h with
  | object h => rw [means_object h hm]; exact h
  | named hr hb => rw [means_object hb (means_ref hr hm hw)]; exact hb
  | wrapped hwr _ _ ih => exact ih (means_wrapped hwr hm hw)

theorem listOf_means {defs : List Entry} {v w t : Value} (h : ListOf v t) (hm : Means defs v w) (hw : Has w) :
    Parens w (chars! "seq") [t] := by
  induction h with
  | seq h => rw [means_parens h (.inl rfl) hm]; exact h
  | wrapped hwr _ _ _ ih => exact ih (means_wrapped hwr hm hw)

theorem objectWithDefs_text {defs : List Entry} {x : Value} (h : x.tag = none ∧ x.asObject = none) (n : Nat) :
    objectWithDefs defs (n + 1) x = .done none := by
  rw [objectWithDefs_succ, resolveRef_untagged h.1]
  simp [openResolved, h.1, h.2]

theorem opensTo_settles {defs : List Entry} {v : Value} {es : List Entry} (h : OpensTo defs v es) :
    Settles (fun n => objectWithDefs defs n v) (.done (some es)) := by
  induction h with
  | object h =>
    refine settles_done (fun n => ?_) (nofun)
    rw [objectWithDefs_succ, resolveRef_object h.2]
    simp [openResolved, h.2]
  | named hr hb =>
    refine settles_done (fun n => ?_) (nofun)
    rw [objectWithDefs_succ, resolveRef_ref hr]
    simp [openResolved, hb.2]
  | @wrapped v t es hw ht _ ih =>
    obtain ⟨name, tsp, items, o, sp, rfl, hi, _⟩ := wraps_shape hw
    refine settles_succ (g := fun n => firstAnswer (objectWithDefs defs n) items) (fun n => ?_) ?_
    · rw [objectWithDefs_succ, resolveRef_sequence rfl]; rfl
    · have hlast : Settles (fun n => firstAnswer (objectWithDefs defs n) [t]) (.done (some es)) :=
        settles_bind ih (settles_const _)
      rcases hi with rfl | ⟨x, rfl⟩
      · exact hlast
      · exact settles_bind (settles_done (objectWithDefs_text (ht _ rfl x (by simp))) (nofun)) hlast

theorem seqElement_untagged {x : Value} (h : x.tag = none) : seqElement x = none := by
  obtain ⟨t, p, sp⟩ := x
  cases h
  simp [seqElement]

theorem seqElement_listOf {v t : Value} (h : ListOf v t) : seqElement v = some t := by
  induction h with
  | seq h =>
    obtain ⟨_, _, _, rfl⟩ := parens_shape h
    rw [seqElement]; simp
  | @wrapped v u t hw hn ht _ ih =>
    obtain ⟨name, tsp, items, o, sp, rfl, hi, hnm⟩ := wraps_shape hw
    rw [seqElement]
    have h1 : ¬ name = chars! "seq" := by rcases hnm with rfl | rfl | rfl <;> decide
    have h2 : name = chars! "optional" ∨ name = chars! "default" := by
      rcases hnm with h | h | h
      · exact .inl h
      · exact .inr h
      · exact absurd (by rw [h]; rfl) hn
    rw [if_neg h1, if_pos h2]
    rcases hi with rfl | ⟨x, rfl⟩
    · rw [seqElements, ih]
    · rw [seqElements, seqElement_untagged (ht _ rfl x (by simp)).1]
      simp only
      rw [seqElements, ih]

theorem seqElement_opensTo {defs : List Entry} {v : Value} {es : List Entry} (h : OpensTo defs v es) :
    seqElement v = none := by
  induction h with
  | object h =>
    obtain ⟨_, _, _, rfl⟩ := braces_shape h
    simp [seqElement]
  | named hr _ =>
    obtain ⟨_, _, _, rfl, _⟩ := ref_shape hr
    simp [seqElement]
  | @wrapped v t es hw ht _ ih =>
    obtain ⟨name, tsp, items, o, sp, rfl, hi, hnm⟩ := wraps_shape hw
    rw [seqElement]
    have h1 : ¬ name = chars! "seq" := by rcases hnm with rfl | rfl | rfl <;> decide
    rw [if_neg h1]
    split
    · rcases hi with rfl | ⟨x, rfl⟩
      · rw [seqElements, ih]
        simp only
        rw [seqElements]
      · rw [seqElements, seqElement_untagged (ht _ rfl x (by simp)).1]
        simp only
        rw [seqElements, ih]
        simp only
        rw [seqElements]
    · rfl

theorem seqElement_braces {v : Value} {name : List Char} {es : List Entry} (h : Braces v name es) :
    seqElement v = none := by
  obtain ⟨_, _, _, rfl⟩ := braces_shape h
  simp [seqElement]

theorem seqElement_map {v : Value} {items : List Value} (h : Parens v (chars! "map") items) : seqElement v = none := by
  obtain ⟨_, _, _, rfl⟩ := parens_shape h
  simp [seqElement]

theorem opensTo_others {defs : List Entry} {v : Value} {es : List Entry} (h : OpensTo defs v es)
    (hk : ∀ e ∈ es, ∃ s, e.key.asStr = some s) :
    mapValueType v = none ∧ anyKeyType v = none ∧ variantsOf v = none := by
  cases h with
  | object h =>
    obtain ⟨_, _, _, rfl⟩ := braces_shape h
    refine ⟨by simp [mapValueType, Value.tagName, Value.tag], ?_, by simp [variantsOf, Value.tagName, Value.tag]⟩
    simp only [anyKeyType, Value.asObject]
    split
    · split
      · rename_i e he
        obtain ⟨s, hs⟩ := hk e (by simp_all)
        have : e.key.tag = none := by
          generalize e.key = k at hs
          obtain ⟨t, p, sp⟩ := k
          cases t with
          | none => rfl
          | some t => simp [Value.asStr] at hs
        simp [this]
      · rfl
    · rfl
  | named hr _ =>
    obtain ⟨_, _, _, rfl, _⟩ := ref_shape hr
    refine ⟨?_, ?_, ?_⟩ <;> simp only [mapValueType, anyKeyType, variantsOf, Value.asSequence, Value.asObject] <;>
      split <;> rfl
  | wrapped hw _ _ =>
    obtain ⟨name, tsp, items, o, sp, rfl, hi, hnm⟩ := wraps_shape hw
    rcases hnm with rfl | rfl | rfl <;>
      simp [mapValueType, anyKeyType, variantsOf, Value.tagName, Value.tag]

theorem isUnit_of_asStr {k : Value} {s : List Char} (h : k.asStr = some s) : k.isUnit = false := by
  obtain ⟨t, p, sp⟩ := k
  rcases p with _ | _ | _ | _ <;> cases t <;> simp [Value.asStr, Value.isUnit, Value.tag, Value.payload] at h ⊢

theorem fieldIn_first (d : Value → List (List Char) → Outcome (Option FieldInfo)) {name : List Char}
    {rest : List (List Char)} {es : List Entry} {e : Entry} (h : FirstNamed es name e)
    (hk : ∀ e ∈ es, ∃ s, e.key.asStr = some s) : fieldIn d name rest es =
      if rest = [] then .done (some ⟨typeText e.value, e.doc⟩) else d e.value rest := by
  obtain ⟨a, b, rfl, h1, h2⟩ := h
  induction a with
  | nil => simp [fieldIn, h1]
  | cons x a ih =>
    obtain ⟨s, hs⟩ := hk x (by simp)
    rw [List.cons_append, fieldIn, if_neg (h2 x (by simp)), isUnit_of_asStr hs]
    simp only [Bool.false_eq_true, if_false]
    exact ih (fun e he => hk e (by simp_all)) fun y hy => h2 y (by simp [hy])

theorem toDigits_decimal (n : Nat) : Nat.toDigits 10 n = decimal n := by
  have hd : ∀ m, m < 10 → Nat.digitChar m = digit m := by decide
  fun_induction decimal n with
  | case1 n h => rw [Nat.toDigits_of_lt_base h, hd n h]
  | case2 n h ih =>
    rw [Nat.toDigits_of_base_le (by decide) (by omega), ih, hd _ (Nat.mod_lt _ (by decide))]

theorem parseUsize_digits (i : Nat) (h : i < 2 ^ 64) : (parseUsize (Nat.toDigits 10 i)).isSome = true := by
  rw [toDigits_decimal, parseUsize_decimal i (by simp only [usizeMax]; omega)]; rfl

/-! ### Following a path -/

theorem fieldInfo_cons {defs : List Entry} {n : Nat} {v : Value} {name : List Char} {rest : List (List Char)}
    (h : (parseUsize name).isSome = true → seqElement v = none) : fieldInfo defs (n + 1) v (name :: rest) =
      match mapValueType v with
      | some t => valueInfo (fieldInfo defs n) defs t rest
      | none =>
        match anyKeyType v with
        | some t => valueInfo (fieldInfo defs n) defs t rest
        | none =>
          match variantsOf v with
          | some es => firstAnswer (fun e => fieldInfo defs n (resolveRef defs e.value) (name :: rest)) es
          | none => (objectWithDefs defs n v).bind fun
            | some es => fieldIn (fieldInfo defs n) name rest es
            | none => .done none := by
  rw [fieldInfo]
  have : (if (parseUsize name).isSome = true then seqElement v else none) = none := by
    split
    · exact h (by assumption)
    · rfl
  rw [this]
  rfl

theorem fieldInfo_object {defs : List Entry} {v : Value} {name : List Char} {rest : List (List Char)}
    {es : List Entry} {e : Entry} {r : Outcome (Option FieldInfo)} (h : OpensTo defs v es)
    (hk : ∀ e ∈ es, ∃ s, e.key.asStr = some s) (he : FirstNamed es name e)
    (hr : Settles (fun n => if rest = [] then .done (some ⟨typeText e.value, e.doc⟩) else fieldInfo defs n e.value rest) r) :
    Settles (fun n => fieldInfo defs n v (name :: rest)) r := by
  obtain ⟨h1, h2, h3⟩ := opensTo_others h hk
  refine settles_succ (g := fun n => (objectWithDefs defs n v).bind fun
      | some es => fieldIn (fieldInfo defs n) name rest es
      | none => .done none) (fun n => ?_) ?_
  · rw [fieldInfo_cons (fun _ => seqElement_opensTo h), h1, h2, h3]
  · refine settles_bind (opensTo_settles h) ?_
    simp only [fieldIn_first _ he hk]
    exact hr

theorem fieldInfo_value {defs : List Entry} {v : Value} {name : List Char} {rest : List (List Char)} {t : Value}
    {r : Outcome (Option FieldInfo)} (h : MapOf v t ∨ AnyNames v t)
    (hr : Settles (fun n => if rest = [] then .done (some ⟨typeText t, none⟩) else
      fieldInfo defs n (resolveRef defs t) rest) r) :
    Settles (fun n => fieldInfo defs n v (name :: rest)) r := by
  refine settles_succ (fun n => ?_) hr
  have hval : ∀ x, (if rest = [] then Outcome.done (some ⟨typeText x, none⟩) else
      fieldInfo defs n (resolveRef defs x) rest) = valueInfo (fieldInfo defs n) defs x rest := fun x => rfl
  rw [hval]
  rcases h with h | ⟨e, hb, ha, rfl⟩
  · have hs : seqElement v = none := by
      rcases h with h | ⟨k, h⟩ <;> exact seqElement_map h
    have hm : mapValueType v = some t := by
      rcases h with h | ⟨k, h⟩ <;> simp [mapValueType, h.1, h.2]
    rw [fieldInfo_cons (fun _ => hs), hm]
  · have hm : mapValueType v = none := by simp [mapValueType, hb.1]
    have hany : anyKeyType v = some e.value := by
      simp [anyKeyType, hb.1, hb.2, Option.isSome_iff_ne_none, ha.1, ha.2]
    rw [fieldInfo_cons (fun _ => seqElement_braces hb), hm, hany]

theorem fieldInfo_item {defs : List Entry} {v : Value} {i : Nat} {rest : List (List Char)} {t : Value}
    {r : Outcome (Option FieldInfo)} (h : ListOf v t) (hi : i < 2 ^ 64)
    (hr : Settles (fun n => fieldInfo defs n (resolveRef defs t) rest) r) :
    Settles (fun n => fieldInfo defs n v (Nat.toDigits 10 i :: rest)) r := by
  refine settles_succ (fun n => ?_) hr
  rw [fieldInfo, if_pos (parseUsize_digits i hi), seqElement_listOf h]

theorem declares_cons {defs : List Entry} {v t : Value} {path : List (List Char)} {e : Option Entry}
    (h : GivesType defs v path t e) : path ≠ [] := by
  cases h <;> simp

theorem declares_has {defs : List Entry} {v t : Value} {path : List (List Char)} {e : Option Entry}
    (h : GivesType defs v path t e) : ∃ w, Means defs v w ∧ Has w := by
  cases h with
  | last h1 h2 => exact ⟨_, h1, .inl ⟨_, _, _, h2⟩⟩
  | inside h1 h2 _ => exact ⟨_, h1, .inl ⟨_, _, _, h2⟩⟩
  | item _ h1 h2 _ => exact ⟨_, h1, .inr ⟨_, h2⟩⟩

/-- What a type that can be followed says of a key, and how hover gets it. -/
theorem member_follow {defs : List Entry} {root v w t : Value} {name : List Char} {o : Option Entry}
    {path : List (List Char)} {t' : Value} {o' : Option Entry} (hf : Followable defs v) (hv : Met defs root v)
    (hm : Means defs v w) (hw : Member w name t o) (hd : GivesType defs v path t' o') :
    (∃ es e, OpensTo defs v es ∧ (∀ e ∈ es, ∃ s, e.key.asStr = some s) ∧ FirstNamed es name e ∧ t = e.value ∧
      o = some e ∧ Met defs root t) ∨
    ((MapOf v t ∨ AnyNames v t) ∧ o = none ∧ ∀ u, Deref defs t u → Met defs root u) := by
  have hh : Has w := .inl ⟨_, _, _, hw⟩
  cases hf with
  | @fields es h hk =>
    have hb := opensTo_means h hm hh
    cases hw with
    | field hb' he =>
      have := hb'.2.symm.trans hb.2
      cases this
      exact .inl ⟨es, _, h, hk, he, rfl, rfl, .field hv h (firstNamed_mem he)⟩
    | other hb' _ he ha =>
      have := hb'.2.symm.trans hb.2
      cases this
      obtain ⟨s, hs⟩ := hk _ he
      obtain ⟨h1, h2⟩ := ha
      rename_i e _
      generalize e.key = k at hs h1 h2
      obtain ⟨kt, p, sp⟩ := k
      cases h2
      cases kt <;> simp [Value.asStr] at hs
    | value hp => obtain ⟨_, _, _, rfl⟩ := braces_shape hb; obtain ⟨_, _, _, he⟩ := parens_shape hp; cases he
    | value2 hp => obtain ⟨_, _, _, rfl⟩ := braces_shape hb; obtain ⟨_, _, _, he⟩ := parens_shape hp; cases he
  | list h =>
    have hp := listOf_means h hm hh
    obtain ⟨_, _, _, rfl⟩ := parens_shape hp
    cases hw with
    | field hb _ => obtain ⟨_, _, _, he⟩ := braces_shape hb; cases he
    | other hb _ _ _ => obtain ⟨_, _, _, he⟩ := braces_shape hb; cases he
    | value hp => obtain ⟨_, _, _, he⟩ := parens_shape hp; cases he
    | value2 hp => obtain ⟨_, _, _, he⟩ := parens_shape hp; cases he
  | @other t0 h =>
    have h' := h
    obtain ⟨e, hb, ha, rfl⟩ := h'
    have hwv := means_object hb hm
    subst hwv
    cases hw with
    | @field es' e' hb' he =>
      have := hb'.2.symm.trans hb.2
      cases this
      have hmem := firstNamed_mem he
      simp only [List.mem_singleton] at hmem
      subst hmem
      obtain ⟨_, _, _, hk, _⟩ := he
      obtain ⟨h1, h2⟩ := ha
      generalize e'.key = k at hk h1 h2
      obtain ⟨kt, p, sp⟩ := k
      cases h2
      cases kt <;> simp [Value.asStr] at hk
    | other hb' _ he _ =>
      have := hb'.2.symm.trans hb.2
      cases this
      simp only [List.mem_singleton] at he
      subst he
      exact .inr ⟨.inr h, rfl, fun u hu => .other hv h hu⟩
    | value hp => obtain ⟨_, _, _, rfl⟩ := braces_shape hb; obtain ⟨_, _, _, he⟩ := parens_shape hp; cases he
    | value2 hp => obtain ⟨_, _, _, rfl⟩ := braces_shape hb; obtain ⟨_, _, _, he⟩ := parens_shape hp; cases he
  | @map t0 h =>
    have hwv : w = v := by
      rcases h with h | ⟨k, h⟩ <;> exact means_parens h (.inr rfl) hm
    subst hwv
    have ht : t = t0 ∧ o = none := by
      cases hw with
      | field hb _ =>
        obtain ⟨_, _, _, rfl⟩ := braces_shape hb
        rcases h with h | ⟨k, h⟩ <;> obtain ⟨_, _, _, he⟩ := parens_shape h <;> cases he
      | other hb _ _ _ =>
        obtain ⟨_, _, _, rfl⟩ := braces_shape hb
        rcases h with h | ⟨k, h⟩ <;> obtain ⟨_, _, _, he⟩ := parens_shape h <;> cases he
      | value hp =>
        rcases h with h | ⟨k, h⟩ <;> have := hp.2.symm.trans h.2 <;> cases this
        exact ⟨rfl, rfl⟩
      | value2 hp =>
        rcases h with h | ⟨k, h⟩ <;> have := hp.2.symm.trans h.2 <;> cases this
        exact ⟨rfl, rfl⟩
    obtain ⟨rfl, rfl⟩ := ht
    exact .inr ⟨.inl h, rfl, fun u hu => .value hv h hu⟩
  | closed h => exact absurd hd (h _ _ _)

theorem item_follow {defs : List Entry} {v w t : Value} {path : List (List Char)} {t' : Value} {o' : Option Entry}
    (hf : Followable defs v) (hm : Means defs v w) (hw : Parens w (chars! "seq") [t])
    (hd : GivesType defs v path t' o') : ListOf v t := by
  have hh : Has w := .inr ⟨_, hw⟩
  cases hf with
  | fields h hk =>
    have hb := opensTo_means h hm hh
    obtain ⟨_, _, _, rfl⟩ := braces_shape hb
    obtain ⟨_, _, _, he⟩ := parens_shape hw
    cases he
  | list h =>
    have hp := listOf_means h hm hh
    have := hp.2.symm.trans hw.2
    cases this
    exact h
  | other h =>
    obtain ⟨e, hb, ha, rfl⟩ := h
    have := means_object hb hm
    subst this
    obtain ⟨_, _, _, rfl⟩ := braces_shape hb
    obtain ⟨_, _, _, he⟩ := parens_shape hw
    cases he
  | map h =>
    have hwv : w = v := by
      rcases h with h | ⟨k, h⟩ <;> exact means_parens h (.inr rfl) hm
    subst hwv
    obtain ⟨_, _, _, rfl⟩ := parens_shape hw
    rcases h with h | ⟨k, h⟩ <;> obtain ⟨_, _, _, he⟩ := parens_shape h <;> cases he
  | closed h => exact absurd hd (h _ _ _)

/-- Hover shows what is declared, for every path, when every type on the way can be followed. -/
theorem fieldInfo_follow {defs : List Entry} {root : Value} (hs : ∀ v, Met defs root v → Followable defs v)
    {v : Value} {path : List (List Char)} {t : Value} {o : Option Entry} (h : GivesType defs v path t o) :
    ∀ u, u = v ∨ Deref defs v u → Met defs root u →
      Settles (fun n => fieldInfo defs n u path) (.done (some ⟨typeText t, o.bind Entry.doc⟩)) := by
  have toU : ∀ {v u w : Value}, u = v ∨ Deref defs v u → Means defs v w → Has w → Means defs u w := by
    intro v u w hu hm hh
    rcases hu with rfl | hu
    · exact hm
    · exact means_deref hu hm hh
  induction h with
  | @last v w name t o hm hw =>
    intro u hu hmet
    have hm' := toU hu hm (.inl ⟨_, _, _, hw⟩)
    rcases member_follow (hs u hmet) hmet hm' hw (.last hm' hw) with ⟨es, e, h1, h2, h3, rfl, rfl, _⟩ | ⟨h1, rfl, _⟩
    · exact fieldInfo_object h1 h2 h3 (settles_const _)
    · exact fieldInfo_value h1 (settles_const _)
  | @inside v w name x o' rest t o hm hw hd ih =>
    intro u hu hmet
    have hm' := toU hu hm (.inl ⟨_, _, _, hw⟩)
    have hne := declares_cons hd
    rcases member_follow (hs u hmet) hmet hm' hw (.inside hm' hw hd) with
      ⟨es, e, h1, h2, h3, rfl, rfl, h4⟩ | ⟨h1, rfl, h4⟩
    · exact fieldInfo_object h1 h2 h3 (by simp only [if_neg hne]; exact ih _ (.inl rfl) h4)
    · obtain ⟨w', g1, g2⟩ := declares_has hd
      have hdr := resolveRef_deref g1 g2
      exact fieldInfo_value h1 (by simp only [if_neg hne]; exact ih _ (.inr hdr) (h4 _ hdr))
  | @item v w i x rest t o hi hm hw hd ih =>
    intro u hu hmet
    have hm' := toU hu hm (.inr ⟨_, hw⟩)
    have hl := item_follow (hs u hmet) hm' hw (.item hi hm' hw hd)
    obtain ⟨w', g1, g2⟩ := declares_has hd
    have hdr := resolveRef_deref g1 g2
    exact fieldInfo_item hl hi (ih _ (.inr hdr) (.item hmet hl hdr))

end Styx.Lsp
