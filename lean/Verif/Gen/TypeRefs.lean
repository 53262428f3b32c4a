import Verif.Gen.TypeQueue

/-!
# The types a generated definition refers to
-/

namespace Styx.TypeGen

open Schema
open Spec

variable {F : Type} {sf : SchemaFile F} {prog : Program} {root : Nat}

/-- A name a shape leads to: that of a type it contains that gets a definition, the name of an opaque
type, or `Schema`. -/
def RefOf (prog : Program) (s : Shape) (n : List Char) : Prop :=
  (∃ j ∈ shapeTypes prog s, nameOf prog j = some n) ∨ (∃ b, Contains (.opaque b n) s) ∨
    n = chars! "Schema" ∧ ∃ j d, Contains (.user j) s ∧ prog[j]? = some d ∧ d.isSchema = true

theorem shape_refers {s : Shape} {n} (h : RefersTo (F := F) n (shapeSchema prog s)) :
    RefOf prog s n := by
  have lift : ∀ {s t : Shape}, (∀ j ∈ shapeTypes prog s, j ∈ shapeTypes prog t) →
      (∀ u, Contains u s → Contains u t) → RefOf prog s n → RefOf prog t n := by
    rintro s t h1 h2 (⟨j, hj, he⟩ | ⟨b, hb⟩ | ⟨rfl, j, d, hc, hd⟩)
    · exact Or.inl ⟨j, h1 j hj, he⟩
    · exact Or.inr (Or.inl ⟨b, h2 _ hb⟩)
    · exact Or.inr (Or.inr ⟨rfl, j, d, h2 _ hc, hd⟩)
  induction s with
  | «opaque» b name =>
    simp only [shapeSchema, opaqueSchema] at h
    generalize (if b = true then scalarTexts else opaqueTexts).contains name = c at h
    cases c
    · cases h; exact Or.inr (Or.inl ⟨b, .here⟩)
    · cases h
  | option t ih =>
    simp only [shapeSchema] at h
    cases h with | optional h => exact lift (s := t) (fun _ h => h) (fun _ => .option) (ih h)
  | list t ih =>
    simp only [shapeSchema] at h
    cases h with | seq h => exact lift (s := t) (fun _ h => h) (fun _ => .list) (ih h)
  | map k v ih1 ih2 =>
    simp only [shapeSchema] at h
    cases h with
    | map hm h =>
      simp only [List.mem_cons, List.not_mem_nil, or_false] at hm
      rcases hm with rfl | rfl
      · exact lift (fun _ h => List.mem_append_left _ h) (fun _ => .key) (ih1 h)
      · exact lift (fun _ h => List.mem_append_right _ h) (fun _ => .value) (ih2 h)
  | result t e ih1 ih2 =>
    simp only [shapeSchema] at h
    cases h with
    | enum hm h =>
      simp only [List.mem_cons, List.not_mem_nil, or_false, Prod.mk.injEq] at hm
      rcases hm with ⟨_, rfl⟩ | ⟨_, rfl⟩
      · exact lift (fun _ h => List.mem_append_left _ h) (fun _ => .ok) (ih1 h)
      · exact lift (fun _ h => List.mem_append_right _ h) (fun _ => .err) (ih2 h)
  | pointer t ih => exact lift (s := t) (fun _ h => h) (fun _ => .pointer) (ih h)
  | documented t ih => exact lift (s := t) (fun _ h => h) (fun _ => .documented) (ih h)
  | user i =>
    simp only [shapeSchema, userSchema] at h
    split at h
    · next d hd =>
      split at h
      · next hs => cases h; exact Or.inr (Or.inr ⟨rfl, i, d, .here, hd, hs⟩)
      · next hs =>
        cases h
        exact Or.inl ⟨i, by simp [shapeTypes, hd, hs], by simp [nameOf, hd]⟩
    · cases h
  | _ => simp only [shapeSchema] at h; cases h

theorem putField_refers {n} {acc : List (ObjectKey × Schema F)} {f : Field} {x}
    (hx : x ∈ putField prog acc f) (hr : RefersTo n x.2) :
    x ∈ acc ∨ RefersTo (F := F) n (shapeSchema prog f.shape) := by
  rw [putField] at hx
  split at hx
  · unfold putFlattened at hx
    split at hx
    · next v he =>
      rcases mem_put hx with rfl | hx
      · exact Or.inr (he ▸ .map (by simp) hr)
      · exact Or.inl hx
    · next k v rest he =>
      rcases mem_put hx with rfl | hx
      · exact Or.inr (he ▸ .map (by simp) hr)
      · exact Or.inl hx
    · next inner he =>
      have : ∀ (l : List (ObjectKey × Schema F)) (acc : List (ObjectKey × Schema F)),
          x ∈ l.foldl (fun fs f => put f.1 f.2 fs) acc → x ∈ acc ∨ x ∈ l := by
        intro l
        induction l with
        | nil => exact fun acc h => Or.inl h
        | cons y l ih =>
          intro acc h
          rcases ih _ h with h | h
          · rcases mem_put h with rfl | h
            · exact Or.inr (by simp)
            · exact Or.inl h
          · exact Or.inr (by simp [h])
      rcases this _ _ hx with h | h
      · exact Or.inl h
      · exact Or.inr (he ▸ .object (key := x.1) h hr)
    · rcases mem_put hx with rfl | hx
      · exact Or.inr hr
      · exact Or.inl hx
  · rcases mem_put hx with rfl | hx
    · right
      simp only at hr
      split at hr
      · cases hr with | default h => exact h
      · exact hr
    · exact Or.inl hx

theorem struct_refers {kind fs n} (h : RefersTo (F := F) n (structSchema prog kind fs)) :
    kind ≠ .unit ∧ ∃ f ∈ fs, RefersTo (F := F) n (shapeSchema prog f.shape) := by
  cases kind with
  | unit => cases h
  | tuple =>
    refine ⟨by simp, ?_⟩
    match fs, h with
    | [], h => cases h with | tuple hm _ => cases hm
    | [f], h => exact ⟨f, by simp, h⟩
    | f :: g :: fs, h =>
      cases h with
      | tuple hm h =>
        obtain ⟨x, hx, rfl⟩ := List.mem_map.mp hm
        exact ⟨x, hx, h⟩
  | struct =>
    refine ⟨by simp, ?_⟩
    cases h with
    | object hm hr =>
      have : ∀ (l : List Field) (acc : List (ObjectKey × Schema F)) (x : ObjectKey × Schema F),
          x ∈ l.foldl (putField prog) acc → RefersTo n x.2 →
          x ∈ acc ∨ ∃ f ∈ l, RefersTo (F := F) n (shapeSchema prog f.shape) := by
        intro l
        induction l with
        | nil => exact fun acc x h _ => Or.inl h
        | cons y l ih =>
          intro acc x h hr
          rcases ih _ _ h hr with h | ⟨f, hf, h⟩
          · rcases putField_refers h hr with h | h
            · exact Or.inl h
            · exact Or.inr ⟨y, by simp, h⟩
          · exact Or.inr ⟨f, by simp [hf], h⟩
      rcases this _ _ _ hm hr with h | h
      · cases h
      · exact h

theorem body_refers {d : TypeDef} {n} (h : RefersTo (F := F) n (bodySchema prog d.body)) :
    (∃ j ∈ bodyTypes prog d.body, nameOf prog j = some n) ∨ (∃ b, Mentions d (.opaque b n)) ∨
      n = chars! "Schema" ∧ ∃ j d', Mentions d (.user j) ∧ prog[j]? = some d' ∧ d'.isSchema = true := by
  have data : ∀ {kind fs}, DataOf d.body kind fs →
      (∀ j ∈ dataTypes prog kind fs, j ∈ bodyTypes prog d.body) →
      RefersTo (F := F) n (structSchema prog kind fs) →
      (∃ j ∈ bodyTypes prog d.body, nameOf prog j = some n) ∨ (∃ b, Mentions d (.opaque b n)) ∨
        n = chars! "Schema" ∧ ∃ j d', Mentions d (.user j) ∧ prog[j]? = some d' ∧ d'.isSchema = true := by
    intro kind fs hd ht h
    obtain ⟨hk, f, hf, h⟩ := struct_refers h
    rcases shape_refers h with ⟨j, hj, he⟩ | ⟨b, hb⟩ | ⟨rfl, j, d', hc, h1, h2⟩
    · exact Or.inl ⟨j, ht j (field_types hk hf hj), he⟩
    · exact Or.inr (Or.inl ⟨b, kind, fs, f, hd, hk, hf, hb⟩)
    · exact Or.inr (Or.inr ⟨rfl, j, d', ⟨kind, fs, f, hd, hk, hf, hc⟩, h1, h2⟩)
  cases hb : d.body with
  | struct kind fs =>
    rw [hb] at h
    rw [← hb]
    exact data (by rw [hb]; exact .struct ..) (by rw [hb]; exact fun j hj => hj) h
  | enum vs =>
    rw [hb] at h
    simp only [bodySchema, enumSchema] at h
    split at h
    · cases h
    · next ho =>
      cases h with
      | enum hm hr =>
        rename_i key s
        have : ∀ (l : List Variant) (acc : List (List Char × Schema F)) (x : List Char × Schema F),
            x ∈ l.foldl (fun vs v => put v.name (variantSchema prog v) vs) acc →
            x ∈ acc ∨ ∃ w ∈ l, x.2 = variantSchema prog w := by
          intro l
          induction l with
          | nil => exact fun acc x h => Or.inl h
          | cons y l ih =>
            intro acc x h
            rcases ih _ _ h with h | ⟨f, hf, h⟩
            · rcases mem_put h with rfl | h
              · exact Or.inr ⟨y, by simp, rfl⟩
              · exact Or.inl h
            · exact Or.inr ⟨f, by simp [hf], h⟩
        rcases this _ _ _ hm with h | ⟨w, hw, he⟩
        · cases h
        · simp only at he
          rw [he, variantSchema_eq] at hr
          have hdo : DataOf d.body w.kind w.fields := by rw [hb]; exact .variant hw
          rw [← hb]
          refine data hdo (fun j hj => dataOf_types hdo ?_ j hj) hr
          intro vs' hvs x hx
          rw [hb] at hvs
          cases hvs
          rw [Bool.not_eq_true, List.any_eq_false] at ho
          simpa using ho x hx

end Styx.TypeGen
