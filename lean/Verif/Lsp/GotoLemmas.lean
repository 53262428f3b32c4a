import Verif.Lsp.Hover
import Verif.Lsp.HoverSpec
import Verif.Lsp.HoverLemmas

/-!
# Lemmas: go to definition and references
-/

namespace Styx.Lsp

open Styx Styx.Spec

theorem keyRange_some {content name : List Char} {k : Value} {r : LspRange} (h : keyRange content name k = some r) :
    k.asStr = some name ∧ ∃ sp, k.span = some sp ∧ r = rangeOf content sp := by
  simp only [keyRange] at h
  split at h
  · rename_i hk
    simp only [Option.map_eq_some_iff] at h
    obtain ⟨sp, h1, rfl⟩ := h
    exact ⟨hk, sp, h1, rfl⟩
  · cases h

theorem keyRange_key {content name : List Char} {k : Value} {sp : Span} (h : k.asStr = some name)
    (hs : k.span = some sp) : keyRange content name k = some (rangeOf content sp) := by
  simp [keyRange, h, hs]

/-- The range is that of a key with the name. -/
def RangeOfKey (content name : List Char) (r : LspRange) (k : Value) : Prop :=
  k.asStr = some name ∧ ∃ sp, k.span = some sp ∧ r = rangeOf content sp

/-- A key of one of the entries, or within the value of one. -/
def KeyAmong (k : Value) (es : List Entry) : Prop := ∃ k' v d, Entry.mk k' v d ∈ es ∧ (k = k' ∨ KeyWithin k v)

theorem keyAmong_within {k : Value} {es : List Entry} (h : KeyAmong k es) (t : Option Tag) (o sp : Option Span) :
    KeyWithin k (.mk t (some (.object es o)) sp) := by
  obtain ⟨k', v, d, h1, rfl | h2⟩ := h
  · exact .here h1
  · exact .deeper h1 h2

theorem keyWithin_among {k : Value} {t : Option Tag} {es : List Entry} {o sp : Option Span}
    (h : KeyWithin k (.mk t (some (.object es o)) sp)) : KeyAmong k es := by
  cases h with
  | here h => exact ⟨_, _, _, h, .inl rfl⟩
  | deeper h h' => exact ⟨_, _, _, h, .inr h'⟩

theorem KeyAmong.cons {k : Value} {e : Entry} {es : List Entry} (h : KeyAmong k es) : KeyAmong k (e :: es) := by
  obtain ⟨k', v, d, h1, h2⟩ := h
  exact ⟨k', v, d, List.mem_cons_of_mem _ h1, h2⟩

mutual
theorem findInObject_sound (content name : List Char) (r : LspRange) : ∀ v : Value,
    findInObject content name v = some r → ∃ k, KeyWithin k v ∧ RangeOfKey content name r k
  | .mk t none sp, h => by simp [findInObject] at h
  | .mk t (some (.scalar _ _ _)) sp, h => by simp [findInObject] at h
  | .mk t (some (.sequence _ _)) sp, h => by simp [findInObject] at h
  | .mk t (some (.object es o)) sp, h => by
    rw [findInObject] at h
    obtain ⟨k, h1, h2⟩ := findInEntries_sound content name r es h
    exact ⟨k, keyAmong_within h1 t o sp, h2⟩
theorem findInEntries_sound (content name : List Char) (r : LspRange) : ∀ es : List Entry,
    findInEntries content name es = some r → ∃ k, KeyAmong k es ∧ RangeOfKey content name r k
  | [], h => by simp [findInEntries] at h
  | .mk k v d :: es, h => by
    rw [findInEntries] at h
    split at h
    · rename_i r' hk
      cases h
      exact ⟨k, ⟨k, v, d, List.mem_cons_self .., .inl rfl⟩, keyRange_some hk⟩
    · have inV : findInObject content name v = some r →
          ∃ k', KeyAmong k' (.mk k v d :: es) ∧ RangeOfKey content name r k' := fun hv => by
        obtain ⟨k', h1, h2⟩ := findInObject_sound content name r v hv
        exact ⟨k', ⟨k, v, d, List.mem_cons_self .., .inr h1⟩, h2⟩
      split at h
      · rename_i r' hu
        cases h
        split at hu
        · exact inV hu
        · cases hu
      · split at h
        · rename_i r' hv
          cases h
          exact inV hv
        · obtain ⟨k', h1, h2⟩ := findInEntries_sound content name r es h
          exact ⟨k', h1.cons, h2⟩
end

mutual
theorem findInObject_complete (content name : List Char) {k : Value} {sp : Span} (hk : k.asStr = some name)
    (hs : k.span = some sp) : ∀ v : Value, KeyWithin k v → ∃ r, findInObject content name v = some r
  | .mk t none _, h => by cases h
  | .mk t (some (.scalar _ _ _)) _, h => by cases h
  | .mk t (some (.sequence _ _)) _, h => by cases h
  | .mk t (some (.object es o)) _, h => by
    rw [findInObject]
    exact findInEntries_complete content name hk hs es (keyWithin_among h)
theorem findInEntries_complete (content name : List Char) {k : Value} {sp : Span} (hk : k.asStr = some name)
    (hs : k.span = some sp) : ∀ es : List Entry, KeyAmong k es → ∃ r, findInEntries content name es = some r
  | [], h => by obtain ⟨_, _, _, h, _⟩ := h; simp at h
  | .mk k' v d :: es, h => by
    rw [findInEntries]
    split
    · exact ⟨_, rfl⟩
    · rename_i hn
      split
      · exact ⟨_, rfl⟩
      · split
        · exact ⟨_, rfl⟩
        · rename_i hv
          obtain ⟨k'', v', d', hm, hor⟩ := h
          rcases List.mem_cons.mp hm with he | hm
          · cases he
            rcases hor with rfl | hw
            · rw [keyRange_key hk hs] at hn; cases hn
            · obtain ⟨r, hr⟩ := findInObject_complete content name hk hs v hw
              rw [hr] at hv; cases hv
          · exact findInEntries_complete content name hk hs es ⟨k'', v', d', hm, hor⟩
end

theorem asObject_shape {v : Value} {es : List Entry} (h : v.asObject = some es) :
    ∃ t o sp, v = .mk t (some (.object es o)) sp := by
  obtain ⟨t, p, sp⟩ := v
  rcases p with _ | _ | _ | ⟨es', o⟩ <;> simp [Value.asObject] at h
  exact ⟨t, o, sp, by rw [h]⟩

theorem findInSchema_eq {content name : List Char} {tree block : Value} (h : BlockOf tree block) :
    findInSchema content name tree = findInBlock content name block := by
  obtain ⟨es, e, h1, h2, rfl⟩ := h
  simp [findInSchema, h1, firstNamed_get h2]

theorem findInSchema_some {content name : List Char} {tree : Value} {r : LspRange}
    (h : findInSchema content name tree = some r) : ∃ block, BlockOf tree block ∧ findInBlock content name block = some r := by
  simp only [findInSchema, Option.bind_eq_some_iff] at h
  obtain ⟨block, ⟨es, h1, h2⟩, h3⟩ := h
  obtain ⟨e, h4, rfl⟩ := objGet_firstNamed h2
  exact ⟨e.value, ⟨es, e, h1, h4, rfl⟩, h3⟩

theorem KeyWithin.up {k v : Value} {es : List Entry} {e : Entry} (h : v.asObject = some es) (he : e ∈ es)
    (hk : KeyWithin k e.value) : KeyWithin k v := by
  obtain ⟨t, o, sp, rfl⟩ := asObject_shape h
  obtain ⟨k', v', d⟩ := e
  exact .deeper he hk

theorem findInBlock_sound {content name : List Char} {block : Value} {r : LspRange}
    (h : findInBlock content name block = some r) : ∃ k, KeyWithin k block ∧ RangeOfKey content name r k := by
  simp only [findInBlock] at h
  split at h
  · rename_i root hroot
    simp only [Option.bind_eq_some_iff, objGetUnit, Option.map_eq_some_iff] at hroot
    obtain ⟨es, h1, e, h2, rfl⟩ := hroot
    have he := List.mem_of_find?_eq_some h2
    split at h
    · rename_i inner hin
      split at h
      · rename_i e' he'
        obtain ⟨k, g1, g2⟩ := findInObject_sound content name r _ h
        exact ⟨k, KeyWithin.up h1 he (KeyWithin.up hin (List.mem_of_find?_eq_some he') g1), g2⟩
      · exact findInObject_sound content name r _ h
    · split at h
      · obtain ⟨k, g1, g2⟩ := findInObject_sound content name r _ h
        exact ⟨k, KeyWithin.up h1 he g1, g2⟩
      · exact findInObject_sound content name r _ h
  · exact findInObject_sound content name r _ h

theorem findInBlock_plain {content name : List Char} {block : Value} (h : PlainRoot block) :
    findInBlock content name block = findInObject content name block := by
  simp only [findInBlock]
  split
  · rename_i root hroot
    simp only [Option.bind_eq_some_iff, objGetUnit, Option.map_eq_some_iff] at hroot
    obtain ⟨es, h1, e, h2, rfl⟩ := hroot
    have he := List.mem_of_find?_eq_some h2
    have hu : e.key.isUnit = true := by simpa using List.find?_some h2
    rcases h es e h1 he hu with ⟨inner, g1, g2⟩ | ⟨g1, g2⟩
    · rw [g1]
      have : inner.find? (fun e => e.key.tagName == some (chars! "object")) = none := by
        rw [List.find?_eq_none]
        intro x hx
        simpa using g2 x hx
      simp only [this]
    · rw [g1]
      simp only [if_neg g2]
  · rfl

theorem findInDoc_sound {content name : List Char} {tree : Value} {r : LspRange}
    (h : findInDoc content name tree = some r) :
    ∃ es e, tree.asObject = some es ∧ e ∈ es ∧ RangeOfKey content name r e.key := by
  simp only [findInDoc, Option.bind_eq_some_iff, List.findSome?_eq_some_iff] at h
  obtain ⟨es, h1, a, e, b, rfl, h2, h3⟩ := h
  exact ⟨_, e, h1, by simp, keyRange_some h2⟩

theorem findInDoc_complete {content name : List Char} {tree : Value} {es : List Entry} {e : Entry} {sp : Span}
    (h : tree.asObject = some es) (he : e ∈ es) (hk : e.key.asStr = some name) (hs : e.key.span = some sp) :
    ∃ r, findInDoc content name tree = some r := by
  cases hr : findInDoc content name tree with
  | some r => exact ⟨r, rfl⟩
  | none =>
    simp only [findInDoc, h, Option.bind_some, List.findSome?_eq_none_iff] at hr
    have := hr e he
    rw [keyRange_key hk hs] at this
    cases this

end Styx.Lsp
