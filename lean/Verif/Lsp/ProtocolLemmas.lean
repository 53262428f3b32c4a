import Verif.Json.Lemmas
import Verif.Lsp.Lemmas
import Verif.Lsp.Protocol
import Verif.Lsp.ProtocolSpec

/-! # Lemmas: the data of a diagnostic on its way to the editor and back -/

namespace Styx.Lsp.Protocol

open Styx Styx.Json

theorem insert_perm {F : Type} (name : List Char) (j : Json F) : ∀ (ms : List (Member F)),
    name ∉ ms.map Member.name → (Json.insert name j ms).Perm (.mk name j :: ms)
  | [], _ => by simp [Json.insert]
  | .mk n w :: ms, h => by
    have h1 : n ≠ name := by rintro rfl; exact h (by simp [Member.name])
    have h2 : name ∉ ms.map Member.name := fun hm => h (List.mem_cons_of_mem _ hm)
    rw [Json.insert, if_neg h1]
    exact ((insert_perm name j ms h2).cons _).trans (List.Perm.swap _ _ _)

theorem insertSorted_perm {F : Type} (name : List Char) (j : Json F) : ∀ (ms : List (Member F)),
    name ∉ ms.map Member.name → (insertSorted name j ms).Perm (.mk name j :: ms)
  | [], _ => by simp [insertSorted]
  | .mk n w :: ms, h => by
    have h1 : n ≠ name := by rintro rfl; exact h (by simp [Member.name])
    have h2 : name ∉ ms.map Member.name := fun hm => h (List.mem_cons_of_mem _ hm)
    rw [insertSorted, if_neg h1]
    split
    · exact .refl _
    · exact ((insertSorted_perm name j ms h2).cons _).trans (List.Perm.swap _ _ _)

theorem insertMember_perm (L : Lib) (name : List Char) (j : Json L.F) (ms : List (Member L.F))
    (h : name ∉ ms.map Member.name) : (insertMember L name j ms).Perm (.mk name j :: ms) := by
  unfold insertMember
  split
  · exact insertSorted_perm name j ms h
  · exact insert_perm name j ms h

/-- The names of a map: sorted, or at least all different. -/
def Orderly (L : Lib) (ms : List (Member L.F)) : Prop :=
  if L.sorted then (ms.map Member.name).Pairwise fun a b => before a b = true else (ms.map Member.name).Nodup

theorem Orderly.nodup {L : Lib} {ms : List (Member L.F)} (h : Orderly L ms) : (ms.map Member.name).Nodup := by
  unfold Orderly at h
  split at h
  · refine List.Pairwise.imp ?_ h
    rintro a b hab rfl
    rw [before_irrefl] at hab
    cases hab
  · exact h

theorem orderly_insertMember {L : Lib} {ms : List (Member L.F)} (h : Orderly L ms) (name : List Char)
    (j : Json L.F) : Orderly L (insertMember L name j ms) := by
  unfold Orderly insertMember at *
  split
  · rename_i hs
    rw [if_pos hs] at h
    exact sorted_insert _ _ h
  · rename_i hs
    rw [if_neg hs] at h
    exact nodup_insert _ _ h

theorem orderly_toMembers {L : Lib} : ∀ (es : List Entry) {ms : List (Member L.F)}, Orderly L ms →
    Orderly L (toMembers L ms es)
  | [], _, h => by rw [toMembers]; exact h
  | .mk k v d :: es, ms, h => by
    rw [toMembers]
    split
    · exact orderly_toMembers es (orderly_insertMember h _ _)
    · exact orderly_toMembers es h

/-- The member for an entry. -/
def memberOf (L : Lib) : Entry → Option (Member L.F)
  | .mk k v _ => k.asStr.map fun name => .mk name (toJson L v)

/-- The entry for a member. -/
def entryOf (L : Lib) : Member L.F → Entry
  | .mk name j => .mk (bareValue name) (ofJson L j) none

theorem ofMembers_map (L : Lib) : ∀ (ms : List (Member L.F)), ofMembers L ms = ms.map (entryOf L)
  | [] => by rw [ofMembers]; rfl
  | .mk n j :: ms => by rw [ofMembers, ofMembers_map L ms]; rfl

theorem toMembers_perm (L : Lib) : ∀ (es : List Entry) (ms : List (Member L.F)),
    (∀ e ∈ es, ∃ name, e.key.asStr = some name) → (es.map fun e => e.key.asStr).Nodup →
    (∀ e ∈ es, ∀ name ∈ ms.map Member.name, e.key.asStr ≠ some name) →
    (toMembers L ms es).Perm (ms ++ es.filterMap (memberOf L))
  | [], ms, _, _, _ => by rw [toMembers]; simp
  | .mk k v d :: es, ms, ht, hd, hm => by
    obtain ⟨name, hk⟩ := ht (.mk k v d) (by simp)
    replace hk : k.asStr = some name := hk
    rw [List.map_cons, List.nodup_cons] at hd
    have hnew : name ∉ ms.map Member.name := fun h => hm (.mk k v d) (by simp) name h hk
    have hperm := insertMember_perm L name (toJson L v) ms hnew
    rw [toMembers]
    simp only [hk]
    refine (toMembers_perm L es _ (fun e he => ht e (by simp [he])) hd.2 ?_).trans ?_
    · intro e he n hn
      rcases List.mem_cons.1 ((hperm.map Member.name).mem_iff.1 hn) with rfl | hn
      · intro h
        apply hd.1
        rw [List.mem_map]
        exact ⟨e, he, h.trans hk.symm⟩
      · exact hm e (by simp [he]) n hn
    · have hf : memberOf L (.mk k v d) = some (.mk name (toJson L v)) := by simp [memberOf, hk]
      rw [List.filterMap_cons, hf]
      exact (hperm.append_right _).trans (by simpa using (List.perm_middle).symm)

theorem ofItems_toItems (L : Lib) : ∀ (vs : List Value),
    ofItems L (toItems L vs) = vs.map fun v => ofJson L (toJson L v)
  | [] => by rw [toItems, ofItems]; rfl
  | v :: vs => by rw [toItems, ofItems, ofItems_toItems L vs]; rfl

mutual
/-- Plain data comes back saying the same. -/
theorem same_of_plain (L : Lib) : ∀ (v : Value), Plain v → Same v (ofJson L (toJson L v))
  | .mk none none _, _ => by rw [toJson, ofJson, Value.unit]; exact .unit
                             all_goals (intros; simp_all)
  | .mk none (some (.scalar text _ _)) _, _ => by rw [toJson, ofJson, bareValue]; exact .scalar
  | .mk none (some (.sequence items _)) _, h => by
    rw [toJson, ofJson]
    refine .sequence (sameItems_of_plain L items ?_)
    cases h with
    | sequence h => exact h
  | .mk none (some (.object es _)) _, h => by
    rw [toJson, ofJson]
    cases h with
    | object ht hd hv =>
      refine .object (order := (es.filterMap (memberOf L)).map (entryOf L)) ?_ (sameEntries_of_plain L es ht hv)
      rw [ofMembers_map]
      exact ((toMembers_perm L es [] ht hd (by simp)).map _).symm
  | .mk (some t) _ _, h => by cases h
/-- The same for a list of items. -/
theorem sameItems_of_plain (L : Lib) : ∀ (vs : List Value), (∀ v ∈ vs, Plain v) →
    SameItems vs (ofItems L (toItems L vs))
  | [], _ => by rw [toItems, ofItems]; exact .nil
  | v :: vs, h => by
    rw [toItems, ofItems]
    exact .cons (same_of_plain L v (h v (by simp))) (sameItems_of_plain L vs fun w hw => h w (by simp [hw]))
/-- The same for the entries of an object. -/
theorem sameEntries_of_plain (L : Lib) : ∀ (es : List Entry), (∀ e ∈ es, ∃ name, e.key.asStr = some name) →
    (∀ e ∈ es, Plain e.value) → SameEntries es ((es.filterMap (memberOf L)).map (entryOf L))
  | [], _, _ => .nil
  | .mk k v d :: es, ht, hv => by
    obtain ⟨name, hk⟩ := ht (.mk k v d) (by simp)
    replace hk : k.asStr = some name := hk
    have hf : memberOf L (.mk k v d) = some (.mk name (toJson L v)) := by simp [memberOf, hk]
    rw [List.filterMap_cons, hf]
    refine .cons ?_ (same_of_plain L v (hv (.mk k v d) (by simp)))
      (sameEntries_of_plain L es (fun e he => ht e (by simp [he])) fun e he => hv e (by simp [he]))
    match k, hk with
    | .mk none (some (.scalar text _ _)) _, hk =>
      cases hk
      exact .scalar
end

/-- What comes back has no tag. -/
theorem ofJson_tag (L : Lib) (j : Json L.F) : (ofJson L j).tag = none := by
  cases j <;> rw [ofJson] <;> rfl

theorem asStr_of_same {k : Value} {name : List Char} (h : Same k (bareValue name)) : k.asStr = some name := by
  cases h
  rfl

theorem sameEntries_names {L : Lib} : ∀ {es : List Entry} {ms : List (Member L.F)},
    SameEntries es (ms.map (entryOf L)) →
      (es.map fun e => e.key.asStr) = ms.map fun m => some m.name
  | [], [], _ => rfl
  | [], _ :: _, h => by cases h
  | .mk k v d :: es, [], h => by cases h
  | .mk k v d :: es, .mk n j :: ms, h => by
    cases h with
    | cons hk _ hs =>
      rw [List.map_cons, List.map_cons, sameEntries_names hs]
      simp only [Entry.key, Member.name, asStr_of_same hk]

/-- Entries of one key are equal when the keys are all different. -/
theorem eq_of_key {es : List Entry} (hd : (es.map fun e => e.key.asStr).Nodup) {a b : Entry} (ha : a ∈ es)
    (hb : b ∈ es) (h : a.key.asStr = b.key.asStr) : a = b := by
  induction es with
  | nil => simp at ha
  | cons e es ih =>
    rw [List.map_cons, List.nodup_cons] at hd
    rcases List.mem_cons.1 ha with h1 | h1 <;> rcases List.mem_cons.1 hb with h2 | h2
    · rw [h1, h2]
    · exact absurd (List.mem_map.2 ⟨b, h2, by rw [← h, h1]⟩) hd.1
    · exact absurd (List.mem_map.2 ⟨a, h1, by rw [h, h2]⟩) hd.1
    · exact ih hd.2 h1 h2

/-- What is known of the values of the entries of an object that comes back. -/
theorem values_of_same {L : Lib} {all : List Entry} (hd : (all.map fun e => e.key.asStr).Nodup) :
    ∀ {es : List Entry} {ms : List (Member L.F)}, SameEntries es (ms.map (entryOf L)) →
      (∀ e ∈ es, e ∈ all) → (∀ m ∈ ms, m ∈ all.filterMap (memberOf L)) →
      ∀ e ∈ es, Same e.value (ofJson L (toJson L e.value))
  | [], _, _, _, _ => by simp
  | .mk k v d :: es, [], h, _, _ => by cases h
  | .mk k v d :: es, .mk n j :: ms, h, hes, hms => by
    cases h with
    | cons hk hv hs =>
      intro e he
      rcases List.mem_cons.1 he with rfl | he
      · obtain ⟨⟨k', v', d'⟩, he', hm⟩ := List.mem_filterMap.1 (hms _ (List.mem_cons_self ..))
        rw [memberOf, Option.map_eq_some_iff] at hm
        obtain ⟨n', hn', hm⟩ := hm
        cases hm
        have := eq_of_key hd (hes _ (List.mem_cons_self ..)) he' ((asStr_of_same hk).trans hn'.symm)
        cases this
        exact hv
      · exact values_of_same hd hs (fun e he => hes e (by simp [he])) (fun m hm => hms m (by simp [hm])) e he

/-- A permutation of an image is the image of a permutation. -/
theorem perm_map_of_perm {α β : Type} {f : α → β} : ∀ {l : List β} {xs : List α}, l.Perm (xs.map f) →
    ∃ ys : List α, ys.Perm xs ∧ ys.map f = l
  | [], xs, h => by
    refine ⟨[], ?_, rfl⟩
    cases xs with
    | nil => exact .refl _
    | cons a xs => exact absurd h.length_eq (by simp)
  | b :: l, xs, h => by
    obtain ⟨a, ha, hb⟩ := List.mem_map.1 (h.mem_iff.1 (List.mem_cons_self ..))
    obtain ⟨pre, post, rfl⟩ := List.append_of_mem ha
    have h2 : (b :: l).Perm (b :: (pre ++ post).map f) := by
      refine h.trans ?_
      rw [List.map_append, List.map_cons, hb, List.map_append]
      exact List.perm_middle
    obtain ⟨ys, hy, hl⟩ := perm_map_of_perm (List.Perm.cons_inv h2)
    exact ⟨a :: ys, (hy.cons a).trans List.perm_middle.symm, by rw [List.map_cons, hb, hl]⟩

mutual
/-- Only plain data comes back saying the same. -/
theorem plain_of_same (L : Lib) : ∀ (v : Value), Same v (ofJson L (toJson L v)) → Plain v
  | .mk none none _, _ => .unit
  | .mk none (some (.scalar _ _ _)) _, _ => .scalar
  | .mk none (some (.sequence items _)) _, h => by
    rw [toJson, ofJson] at h
    cases h with
    | sequence h => exact .sequence (plainItems_of_same L items h)
  | .mk none (some (.object es _)) _, h => by
    rw [toJson, ofJson] at h
    cases h with
    | object hp h =>
      rw [ofMembers_map] at hp
      obtain ⟨ms, hms, rfl⟩ : ∃ ms : List (Member L.F), ms.Perm (toMembers L [] es) ∧ ms.map (entryOf L) = _ :=
        perm_map_of_perm hp
      have hn := sameEntries_names h
      have hnd : (ms.map fun m => some m.name).Nodup := by
        have := ((orderly_toMembers (L := L) es (ms := []) (by unfold Orderly; split <;> simp)).nodup)
        have h2 := (hms.map Member.name).nodup_iff.2 this
        have h3 : (ms.map fun m => some m.name) = (ms.map Member.name).map some := by simp
        rw [h3]
        exact List.Pairwise.map _ (fun a b hab e => hab (Option.some.inj e)) h2
      have hd : (es.map fun e => e.key.asStr).Nodup := by rw [hn]; exact hnd
      have ht : ∀ e ∈ es, ∃ name, e.key.asStr = some name := by
        intro e he
        have : e.key.asStr ∈ es.map fun e => e.key.asStr := List.mem_map.2 ⟨e, he, rfl⟩
        rw [hn, List.mem_map] at this
        obtain ⟨m, _, hm⟩ := this
        exact ⟨_, hm.symm⟩
      have hall := toMembers_perm L es [] ht hd (by simp)
      refine .object ht hd (plainEntries_of_same L es ?_)
      refine values_of_same hd h (fun e he => he) ?_
      intro m hm
      exact (by simpa using (hms.trans hall).mem_iff.1 hm)
  | .mk (some t) p s, h => by
    have := ofJson_tag L (toJson L (.mk (some t) p s))
    generalize ofJson L (toJson L (.mk (some t) p s)) = w at this h
    cases h
    cases this
/-- The same for a list of items. -/
theorem plainItems_of_same (L : Lib) : ∀ (vs : List Value), SameItems vs (ofItems L (toItems L vs)) →
    ∀ v ∈ vs, Plain v
  | [], _ => by simp
  | v :: vs, h => by
    rw [toItems, ofItems] at h
    cases h with
    | cons h hs =>
      have h1 := plain_of_same L v h
      have h2 := plainItems_of_same L vs hs
      intro w hw
      rcases List.mem_cons.1 hw with rfl | hw
      · exact h1
      · exact h2 w hw
/-- The same for the values of entries. -/
theorem plainEntries_of_same (L : Lib) : ∀ (es : List Entry),
    (∀ e ∈ es, Same e.value (ofJson L (toJson L e.value))) → ∀ e ∈ es, Plain e.value
  | [], _ => by simp
  | .mk k v d :: es, h => by
    have h1 := plain_of_same L v (h (.mk k v d) (by simp))
    have h2 := plainEntries_of_same L es (fun e he => h e (by simp [he]))
    intro e he
    rcases List.mem_cons.1 he with rfl | he
    · exact h1
    · exact h2 e he
end

end Styx.Lsp.Protocol
