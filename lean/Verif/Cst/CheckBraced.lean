import Verif.Cst.Braced
import Verif.Cst.CheckText
import Verif.Cst.SameNode

/-! # The warnings for keys given twice in documents with braces around the root -/

namespace Styx.Cst

open Styx Styx.Spec

/-- The entries between the braces are nodes like those of root entries. -/
theorem rootNodes_of_kids {nl : Bool} {ks : List Kid} : ∀ {es' : List Entry} {es : List RootEntry}, KidNodes nl es' ks →
    EntriesAs es' es → RootNodes es ks := by
  induction ks with
  | nil => intro es' es h ha; cases h; cases ha; exact .nil
  | cons y ks ih =>
    intro es' es h ha
    cases h with
    | pair hd hk hkn hv hl hp hrest =>
      cases ha with
      | cons hka har => exact .pair hd (root_of_keyAs hka hk) hkn hv hp (ih hrest har)
    | lone hd hk hkn hp hrest =>
      cases ha with
      | cons hka har => exact .lone hd (root_of_keyAs hka hk) hkn hp (ih hrest har)

theorem warns_down {v : List Char} {a b : Nat} : ∀ {cs : List Green} {off : Nat},
    duplicateWarning a b v ∈ validateKids off cs → ∃ g ∈ cs, ∃ off', duplicateWarning a b v ∈ validateNode off' g := by
  intro cs
  induction cs with
  | nil => intro off h; simp [validateKids] at h
  | cons g gs ih =>
    intro off h
    rw [validateKids, List.mem_append] at h
    rcases h with h | h
    · exact ⟨g, by simp, _, h⟩
    · obtain ⟨x, hx, o, h⟩ := ih h
      exact ⟨x, by simp [hx], o, h⟩

theorem warns_up {v : List Char} {k : SyntaxKind} {g : Green} {cs : List Green} (hm : g ∈ cs)
    (h : ∀ off, ∃ a b, duplicateWarning a b v ∈ validateNode off g) (off : Nat) :
    ∃ a b, duplicateWarning a b v ∈ validateNode off (.node k cs) := by
  obtain ⟨pre, post, rfl⟩ := List.append_of_mem hm
  obtain ⟨a, b, h⟩ := h (off + utf8Len (Green.texts pre))
  exact ⟨a, b, mem_validateNode.2 (.inr (validateKids_mem h))⟩

/-- The warnings of an object with the given entries. -/
theorem object_duplicates {es : List RootEntry} {kids : List Kid} {cs : List Green} (hk : kidsOf [] cs = some kids)
    (h : RootNodes es kids) (hc : Calm (.node .OBJECT cs)) (hw : ∀ e ∈ es, WordKey e)
    (hr : ∀ e ∈ es, NoRawKeys e.value) {v : List Char} (hv : v ≠ []) (off : Nat) :
    (∃ a b, duplicateWarning a b v ∈ validateNode off (.node .OBJECT cs)) ↔
      ∃ l1 e1 l2 e2 l3, es = l1 ++ e1 :: l2 ++ e2 :: l3 ∧ e1.path = e2.path ∧ dotted e1.path = v := by
  have hn : ∀ k c, .node k c ∈ cs → k = .ENTRY := fun k c hm => inner_entry (object_inner hc.ok) _ hm _ _ rfl
  obtain ⟨q1, q2, q3⟩ := root_words h hw hr fun x hx g hg => by
    obtain ⟨k, hm⟩ := kidsOf_mem hk x hx
    exact (hc.kids _ hm).kids g hg
  have hq := kids_quiet hk hn q1
  have e1 : (∃ a b, duplicateWarning a b v ∈ validateNode off (.node .OBJECT cs)) ↔
      ∃ a b, duplicateWarning a b v ∈ duplicates off cs [] := by
    constructor
    · rintro ⟨a, b, h⟩
      rcases mem_validateNode.1 h with ⟨-, h⟩ | h
      · exact ⟨a, b, h⟩
      · exact absurd h (quiet_kids hq)
    · rintro ⟨a, b, h⟩
      exact ⟨a, b, mem_validateNode.2 (.inl ⟨.inr rfl, h⟩)⟩
  rw [e1, dups_iff hv, sublist_filter hv, kids_words hn hk, ← sublist_filter hv, q2, sublist_two]
  constructor
  · rintro ⟨l1, x, l2, y, l3, rfl, h1, h2⟩
    obtain ⟨x1, x2⟩ := q3 x (by simp)
    obtain ⟨y1, y2⟩ := q3 y (by simp)
    exact ⟨l1, x, l2, y, l3, rfl, dotted_inj x1 y1 x2 y2 (by rw [h1, h2]), h1⟩
  · rintro ⟨l1, x, l2, y, l3, rfl, h1, h2⟩
    exact ⟨l1, x, l2, y, l3, rfl, h2, by rw [← h1]; exact h2⟩

theorem braced_duplicates {es : List RootEntry} {es' : List Entry} {cs g : List Green}
    (hk : kidsOf [] g = some [([], cs)]) (h : RootObject es' cs) (has : EntriesAs es' es)
    (hc : Calm (.node .DOCUMENT g)) (hw : ∀ e ∈ es, WordKey e) (hr : ∀ e ∈ es, NoRawKeys e.value)
    {v : List Char} (hv : v ≠ []) :
    (∃ a b, duplicateWarning a b v ∈ validate (.node .DOCUMENT g)) ↔
      ∃ l1 e1 l2 e2 l3, es = l1 ++ e1 :: l2 ++ e2 :: l3 ∧ e1.path = e2.path ∧ dotted e1.path = v := by
  obtain ⟨go, ⟨ocs, ks, rfl, h1, h2⟩, h3⟩ := h
  have hn : ∀ k c, .node k c ∈ g → k = .ENTRY := fun k c hm => hc.ok.shape _ hm
  obtain ⟨k, hm⟩ := kidsOf_mem hk ([], cs) (by simp)
  obtain rfl := hn _ _ hm
  have hkey := lone_key_mem h3
  have hco : Calm (.node .OBJECT ocs) := ((hc.kids _ hm).kids _ hkey).kids _ (by simp)
  rw [← object_duplicates h1 (rootNodes_of_kids h2 has) hco hw hr hv 0]
  constructor
  · rintro ⟨a, b, h⟩
    have hobj : ∃ off, duplicateWarning a b v ∈ validateNode off (.node .OBJECT ocs) := by
      rcases mem_validateNode.1 h with ⟨-, h⟩ | h
      · exfalso
        have := (dups_iff hv g 0).1 ⟨a, b, h⟩
        rw [sublist_filter hv, kids_words hn hk, ← sublist_filter hv] at this
        have := this.length_le
        simp at this
      · obtain ⟨x, hx, o, h⟩ := warns_down h
        cases x with
        | token k t => simp [validateNode] at h
        | node k c =>
          obtain rfl := hn _ _ hx
          by_cases hne : c = []
          · subst hne; simp [validateNode, validateKids] at h
          · obtain ⟨y, hy, rfl⟩ := kidsOf_node hk _ c hx hne
            obtain rfl : y = ([], cs) := by simpa using hy
            rcases mem_validateNode.1 h with ⟨hh, -⟩ | h
            · simp at hh
            · obtain ⟨x, hx', o', h'⟩ := warns_down h
              obtain ⟨ws, rfl, hws⟩ := h3
              rcases List.mem_cons.1 hx' with rfl | hx'
              · rcases mem_validateNode.1 h' with ⟨hh, -⟩ | h
                · simp at hh
                · obtain ⟨x, hx, o, h⟩ := warns_down h
                  rw [List.mem_singleton] at hx
                  subst hx
                  exact ⟨o, h⟩
              · exact absurd h' (quiet_ws (hws x hx') _ _ _ _)
    obtain ⟨off, h⟩ := hobj
    have := (object_duplicates h1 (rootNodes_of_kids h2 has) hco hw hr hv off).1 ⟨a, b, h⟩
    exact (object_duplicates h1 (rootNodes_of_kids h2 has) hco hw hr hv 0).2 this
  · intro h
    have h0 := (object_duplicates h1 (rootNodes_of_kids h2 has) hco hw hr hv 0).1 h
    exact warns_up hm (fun o => warns_up hkey (fun o => warns_up (List.mem_singleton.2 rfl)
      (fun o => (object_duplicates h1 (rootNodes_of_kids h2 has) hco hw hr hv o).2 h0) o) o) 0

end Styx.Cst
