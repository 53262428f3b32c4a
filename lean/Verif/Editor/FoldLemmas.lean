import Verif.Editor.FoldSpec

/-!
# Lemmas: the nodes that are entered are those around the position
-/

namespace Styx.CodeMirror

open Styx

theorem Within.trans {x y z : SynNode} (h : Within x y) (g : Within y z) : Within x z := by
  induction g with
  | self => exact h
  | child hm _ ih => exact .child hm ih

theorem Within.size {x y : SynNode} (h : Within x y) : x = y ∨ sizeOf x < sizeOf y := by
  induction h with
  | self => exact .inl rfl
  | child hm _ ih =>
    have := List.sizeOf_lt_of_mem hm
    right
    rcases ih with rfl | ih
    · simp; omega
    · simp; omega

theorem Within.antisymm {x y : SynNode} (h : Within x y) (g : Within y x) : x = y := by
  rcases h.size with h | h
  · exact h
  · rcases g.size with g | g
    · exact g.symm
    · omega

theorem TreeOf.sub {doc : List Char} {t u : SynNode} (h : TreeOf doc t) (hu : Within u t) : TreeOf doc u :=
  ⟨fun n hn => h.1 n (hn.trans hu), fun n hn => h.2 n (hn.trans hu)⟩

theorem TreeOf.inside {doc : List Char} {t n : SynNode} (hn : Within n t) (h : TreeOf doc t) :
    t.start ≤ n.start ∧ n.stop ≤ t.stop := by
  induction hn with
  | self => exact ⟨Nat.le_refl _, Nat.le_refl _⟩
  | child hm _ ih =>
    have h1 := ih (h.sub (.child hm .self))
    have h2 := (h.1 _ .self).2.1 _ hm
    simp only [SynNode.start, SynNode.stop] at h1 h2 ⊢
    omega

/-- A node that covers the position on its left. -/
def Covering (pos : Nat) (n : SynNode) : Prop := n.start < pos ∧ pos ≤ n.stop

mutual
theorem entered_mem (pos : Nat) : ∀ (t n : SynNode), n ∈ entered pos t → n = t ∨ Within n t ∧ Covering pos n
  | .mk name a b cs, n, h => by
    simp only [entered, List.mem_cons] at h
    rcases h with h | h
    · exact .inl h
    · obtain ⟨c, hc, hw, hp⟩ := enteredIn_mem pos cs n h
      exact .inr ⟨.child hc hw, hp⟩
theorem enteredIn_mem (pos : Nat) : ∀ (cs : List SynNode) (n : SynNode), n ∈ enteredIn pos cs →
    ∃ c ∈ cs, Within n c ∧ Covering pos n
  | [], n, h => by simp [enteredIn] at h
  | c :: cs, n, h => by
    simp only [enteredIn] at h
    split at h
    · rename_i hc
      rcases entered_mem pos c n h with rfl | ⟨hw, hp⟩
      · exact ⟨_, List.mem_cons_self .., .self, hc⟩
      · exact ⟨c, List.mem_cons_self .., hw, hp⟩
    · obtain ⟨d, hd, h2⟩ := enteredIn_mem pos cs n h
      exact ⟨d, List.mem_cons_of_mem _ hd, h2⟩
end

theorem enteredIn_of {pos : Nat} {c : SynNode} (hc : Covering pos c) : ∀ {cs : List SynNode},
    cs.Pairwise (fun c d => c.stop ≤ d.start) → c ∈ cs → enteredIn pos cs = entered pos c
  | d :: cs, hp, hm => by
    rw [List.pairwise_cons] at hp
    simp only [enteredIn]
    rcases List.mem_cons.mp hm with rfl | hm
    · exact if_pos hc
    · have := hp.1 c hm
      have h1 := hc.1
      rw [if_neg (by omega)]
      exact enteredIn_of hc hp.2 hm

theorem entered_self (pos : Nat) (t : SynNode) : t ∈ entered pos t := by
  cases t; simp [entered]

theorem mem_entered {doc : List Char} {pos : Nat} {n t : SynNode} (hw : Within n t) (h : TreeOf doc t)
    (hp : Covering pos n) : n ∈ entered pos t := by
  induction hw with
  | self => exact entered_self _ _
  | @child name a b cs c hm hw ih =>
    have hc := h.sub (.child hm .self)
    have hi := hc.inside hw
    have := hp.1
    have := hp.2
    have hcov : Covering pos c := ⟨by omega, by omega⟩
    simp only [entered, List.mem_cons]
    right
    have hpw : cs.Pairwise (fun c d => c.stop ≤ d.start) := (h.1 _ .self).2.2
    rw [enteredIn_of hcov hpw hm]
    exact ih hc

mutual
theorem entered_pairwise (pos : Nat) : ∀ t : SynNode, (entered pos t).Pairwise (fun x y => Within y x)
  | .mk name a b cs => by
    simp only [entered, List.pairwise_cons]
    refine ⟨fun n hn => ?_, enteredIn_pairwise pos cs⟩
    obtain ⟨c, hc, hw, _⟩ := enteredIn_mem pos cs n hn
    exact .child hc hw
theorem enteredIn_pairwise (pos : Nat) : ∀ cs : List SynNode, (enteredIn pos cs).Pairwise (fun x y => Within y x)
  | [] => by simp [enteredIn]
  | c :: cs => by
    simp only [enteredIn]
    split
    · exact entered_pairwise pos c
    · exact enteredIn_pairwise pos cs
end

theorem foldNode_bracketed {doc : List Char} {t n : SynNode} (h : TreeOf doc t) (hn : Within n t) {ls : Nat}
    {r : Nat × Nat} :
    foldNode ls n = some r ↔ Bracketed n ∧ ls ≤ n.start ∧ n.start + 2 < n.stop ∧ r = (n.start + 1, n.stop - 1) := by
  unfold foldNode
  by_cases hb : Bracketed n
  · simp only [show n.name = chars! "Object" ∨ n.name = chars! "Sequence" from hb, if_true]
    obtain ⟨o, mid, c, h1, h2, h3, h4, h5, _⟩ := h.2 n hn hb
    have hl : n.children.getLast? = some c := by
      rw [h1, ← List.cons_append]
      exact List.getLast?_concat ..
    rw [hl, h1]
    simp only [List.head?_cons]
    split
    · rename_i hlt
      constructor
      · intro he
        simp only [Option.some.injEq] at he
        exact ⟨hb, by omega, by omega, by rw [← he]; congr 1; omega⟩
      · rintro ⟨_, _, _, rfl⟩
        simp only [Option.some.injEq]
        congr 1; omega
    · rename_i hlt
      constructor
      · intro he; cases he
      · rintro ⟨_, h6, h7, _⟩
        exact absurd ⟨by omega, by omega⟩ hlt
  · simp only [show ¬ (n.name = chars! "Object" ∨ n.name = chars! "Sequence") from hb, if_false]
    constructor
    · intro he; cases he
    · rintro ⟨h1, _⟩; exact absurd h1 hb

/-- What is found in a list from its end: there is nothing after it. -/
theorem findSome_reverse {α β : Type} {f : α → Option β} {r : β} {l : List α}
    (h : l.reverse.findSome? f = some r) : ∃ xs x ys, l = xs ++ x :: ys ∧ f x = some r ∧ ∀ y ∈ ys, f y = none := by
  rw [List.findSome?_eq_some_iff] at h
  obtain ⟨l1, a, l2, h1, h2, h3⟩ := h
  refine ⟨l2.reverse, a, l1.reverse, ?_, h2, fun y hy => h3 y (List.mem_reverse.mp hy)⟩
  have := congrArg List.reverse h1
  simpa using this

end Styx.CodeMirror
