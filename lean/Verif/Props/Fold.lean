import Verif.Editor.FoldLemmas

/-!
# Properties: folding in CodeMirror (C138)
-/

namespace Styx.Props

open Styx Styx.CodeMirror

/-- C138, for lines that do not end with the closing bracket of an object or a sequence opened on the same line, other
than an empty one: at the line from `a` to `b`, what can be folded is the inside of the innermost object or sequence
that is opened on the line and closed below it; nothing, if there is none. -/
theorem C138_partial (doc : List Char) (t : SynNode) (a b : Nat) (h : TreeOf doc t) (hr : ¬ Bracketed t)
    (hb : LineEnd doc b)
    (hc : ∀ m, Within m t → Bracketed m → a ≤ m.start → m.stop = b → m.stop = m.start + 2) (r : Nat × Nat) :
    foldAt t a b = some r ↔ ∃ n, InnermostOpened t a b n ∧ r = (n.start + 1, n.stop - 1) := by
  have hforth : ∀ r, foldAt t a b = some r → ∃ n, InnermostOpened t a b n ∧ r = (n.start + 1, n.stop - 1) := by
    intro r hf
    obtain ⟨xs, n, ys, h1, h2, h3⟩ := findSome_reverse hf
    have hn : n ∈ entered b t := by rw [h1]; simp
    have hwn : Within n t := by
      rcases entered_mem b t n hn with rfl | ⟨hw, _⟩
      · exact .self
      · exact hw
    obtain ⟨k1, k2, k3, rfl⟩ := (foldNode_bracketed h hwn).mp h2
    have hcov : Covering b n := by
      rcases entered_mem b t n hn with rfl | ⟨_, hp⟩
      · exact absurd k1 hr
      · exact hp
    have hopen : OpenedOn a b n := by
      refine ⟨k1, k2, hcov.1, ?_⟩
      have h5 : n.stop ≠ b := fun he => by have := hc n hwn k1 k2 he; omega
      have h6 := hcov.2
      obtain ⟨o, mid, c, _, _, _, h7, _, h8⟩ := h.2 n hwn k1
      have h9 : b ≠ c.start := by
        rintro rfl
        rcases hb with hb | hb
        · rw [hb] at h8; simp at h8
        · rw [hb] at h8; simp at h8
      omega
    refine ⟨n, ⟨hwn, hopen, fun m hm ho => ?_⟩, rfl⟩
    have hm2 : m ∈ entered b t := mem_entered hm h ⟨ho.2.2.1, by have := ho.2.2.2; omega⟩
    have hpw := entered_pairwise b t
    rw [h1] at hm2 hpw
    have hfm : foldNode a m = some (m.start + 1, m.stop - 1) :=
      (foldNode_bracketed h hm).mpr ⟨ho.1, ho.2.1, by have := ho.2.2; omega, rfl⟩
    rcases List.mem_append.mp hm2 with hx | hx
    · exact (List.pairwise_append.mp hpw).2.2 m hx n (List.mem_cons_self ..)
    · rcases List.mem_cons.mp hx with rfl | hx
      · exact .self
      · rw [h3 m hx] at hfm; cases hfm
  constructor
  · exact hforth r
  · rintro ⟨n, ⟨hn, ho, hi⟩, rfl⟩
    have hfn : foldNode a n = some (n.start + 1, n.stop - 1) :=
      (foldNode_bracketed h hn).mpr ⟨ho.1, ho.2.1, by have := ho.2.2; omega, rfl⟩
    have hne : n ∈ entered b t := mem_entered hn h ⟨ho.2.2.1, by have := ho.2.2.2; omega⟩
    cases hf : foldAt t a b with
    | none =>
      have := (List.findSome?_eq_none_iff.mp hf) n (List.mem_reverse.mpr hne)
      rw [this] at hfn
      cases hfn
    | some r' =>
      obtain ⟨n', ⟨hn', ho', hi'⟩, rfl⟩ := hforth r' hf
      rw [Within.antisymm (hi n' hn' ho') (hi' n hn ho)]

/-- What is folded, exactly, at every line: the inside of the innermost object or sequence that is not empty, opened on
the line, and closed at the end of the line or below it. -/
theorem C138_exact (doc : List Char) (t : SynNode) (a b : Nat) (h : TreeOf doc t) (hr : ¬ Bracketed t) (r : Nat × Nat) :
    foldAt t a b = some r ↔ ∃ n, Within n t ∧ EndsFrom a b n ∧ (∀ m, Within m t → EndsFrom a b m → Within n m) ∧
      r = (n.start + 1, n.stop - 1) := by
  have hforth : ∀ r, foldAt t a b = some r → ∃ n, Within n t ∧ EndsFrom a b n ∧
      (∀ m, Within m t → EndsFrom a b m → Within n m) ∧ r = (n.start + 1, n.stop - 1) := by
    intro r hf
    obtain ⟨xs, n, ys, h1, h2, h3⟩ := findSome_reverse hf
    have hn : n ∈ entered b t := by rw [h1]; simp
    rcases entered_mem b t n hn with rfl | ⟨hwn, hcov⟩
    · exact absurd ((foldNode_bracketed h .self).mp h2).1 hr
    obtain ⟨k1, k2, k3, rfl⟩ := (foldNode_bracketed h hwn).mp h2
    refine ⟨n, hwn, ⟨k1, k2, hcov.1, hcov.2, k3⟩, fun m hm ho => ?_, rfl⟩
    have hm2 : m ∈ entered b t := mem_entered hm h ⟨ho.2.2.1, ho.2.2.2.1⟩
    have hpw := entered_pairwise b t
    rw [h1] at hm2 hpw
    have hfm : foldNode a m = some (m.start + 1, m.stop - 1) :=
      (foldNode_bracketed h hm).mpr ⟨ho.1, ho.2.1, ho.2.2.2.2, rfl⟩
    rcases List.mem_append.mp hm2 with hx | hx
    · exact (List.pairwise_append.mp hpw).2.2 m hx n (List.mem_cons_self ..)
    · rcases List.mem_cons.mp hx with rfl | hx
      · exact .self
      · rw [h3 m hx] at hfm; cases hfm
  constructor
  · exact hforth r
  · rintro ⟨n, hn, ho, hi, rfl⟩
    have hfn : foldNode a n = some (n.start + 1, n.stop - 1) :=
      (foldNode_bracketed h hn).mpr ⟨ho.1, ho.2.1, ho.2.2.2.2, rfl⟩
    have hne : n ∈ entered b t := mem_entered hn h ⟨ho.2.2.1, ho.2.2.2.1⟩
    cases hf : foldAt t a b with
    | none =>
      have := (List.findSome?_eq_none_iff.mp hf) n (List.mem_reverse.mpr hne)
      rw [this] at hfn
      cases hfn
    | some r' =>
      obtain ⟨n', hn', ho', hi', rfl⟩ := hforth r' hf
      rw [Within.antisymm (hi n' hn' ho') (hi' n hn ho)]

/-- Whatever the line: what is folded is the inside of an object or a sequence, with its opening bracket on the line. -/
theorem C138_inside (doc : List Char) (t : SynNode) (a b : Nat) (h : TreeOf doc t) (hr : ¬ Bracketed t)
    (r : Nat × Nat) (hf : foldAt t a b = some r) :
    ∃ n, Within n t ∧ Bracketed n ∧ a ≤ n.start ∧ n.start < b ∧ r.1 = n.start + 1 ∧ r.2 + 1 = n.stop ∧ r.1 < r.2 := by
  obtain ⟨xs, n, ys, h1, h2, h3⟩ := findSome_reverse hf
  have hn : n ∈ entered b t := by rw [h1]; simp
  rcases entered_mem b t n hn with rfl | ⟨hw, hp⟩
  · obtain ⟨k1, _⟩ := (foldNode_bracketed h .self).mp h2
    exact absurd k1 hr
  · obtain ⟨k1, k2, k3, rfl⟩ := (foldNode_bracketed h hw).mp h2
    have := hp.1
    exact ⟨n, hw, k1, k2, hp.1, rfl, by simp only; omega, by simp only; omega⟩

/-- A token of the tree. -/
def leaf (name : List Char) (a b : Nat) : SynNode := .mk name a b []

/-- `{b c}` with its opening bracket at `k`. -/
def foldInner (k : Nat) : SynNode :=
  .mk (chars! "Object") k (k + 5) [leaf ['{'] k (k + 1), leaf (chars! "ObjContent") (k + 1) (k + 4), leaf ['}'] (k + 4) (k + 5)]

/-- A text with an object that is closed on the line where another one is opened. -/
def foldText : List Char := chars! "x {y {b c}\n}"

/-- The object of `x`. -/
def foldOuter : SynNode :=
  .mk (chars! "Object") 2 12 [leaf ['{'] 2 3, .mk (chars! "ObjContent") 3 11 [leaf (chars! "KeyExpr") 3 4, foldInner 5], leaf ['}'] 11 12]

/-- Its tree, without nodes that make no difference. -/
def foldTree : SynNode := .mk (chars! "Document") 0 12 [leaf (chars! "KeyExpr") 0 1, foldOuter]

mutual
/-- The nodes of a tree. -/
def treeNodes : SynNode → List SynNode
  | .mk n a b cs => .mk n a b cs :: treeNodesIn cs
/-- The nodes of some trees. -/
def treeNodesIn : List SynNode → List SynNode
  | [] => []
  | c :: cs => treeNodes c ++ treeNodesIn cs
end

theorem mem_treeNodesIn {n c : SynNode} (h : n ∈ treeNodes c) : ∀ {cs : List SynNode}, c ∈ cs → n ∈ treeNodesIn cs
  | d :: cs, hm => by
    simp only [treeNodesIn, List.mem_append]
    rcases List.mem_cons.mp hm with rfl | hm
    · exact .inl h
    · exact .inr (mem_treeNodesIn h hm)

theorem within_nodes {n t : SynNode} (h : Within n t) : n ∈ treeNodes t := by
  induction h with
  | self => cases n; simp [treeNodes]
  | child hm _ ih =>
    simp only [treeNodes, List.mem_cons]
    exact .inr (mem_treeNodesIn ih hm)

theorem foldTree_of : TreeOf foldText foldTree := by
  constructor
  · intro n hn
    have := within_nodes hn
    simp only [foldTree, foldOuter, foldInner, leaf, treeNodes, treeNodesIn, List.append_nil, List.mem_cons,
      List.cons_append, List.nil_append, List.not_mem_nil, or_false] at this
    rcases this with rfl | rfl | rfl | rfl | rfl | rfl | rfl | rfl | rfl | rfl | rfl <;>
      simp [SynNode.start, SynNode.stop, SynNode.children]
  · intro n hn hb
    have := within_nodes hn
    simp only [foldTree, foldOuter, foldInner, leaf, treeNodes, treeNodesIn, List.append_nil, List.mem_cons,
      List.cons_append, List.nil_append, List.not_mem_nil, or_false] at this
    rcases this with rfl | rfl | rfl | rfl | rfl | rfl | rfl | rfl | rfl | rfl | rfl
    case inr.inr.inl => exact ⟨_, [_], _, rfl, rfl, rfl, rfl, rfl, .inl rfl⟩
    case inr.inr.inr.inr.inr.inr.inl => exact ⟨_, [_], _, rfl, rfl, rfl, rfl, rfl, .inl rfl⟩
    all_goals simp [Bracketed, SynNode.name] at hb

/-- The outer object is the one that is opened on the first line. -/
theorem foldOuter_innermost : InnermostOpened foldTree 0 10 foldOuter := by
  refine ⟨.child (by simp) .self, ⟨.inl rfl, by decide, by decide, by decide⟩, fun m hm ho => ?_⟩
  have := within_nodes hm
  simp only [foldTree, foldOuter, foldInner, leaf, treeNodes, treeNodesIn, List.append_nil, List.mem_cons,
    List.cons_append, List.nil_append, List.not_mem_nil, or_false] at this
  rcases this with rfl | rfl | rfl | rfl | rfl | rfl | rfl | rfl | rfl | rfl | rfl
  case inr.inr.inl => exact .self
  all_goals simp [OpenedOn, Bracketed, SynNode.name, SynNode.start, SynNode.stop] at ho

/-- C138 is false of the code: if an object is closed at the end of the line, it is folded, although it is on one line,
and not the object around it that is opened on that line. -/
theorem C138_false : ∃ (doc : List Char) (t n : SynNode) (a b : Nat) (r : Nat × Nat), TreeOf doc t ∧ ¬ Bracketed t ∧
    LineEnd doc b ∧ InnermostOpened t a b n ∧ foldAt t a b = some r ∧ r ≠ (n.start + 1, n.stop - 1) ∧ r.2 < b :=
  ⟨foldText, foldTree, foldOuter, 0, 10, (6, 9), foldTree_of, by simp [Bracketed, foldTree, SynNode.name], .inr rfl,
    foldOuter_innermost, by decide, by decide, by decide⟩

/-- A text with an object over several lines. -/
def foldText2 : List Char := chars! "x {\nyyy\n}"

/-- The object of `x`. -/
def foldOuter2 : SynNode := .mk (chars! "Object") 2 9 [leaf ['{'] 2 3, leaf (chars! "ObjContent") 3 8, leaf ['}'] 8 9]

/-- Its tree. -/
def foldTree2 : SynNode := .mk (chars! "Document") 0 9 [leaf (chars! "KeyExpr") 0 1, foldOuter2]

theorem foldTree2_of : TreeOf foldText2 foldTree2 := by
  constructor
  · intro n hn
    have := within_nodes hn
    simp only [foldTree2, foldOuter2, leaf, treeNodes, treeNodesIn, List.append_nil, List.mem_cons,
      List.cons_append, List.nil_append, List.not_mem_nil, or_false] at this
    rcases this with rfl | rfl | rfl | rfl | rfl | rfl <;>
      simp [SynNode.start, SynNode.stop, SynNode.children]
  · intro n hn hb
    have := within_nodes hn
    simp only [foldTree2, foldOuter2, leaf, treeNodes, treeNodesIn, List.append_nil, List.mem_cons,
      List.cons_append, List.nil_append, List.not_mem_nil, or_false] at this
    rcases this with rfl | rfl | rfl | rfl | rfl | rfl
    case inr.inr.inl => exact ⟨_, [_], _, rfl, rfl, rfl, rfl, rfl, .inl rfl⟩
    all_goals simp [Bracketed, SynNode.name] at hb

/-- The hypotheses of C138 hold of the first line of this text, and its object is folded. -/
example : foldAt foldTree2 0 3 = some (3, 8) ∧ ∃ n, InnermostOpened foldTree2 0 3 n ∧ (3, 8) = (n.start + 1, n.stop - 1) :=
  ⟨by decide, (C138_partial foldText2 foldTree2 0 3 foldTree2_of (by simp [Bracketed, foldTree2, SynNode.name]) (.inr rfl)
    (fun m hm hb _ hs => by
      have := within_nodes hm
      simp only [foldTree2, foldOuter2, leaf, treeNodes, treeNodesIn, List.append_nil, List.mem_cons,
        List.cons_append, List.nil_append, List.not_mem_nil, or_false] at this
      rcases this with rfl | rfl | rfl | rfl | rfl | rfl <;>
        simp [Bracketed, SynNode.name, SynNode.stop] at hb hs) (3, 8)).mp (by decide)⟩

end Styx.Props
