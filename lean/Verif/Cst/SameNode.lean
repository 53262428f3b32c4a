import Verif.Cst.SameRead

/-! # Objects and sequences that are written and read again -/

namespace Styx.Cst

open Styx Styx.Spec

variable {ind : List Char}

theorem object_inner {cs : List Green} (hg : OkG (.node .OBJECT cs)) : ∀ g ∈ cs, Inner g := by
  obtain ⟨mid, rfl, hm⟩ := hg.shape
  intro g hg
  simp only [List.cons_append, List.mem_cons, List.mem_append, List.not_mem_nil, or_false] at hg
  rcases hg with rfl | hg | rfl
  · exact .inr ⟨_, .inl rfl⟩
  · exact .inl (hm g hg)
  · exact .inr ⟨_, .inr rfl⟩

theorem sequence_inner {cs : List Green} (hg : OkG (.node .SEQUENCE cs)) : ∀ g ∈ cs, SeqElem g ∨ ∃ t, g = .token .L_PAREN t ∨ g = .token .R_PAREN t := by
  obtain ⟨mid, rfl, hm⟩ := hg.shape
  intro g hg
  simp only [List.cons_append, List.mem_cons, List.mem_append, List.not_mem_nil, or_false] at hg
  rcases hg with rfl | hg | rfl
  · exact .inr ⟨_, .inl rfl⟩
  · exact .inl (hm g hg)
  · exact .inr ⟨_, .inr rfl⟩

theorem inner_entry {cs : List Green} (h : ∀ g ∈ cs, Inner g) : ∀ g ∈ cs, ∀ k c, g = .node k c → k = .ENTRY := by
  rintro g hg k c rfl
  rcases h _ hg with h | ⟨t, h | h⟩
  · exact h
  · cases h
  · cases h

theorem innerSeq_entry {cs : List Green} (h : ∀ g ∈ cs, InnerSeq g) : ∀ g ∈ cs, ∀ k c, g = .node k c → k = .ENTRY := by
  rintro g hg k c rfl
  rcases h _ hg with h | ⟨t, h | h⟩
  · exact h
  · cases h
  · cases h

theorem wrap_inner {m : List Green} (h : ∀ g ∈ m, Elem g) :
    ∀ g ∈ (.token .L_BRACE ['{'] :: m ++ [.token .R_BRACE ['}']] : List Green), Inner g := by
  intro g hg
  simp only [List.cons_append, List.mem_cons, List.mem_append, List.not_mem_nil, or_false] at hg
  rcases hg with rfl | hg | rfl
  · exact .inr ⟨_, .inl rfl⟩
  · exact .inl (h g hg)
  · exact .inr ⟨_, .inr rfl⟩

theorem wrap_innerSeq {m : List Green} (h : ∀ g ∈ m, Elem g) :
    ∀ g ∈ (.token .L_PAREN ['('] :: m ++ [.token .R_PAREN [')']] : List Green), InnerSeq g := by
  intro g hg
  simp only [List.cons_append, List.mem_cons, List.mem_append, List.not_mem_nil, or_false] at hg
  rcases hg with rfl | hg | rfl
  · exact .inr ⟨_, .inl rfl⟩
  · exact .inl (h g hg)
  · exact .inr ⟨_, .inr rfl⟩

theorem hasKind_token {k : SyntaxKind} {cs : List Green} (hk : k ≠ .ENTRY) (hn : ∀ g ∈ cs, ∀ k c, g = .node k c → k = .ENTRY) :
    hasKind k cs = hasToken k cs := by
  induction cs with
  | nil => rfl
  | cons g gs ih =>
    have ih := ih fun x hx => hn x (by simp [hx])
    rw [hasKind_cons, ih]
    cases g with
    | token k' t => rw [hasToken]; rfl
    | node k' c =>
      obtain rfl := hn (.node k' c) (by simp) _ _ rfl
      rw [hasToken, Green.kind]
      cases h : (SyntaxKind.ENTRY == k) with
      | false => rfl
      | true => exact absurd (by simpa using h) (fun e : SyntaxKind.ENTRY = k => hk e.symm)

/-- The lines of a block, read. -/
theorem block_facts {R : List Green → List Green → Prop} {ls : List (Nat × Ln)} {m m' : List Green} {t : List Char}
    (hm : m = .token .NEWLINE t :: m') (hF : Facts R (normB false ls) m') (l r : SyntaxKind) (a b : List Char) (hl : Bracket l)
    (hr : Bracket r) :
    let cs' := .token l a :: m ++ [.token r b]
    LnsRel R (bumpFirst 1 (normB false ls)) (items true 0 cs') ∧ hasToken .NEWLINE cs' = true ∧ (∀ g ∈ m, Elem g) := by
  obtain ⟨f1, f2, f3, f4⟩ := hF
  subst hm
  refine ⟨?_, ?_, ?_⟩
  · rw [wrap_items hl hr]
    exact f1 true 1
  · rw [(wrap_facts hl hr _).2.1]
    rfl
  · intro g hg
    rcases List.mem_cons.1 hg with rfl | hg
    · simp [Elem]
    · exact f4 g hg

theorem block_lines {R : List Green → List Green → Prop} {act : List Green → Fmt → Fmt}
    (hR : ∀ c c', R c c' → ∀ f, act c' f = act c f) {ls ls' : List (Nat × Ln)} (h : LnsRel R (bumpFirst 1 (normB false ls)) ls')
    (f : Fmt) : runBlock ind act false ls' f = runBlock ind act false ls f := by
  rw [runBlock_congr hR h, runBlock_first, runBlock_norm]

theorem block_same {R : List Green → List Green → Prop} {ls ls' : List (Nat × Ln)} (h : LnsRel R (bumpFirst 1 (normB false ls)) ls') :
    All2 R (ls.filterMap (·.2.entry)) (ls'.filterMap (·.2.entry)) ∧ ls'.any (·.2.isCom) = ls.any (·.2.isCom) ∧
      ls'.any (·.2.isDoc) = ls.any (·.2.isDoc) := by
  obtain ⟨h1, h2, h3⟩ := lns_facts h
  obtain ⟨b1, b2, b3⟩ := bump_facts 1 (normB false ls)
  obtain ⟨n1, n2, n3⟩ := normB_facts ls false
  rw [b1, n1] at h1
  exact ⟨h1, by rw [h2, b2, n2], by rw [h3, b3, n3]⟩

theorem newline_separator {cs : List Green} (h : hasToken .NEWLINE cs = true) : (separator cs != .comma) = true := by
  rw [separator, h]
  cases hasToken .COMMA cs <;> rfl

theorem no_newline_separator {cs : List Green} (h : hasToken .NEWLINE cs = false) : (separator cs != .comma) = false := by
  rw [separator, h]
  cases hasToken .COMMA cs <;> rfl

/-! ## Objects -/

/-- No entry at all. -/
theorem object_same_empty {cs : List Green} (hi : ∀ g ∈ cs, Inner g) (he : entriesOf cs = []) (hc : hasComments cs = false)
    (hn : hasToken .NEWLINE cs = false) :
    Same ind (.node .OBJECT cs) (.node .OBJECT (.token .L_BRACE ['{'] :: [] ++ [.token .R_BRACE ['}']])) := by
  refine ⟨fun f => ?_, ?_, rfl, _, _, rfl⟩
  · rw [formatNode, formatNode]
    simp only [he, hc]
    rfl
  · have hd : hasKind .DOC_COMMENT cs = false := by
      rw [hasComments, Bool.or_eq_false_iff] at hc
      exact hc.2
    rw [containsBlock, containsBlock, no_newline_separator hn, hd, blockL_nodes (by simp) cs (inner_entry hi)]
    have : nodesOf .ENTRY cs = [] := he
    rw [this]
    rfl

/-- Lines. -/
theorem object_same_block {cs m m' : List Green} {t : List Char} (hi : ∀ g ∈ cs, Inner g) (hcm : Comments cs)
    (hne : ((entriesOf cs).isEmpty && !hasComments cs) = false) (hmul : objMultiline cs = true)
    (hm : m = .token .NEWLINE t :: m') (hF : Facts (EntSame ind) (normB false (items true 0 cs)) m') :
    Same ind (.node .OBJECT cs) (.node .OBJECT (.token .L_BRACE ['{'] :: m ++ [.token .R_BRACE ['}']])) := by
  obtain ⟨h1, h2, h3⟩ := block_facts hm hF .L_BRACE .R_BRACE ['{'] ['}'] (.inl rfl) (.inr (.inl rfl))
  have hi' := wrap_inner h3
  generalize (.token .L_BRACE ['{'] :: m ++ [.token .R_BRACE ['}']] : List Green) = cs' at *
  obtain ⟨a1, a2, a3⟩ := block_same h1
  obtain ⟨i1, i2, i3⟩ := inner_items (rst := true) (n := 0) hi
  obtain ⟨j1, j2, j3⟩ := inner_items (rst := true) (n := 0) hi'
  rw [← i1, ← j1] at a1
  rw [← i2, ← j2] at a2
  rw [← i3, ← j3] at a3
  have hcom : hasComments cs' = hasComments cs := by rw [hasComments, hasComments, a2, a3]
  have hmul' : objMultiline cs' = true := by rw [objMultiline, newline_separator h2]; rfl
  refine ⟨fun f => ?_, ?_, rfl, _, _, rfl⟩
  · rw [formatNode, formatNode]
    simp only [all2_isEmpty a1, hcom, hmul, hmul', hne, Bool.false_eq_true, if_false, if_true]
    rw [formatBlock_items _ _ _ _ hi, formatBlock_items _ _ _ _ hi']
    rw [block_lines (act := fun c => formatNode ind (.node .ENTRY c)) (fun c c' h => h.fmt) h1]
  · have e1 : containsBlock (.node .OBJECT cs') = true := by
      rw [containsBlock, newline_separator h2]
      rfl
    have e2 : containsBlock (.node .OBJECT cs) = true := by
      rw [containsBlock]
      cases hn : hasToken .NEWLINE cs with
      | true => rw [newline_separator hn]; rfl
      | false =>
        cases hd : hasKind .DOC_COMMENT cs with
        | true => simp
        | false =>
          have hl : hasKind .LINE_COMMENT cs = false := by
            cases hl : hasKind .LINE_COMMENT cs with
            | false => rfl
            | true =>
              rw [hasKind_token (by simp) (inner_entry hi)] at hl
              rw [hcm hl] at hn
              cases hn
          have hc : hasComments cs = false := by rw [hasComments, hl, hd]; rfl
          rw [objMultiline, no_newline_separator hn, hc] at hmul
          rw [hc] at hne
          have hemp : (entriesOf cs).isEmpty = false := by simpa using hne
          rw [hemp] at hmul
          rw [blockL_nodes (by simp) cs (inner_entry hi)]
          have : (entriesOf cs).any containsBlockL = true := by simpa using hmul
          have this' : (nodesOf .ENTRY cs).any containsBlockL = true := this
          rw [this', Bool.or_true]
    rw [e1, e2]

/-- On one line. -/
theorem object_same_inline {cs m : List Green} (hi : ∀ g ∈ cs, Inner g)
    (hmul : objMultiline cs = false) (hF : FactsI (EntSame ind) (entriesOf cs) m) :
    Same ind (.node .OBJECT cs) (.node .OBJECT (.token .L_BRACE ['{'] :: m ++ [.token .R_BRACE ['}']])) := by
  obtain ⟨f1, f2, f3, f4, f5⟩ := hF
  have hi' := wrap_inner f5
  obtain ⟨w1, w2, -, -, -, w6, w7⟩ := wrap_facts (a := ['{']) (b := ['}']) (.inl rfl) (.inr (.inl rfl) : Bracket .R_BRACE) m
  generalize (.token .L_BRACE ['{'] :: m ++ [.token .R_BRACE ['}']] : List Green) = cs' at *
  rw [f2] at w2
  rw [f3] at w6
  rw [f4] at w7
  rw [← w1] at f1
  have hc' : hasComments cs' = false := by rw [hasComments, w6, w7]; rfl
  simp only [objMultiline, Bool.or_eq_false_iff] at hmul
  obtain ⟨⟨⟨m1, m2⟩, m3⟩, m4⟩ := hmul
  have hany : (entriesOf cs').any containsBlockL = false := by
    rw [all2_any (p := containsBlockL) (fun a b h => h.inner) f1, m3]
  have hmul' : objMultiline cs' = false := by
    rw [objMultiline, no_newline_separator w2, hc', hany, all2_isEmpty f1, m4]
    rfl
  have hmul : objMultiline cs = false := by
    rw [objMultiline, m1, m2, m3, m4]
    rfl
  refine ⟨fun f => ?_, ?_, rfl, _, _, rfl⟩
  · rw [formatNode, formatNode]
    simp only [all2_isEmpty f1, hc', m2, m4, hmul, hmul', Bool.false_and, Bool.false_eq_true, if_false]
    rw [formatInline_eq, formatInline_eq, inlineLoop_run, inlineLoop_run]
    rw [runInline_congr (act := fun c => formatNode ind (.node .ENTRY c)) (fun c c' h => h.fmt) f1]
  · have hd : hasKind .DOC_COMMENT cs = false := by
      rw [hasComments, Bool.or_eq_false_iff] at m2
      exact m2.2
    rw [containsBlock, containsBlock, no_newline_separator w2, m1, w7, hd, blockL_nodes (by simp) cs (inner_entry hi),
      blockL_nodes (by simp) cs' (inner_entry hi')]
    have e1 : (nodesOf .ENTRY cs').any containsBlockL = false := hany
    have e2 : (nodesOf .ENTRY cs).any containsBlockL = false := m3
    rw [e1, e2]

/-! ## Sequences -/

theorem block_seq {cs cs' : List Green} (hi : ∀ g ∈ cs, InnerSeq g) (hi' : ∀ g ∈ cs', InnerSeq g)
    (h : All2 (ItemSame ind) (entriesOf cs) (entriesOf cs')) :
    containsBlock (.node .SEQUENCE cs') = containsBlock (.node .SEQUENCE cs) := by
  rw [block_node (by simp), block_node (by simp), blockL_nodes (by simp) cs (innerSeq_entry hi),
    blockL_nodes (by simp) cs' (innerSeq_entry hi')]
  exact all2_any (R := ItemSame ind) (fun a b h => (item_same h).2.1) h

theorem seq_flags {cs cs' : List Green} (h : All2 (ItemSame ind) (entriesOf cs) (entriesOf cs'))
    (hc : hasComments cs' = hasComments cs) :
    seqCollapse cs' = seqCollapse cs ∧ seqSingleTag cs' = seqSingleTag cs := by
  rw [seqCollapse, seqCollapse, seqSingleTag, seqSingleTag, hc]
  generalize entriesOf cs = es at h
  generalize entriesOf cs' = es' at h
  cases h with
  | nil => exact ⟨rfl, rfl⟩
  | cons h1 h2 =>
    cases h2 with
    | nil =>
      obtain ⟨-, h3, h4⟩ := item_same h1
      simp only [h3, h4]
      exact ⟨trivial, trivial⟩
    | cons _ _ => exact ⟨rfl, rfl⟩

theorem sequence_same_empty {cs : List Green} (hi : ∀ g ∈ cs, InnerSeq g) (he : entriesOf cs = []) (hc : hasComments cs = false) :
    Same ind (.node .SEQUENCE cs) (.node .SEQUENCE (.token .L_PAREN ['('] :: [] ++ [.token .R_PAREN [')']])) := by
  refine ⟨fun f => ?_, ?_, rfl, _, _, rfl⟩
  · rw [formatNode, formatNode]
    simp only [he, hc]
    rfl
  · refine block_seq (ind := ind) hi (wrap_innerSeq (m := []) (by simp)) ?_
    rw [he]
    exact .nil

/-- One tag with a block. -/
theorem sequence_same_tag {cs m : List Green} (hi : ∀ g ∈ cs, InnerSeq g) (hne : ((entriesOf cs).isEmpty && !hasComments cs) = false)
    (hst : seqSingleTag cs = true) (hF : FactsI (ItemSame ind) (entriesOf cs) m) :
    Same ind (.node .SEQUENCE cs) (.node .SEQUENCE (.token .L_PAREN ['('] :: m ++ [.token .R_PAREN [')']])) := by
  obtain ⟨f1, f2, f3, f4, f5⟩ := hF
  have hi' := wrap_innerSeq f5
  obtain ⟨w1, w2, -, -, -, w6, w7⟩ := wrap_facts (a := ['(']) (b := [')']) (.inr (.inr (.inl rfl)) : Bracket .L_PAREN)
    (.inr (.inr (.inr rfl)) : Bracket .R_PAREN) m
  generalize (.token .L_PAREN ['('] :: m ++ [.token .R_PAREN [')']] : List Green) = cs' at *
  rw [← w1] at f1
  rw [f3] at w6
  rw [f4] at w7
  have hc' : hasComments cs' = false := by rw [hasComments, w6, w7]; rfl
  have hst0 := hst
  rw [seqSingleTag, Bool.and_eq_true] at hst
  have hc : hasComments cs = false := by simpa using hst.1
  have hst' := (seq_flags f1 (hc'.trans hc.symm)).2.trans hst0
  refine ⟨fun f => ?_, block_seq hi hi' f1, rfl, _, _, rfl⟩
  rw [formatNode, formatNode]
  simp only [all2_isEmpty f1, hst', hst0, hc', hc, if_true]
  rw [hc] at hne
  rw [hne]
  simp only [Bool.false_eq_true, if_false]
  have h2 := hst.2
  split at h2
  · rename_i e he
    rw [he] at f1
    generalize he' : entriesOf cs' = es' at f1
    cases f1 with
    | cons a b =>
      cases b
      rw [formatFirstItem_eq cs _ _ he, formatFirstItem_eq cs' _ _ he', (item_same a).1]
  · cases h2

theorem sequence_same_block {cs m m' : List Green} {t : List Char} (hi : ∀ g ∈ cs, InnerSeq g)
    (hne : ((entriesOf cs).isEmpty && !hasComments cs) = false) (hst : seqSingleTag cs = false) (hmul : seqIsMultiline cs = true)
    (hm : m = .token .NEWLINE t :: m') (hF : Facts (ItemSame ind) (normB false (items true 0 cs)) m') :
    Same ind (.node .SEQUENCE cs) (.node .SEQUENCE (.token .L_PAREN ['('] :: m ++ [.token .R_PAREN [')']])) := by
  obtain ⟨h1, h2, h3⟩ := block_facts hm hF .L_PAREN .R_PAREN ['('] [')'] (.inr (.inr (.inl rfl))) (.inr (.inr (.inr rfl)))
  have hi' := wrap_innerSeq h3
  generalize (.token .L_PAREN ['('] :: m ++ [.token .R_PAREN [')']] : List Green) = cs' at *
  obtain ⟨a1, a2, a3⟩ := block_same h1
  obtain ⟨i1, i2, i3⟩ := innerSeq_items (rst := true) (n := 0) hi
  obtain ⟨j1, j2, j3⟩ := innerSeq_items (rst := true) (n := 0) hi'
  rw [← i1, ← j1] at a1
  rw [← i2, ← j2] at a2
  rw [← i3, ← j3] at a3
  have hcom : hasComments cs' = hasComments cs := by rw [hasComments, hasComments, a2, a3]
  obtain ⟨g1, g2⟩ := seq_flags a1 hcom
  have hmul' : seqIsMultiline cs' = true := by
    have hc : seqCollapse cs = false := by
      rw [seqIsMultiline] at hmul
      cases h : seqCollapse cs with
      | false => rfl
      | true => rw [h] at hmul; simp at hmul
    rw [seqIsMultiline, g1, g2, hc, hst, seqMultiline, h2]
    rfl
  refine ⟨fun f => ?_, block_seq hi hi' a1, rfl, _, _, rfl⟩
  rw [formatNode, formatNode]
  simp only [all2_isEmpty a1, hcom, g2, hst, hmul, hmul', hne, Bool.false_eq_true, if_false, if_true]
  rw [formatSeqBlock_items _ _ _ _ hi, formatSeqBlock_items _ _ _ _ hi']
  rw [block_lines (act := fun c => formatItem ind c) (fun c c' h => (item_same h).1) h1]

theorem sequence_same_inline {cs m : List Green} (hi : ∀ g ∈ cs, InnerSeq g)
    (hne : (entriesOf cs).isEmpty = false) (hc : hasComments cs = false) (hst : seqSingleTag cs = false) (hmul : seqIsMultiline cs = false)
    (hF : FactsI (ItemSame ind) (entriesOf cs) m) :
    Same ind (.node .SEQUENCE cs) (.node .SEQUENCE (.token .L_PAREN ['('] :: m ++ [.token .R_PAREN [')']])) := by
  obtain ⟨f1, f2, f3, f4, f5⟩ := hF
  have hi' := wrap_innerSeq f5
  obtain ⟨w1, w2, -, -, -, w6, w7⟩ := wrap_facts (a := ['(']) (b := [')']) (.inr (.inr (.inl rfl)) : Bracket .L_PAREN)
    (.inr (.inr (.inr rfl)) : Bracket .R_PAREN) m
  generalize (.token .L_PAREN ['('] :: m ++ [.token .R_PAREN [')']] : List Green) = cs' at *
  rw [f2] at w2
  rw [f3] at w6
  rw [f4] at w7
  rw [← w1] at f1
  have hc' : hasComments cs' = false := by rw [hasComments, w6, w7]; rfl
  obtain ⟨g1, g2⟩ := seq_flags f1 (hc'.trans hc.symm)
  have hmul' : seqIsMultiline cs' = false := by
    have t1 : hasToken .LINE_COMMENT cs' = false := by rw [← hasKind_token (by simp) (innerSeq_entry hi')]; exact w6
    have t2 : hasToken .DOC_COMMENT cs' = false := by rw [← hasKind_token (by simp) (innerSeq_entry hi')]; exact w7
    have : seqMultiline cs' = false := by rw [seqMultiline, w2, t1, t2]; rfl
    rw [seqIsMultiline, this, hc', all2_isEmpty f1, hne]
    simp
  refine ⟨fun f => ?_, block_seq hi hi' f1, rfl, _, _, rfl⟩
  rw [formatNode, formatNode]
  simp only [all2_isEmpty f1, hc', hc, hne, g2, hst, hmul, hmul', Bool.false_and, Bool.false_eq_true, if_false]
  rw [formatSeqInline_eq, formatSeqInline_eq, inlineLoop_run, inlineLoop_run]
  rw [runInline_congr (act := fun c => formatItem ind c) (fun c c' h => (item_same h).1) f1]

end Styx.Cst
