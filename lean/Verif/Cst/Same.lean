import Verif.Cst.LinesPrint

/-! # Nodes that the source formatter writes in the same way -/

namespace Styx.Cst

open Styx Styx.Spec

variable {ind : List Char}

/-- Two nodes of values that are written in the same way, wherever they are. -/
structure Same (ind : List Char) (g g' : Green) : Prop where
  fmt : ∀ f, formatNode ind g' f = formatNode ind g f
  block : containsBlock g' = containsBlock g
  tag : isTagWithBlock [.node .KEY [g']] = isTagWithBlock [.node .KEY [g]]
  node : ∃ k c, g' = .node k c

/-- Two entries that are written in the same way, wherever they are. -/
structure EntSame (ind : List Char) (c c' : List Green) : Prop where
  fmt : ∀ f, formatNode ind (.node .ENTRY c') f = formatNode ind (.node .ENTRY c) f
  inner : containsBlockL c' = containsBlockL c
  block : isBlockEntry c' = isBlockEntry c
  schema : isSchemaDeclaration c' = isSchemaDeclaration c

/-- Two items of a sequence that are written in the same way. -/
def ItemSame (ind : List Char) (c c' : List Green) : Prop :=
  ∃ g g', c = [.node .KEY [g]] ∧ c' = [.node .KEY [g']] ∧ Same ind g g' ∧ ∃ k x, g = .node k x

theorem Writes.unique {f f' : Fmt} {u u' : List Char} (h : Writes ind f f' u) (h' : Writes ind f f' u') : u = u' := by
  have := h.1.symm.trans h'.1
  simpa using this

theorem block_node {k : SyntaxKind} (hk : k ≠ .OBJECT) (cs : List Green) : containsBlock (.node k cs) = containsBlockL cs := by
  rw [containsBlock]
  cases hb : (k == SyntaxKind.OBJECT) with
  | false => simp
  | true => exact absurd (by simpa using hb) hk

theorem blockL_one (g : Green) : containsBlockL [g] = containsBlock g := by
  rw [containsBlockL, containsBlockL, Bool.or_false]

theorem scalar_same {k k' : SyntaxKind} {t : List Char} (h : ScalarTok k) (h' : ScalarTok k') :
    Same ind (.node .SCALAR [.token k t]) (.node .SCALAR [.token k' t]) := by
  unfold ScalarTok at h h'
  refine ⟨fun f => ?_, rfl, rfl, _, _, rfl⟩
  rw [formatNode, formatNode]
  simp only [formatScalarTokens, if_pos h, if_pos h']

theorem heredoc_noBlock : ∀ {cs : List Green}, (∀ g ∈ cs, ∃ k t, g = .token k t) → containsBlockL cs = false
  | [], _ => rfl
  | g :: gs, h => by
    obtain ⟨k, t, rfl⟩ := h g (by simp)
    rw [containsBlockL, containsBlock, heredoc_noBlock fun x hx => h x (by simp [hx])]
    rfl

theorem heredoc_same {cs cs' : List Green} (h : ∀ g ∈ cs, ∃ k t, g = .token k t) (h' : ∀ g ∈ cs', ∃ k t, g = .token k t)
    (he : Green.texts cs' = Green.texts cs) : Same ind (.node .HEREDOC cs) (.node .HEREDOC cs') := by
  refine ⟨fun f => ?_, ?_, rfl, _, _, rfl⟩
  · rw [formatNode, formatNode, he]
  · rw [containsBlock, containsBlock, heredoc_noBlock h, heredoc_noBlock h']
    rfl

theorem Same.refl {k : SyntaxKind} {c : List Green} : Same ind (.node k c) (.node k c) := ⟨fun _ => rfl, rfl, rfl, _, _, rfl⟩

theorem tagged_same {t : List Char} {g g' : Green} (h : Same ind g g') (hg : ∃ k c, g = .node k c) :
    Same ind (.node .TAG [.token .TAG_TOKEN t, .node .TAG_PAYLOAD [g]])
      (.node .TAG [.token .TAG_TOKEN t, .node .TAG_PAYLOAD [g']]) := by
  obtain ⟨h1, h2, -, k', c', rfl⟩ := h
  obtain ⟨k, c, rfl⟩ := hg
  refine ⟨fun f => ?_, ?_, ?_, _, _, rfl⟩
  · rw [formatNode, formatNode]
    simp only [formatTag, if_true, formatPayload, h1]
  · simp only [containsBlock, containsBlockL] at h2 ⊢
    rw [h2]
    rfl
  · have e : ∀ k c, isTagWithBlock [.node .KEY [.node .TAG [.token .TAG_TOKEN t, .node .TAG_PAYLOAD [.node k c]]]] =
        containsBlock (.node k c) := by
      intro k c
      simp [isTagWithBlock, entryKey, nodesOf, firstPayload, containsBlockL]
    rw [e, e, h2]

/-! ## Keys -/

theorem tag_alone {n n' t : List Char} (h : TagName n) (h' : TagName n') (hp : PayloadStart n' t) : '@' :: n ≠ '@' :: n' ++ t := by
  intro e
  have a := toks_tag h (.inl rfl : Follows .word []) 0
  have b := toks_tagPayload (rest := []) h' hp 0
  rw [List.append_nil, e] at a
  rw [List.append_nil, a] at b
  simp only [List.cons.injEq, Token.mk.injEq] at b
  obtain ⟨c, r, rfl, -⟩ := hp
  simp at b

theorem tag_payload {n n' t t' : List Char} (h : TagName n) (h' : TagName n') (hp : PayloadStart n t) (hp' : PayloadStart n' t')
    (e : '@' :: n ++ t = '@' :: n' ++ t') : n = n' ∧ t = t' := by
  have a := toks_tagPayload (rest := []) h hp 0
  have b := toks_tagPayload (rest := []) h' hp' 0
  rw [List.append_nil] at a b
  rw [e, b] at a
  simp only [List.cons.injEq, Token.mk.injEq] at a
  have hn : n' = n := by simpa using a.1.2.2.2
  subst hn
  simpa using e

/-- The text of a key says how it is written. -/
theorem key_same {kt : List Char} {g g' : Green} (h : KeyNode kt g) (h' : KeyNode kt g') :
    Same ind g g' ∧ containsBlock g = false ∧
      isSchemaDeclaration [.node .KEY [g']] = isSchemaDeclaration [.node .KEY [g]] := by
  have nt : ∀ k t, ScalarTok k → containsBlock (.node .SCALAR [.token k t]) = false := fun _ _ _ => rfl
  generalize hkt : kt = kt' at h'
  cases h with
  | scalar hk hh =>
    cases h' with
    | scalar hk' _ => subst hkt; exact ⟨scalar_same hk hk', rfl, rfl⟩
    | unit => subst hkt; simp at hh
    | tag _ => subst hkt; simp at hh
    | tagged _ _ _ => subst hkt; simp at hh
  | unit =>
    cases h' with
    | scalar hk' hh => subst hkt; simp at hh
    | unit => exact ⟨.refl, rfl, rfl⟩
    | tag hn => obtain ⟨c, r, rfl, -⟩ := hn; simp at hkt
    | tagged _ hn _ => obtain ⟨c, r, rfl, -⟩ := hn; simp at hkt
  | tag hn =>
    cases h' with
    | scalar hk' hh => subst hkt; simp at hh
    | unit => obtain ⟨c, r, rfl, -⟩ := hn; simp at hkt
    | tag hn' => simp only [List.cons.injEq, true_and] at hkt; subst hkt; exact ⟨.refl, rfl, rfl⟩
    | tagged _ hn' hp => exact absurd hkt (tag_alone hn hn' hp)
  | tagged hk hn hp =>
    cases h' with
    | scalar hk' hh => subst hkt; simp at hh
    | unit => obtain ⟨c, r, rfl, -⟩ := hn; simp at hkt
    | tag hn' => exact absurd hkt.symm (tag_alone hn' hn hp)
    | tagged hk' hn' hp' =>
      obtain ⟨rfl, rfl⟩ := tag_payload hn hn' hp hp' hkt
      exact ⟨tagged_same (scalar_same hk hk') ⟨_, _, rfl⟩, rfl, rfl⟩

/-! ## Entries -/

theorem blockL_append : ∀ (a b : List Green), containsBlockL (a ++ b) = (containsBlockL a || containsBlockL b)
  | [], b => by simp [containsBlockL]
  | g :: a, b => by rw [List.cons_append, containsBlockL, containsBlockL, blockL_append a b, Bool.or_assoc]

theorem blockL_ws : ∀ {ws : List Green}, (∀ g ∈ ws, IsWs g) → containsBlockL ws = false
  | [], _ => rfl
  | g :: gs, h => by
    obtain ⟨t, rfl⟩ := h g (by simp)
    rw [containsBlockL, containsBlock, blockL_ws fun x hx => h x (by simp [hx])]
    rfl

theorem pair_facts {gk gv : Green} {cs : List Green} (hp : PairNode gk gv cs) (hk : ∃ k c, gk = .node k c)
    (hv : ∃ k c, gv = .node k c) :
    (∀ f, formatNode ind (.node .ENTRY cs) f = formatNode ind gv ((formatNode ind gk f).write ind [' '])) ∧
    containsBlockL cs = (containsBlock gk || containsBlock gv) ∧ isBlockEntry cs = containsBlock gv ∧
    isSchemaDeclaration cs = isSchemaDeclaration [.node .KEY [gk]] := by
  obtain ⟨ws, ws', rfl, h1, h2⟩ := hp
  obtain ⟨kk, kc, rfl⟩ := hk
  obtain ⟨vk, vc, rfl⟩ := hv
  have e1 : entryValue (.node .KEY [.node kk kc] :: ws ++ .node .VALUE [.node vk vc] :: ws') = some [.node vk vc] := by
    rw [entryValue, List.cons_append, nodesOf, if_neg (by simp), nodesOf_append, nodesOf_ws _ ws h1, nodesOf]
    simp
  have e2 : ∀ f, formatFirst ind .VALUE (.node .KEY [.node kk kc] :: ws ++ .node .VALUE [.node vk vc] :: ws') f =
      formatNode ind (.node vk vc) f := by
    intro f
    rw [formatFirst_skip (.node .KEY [.node kk kc] :: ws) _ f (by rw [nodesOf, if_neg (by simp)]; exact nodesOf_ws _ ws h1)]
    rw [formatFirst, if_pos rfl, formatNode]
    simp [formatNodes]
  have e3 : ∀ f, formatFirst ind .KEY (.node .KEY [.node kk kc] :: ws ++ .node .VALUE [.node vk vc] :: ws') f =
      formatNode ind (.node kk kc) f := by
    intro f
    rw [List.cons_append, formatFirst, if_pos rfl, formatNode]
    simp [formatNodes, formatScalarTokens]
  refine ⟨fun f => ?_, ?_, ?_, ?_⟩
  · rw [formatNode.eq_def]
    simp only [e1, e2, e3, Option.isSome_some, if_true]
  · rw [blockL_append, containsBlockL, containsBlockL, blockL_ws h1, blockL_ws h2, block_node (by simp), block_node (by simp),
      blockL_one, blockL_one, Bool.or_false, Bool.or_false]
  · rw [isBlockEntry, e1]
    simp [containsBlockL]
  · rfl

theorem lone_facts {gk : Green} {cs : List Green} (hp : LoneNode gk cs) (hk : ∃ k c, gk = .node k c) :
    (∀ f, formatNode ind (.node .ENTRY cs) f = formatNode ind gk f) ∧
    containsBlockL cs = containsBlock gk ∧ isBlockEntry cs = false ∧
    isSchemaDeclaration cs = isSchemaDeclaration [.node .KEY [gk]] := by
  obtain ⟨ws, rfl, h1⟩ := hp
  obtain ⟨kk, kc, rfl⟩ := hk
  have e1 : entryValue (.node .KEY [.node kk kc] :: ws) = none := by
    rw [entryValue, nodesOf, if_neg (by simp), nodesOf_ws _ ws h1]
    simp
  have e3 : ∀ f, formatFirst ind .KEY (.node .KEY [.node kk kc] :: ws) f = formatNode ind (.node kk kc) f := by
    intro f
    rw [formatFirst, if_pos rfl, formatNode]
    simp [formatNodes, formatScalarTokens]
  refine ⟨fun f => ?_, ?_, ?_, ?_⟩
  · rw [formatNode.eq_def]
    simp only [e1, e3, Option.isSome_none, Bool.false_eq_true, if_false]
  · rw [containsBlockL, blockL_ws h1, block_node (by simp), blockL_one, Bool.or_false]
  · rw [isBlockEntry, e1]
  · rfl

theorem pair_same {kt : List Char} {gk gk' gv gv' : Green} {cs cs' : List Green} (hk : KeyNode kt gk) (hk' : KeyNode kt gk')
    (hv : Same ind gv gv') (hn : ∃ k c, gv = .node k c) (hp : PairNode gk gv cs) (hp' : PairNode gk' gv' cs') :
    EntSame ind cs cs' := by
  obtain ⟨s, hb, hs⟩ := key_same (ind := ind) hk hk'
  obtain ⟨a1, a2, a3, a4⟩ := pair_facts (ind := ind) hp (keyNode_node hk) hn
  obtain ⟨b1, b2, b3, b4⟩ := pair_facts (ind := ind) hp' (keyNode_node hk') hv.node
  refine ⟨fun f => ?_, ?_, ?_, ?_⟩
  · rw [a1, b1, s.fmt, hv.fmt]
  · rw [a2, b2, s.block, hv.block]
  · rw [a3, b3, hv.block]
  · rw [a4, b4, hs]

theorem lone_same {kt : List Char} {gk gk' : Green} {cs cs' : List Green} (hk : KeyNode kt gk) (hk' : KeyNode kt gk')
    (hp : LoneNode gk cs) (hp' : LoneNode gk' cs') : EntSame ind cs cs' := by
  obtain ⟨s, hb, hs⟩ := key_same (ind := ind) hk hk'
  obtain ⟨a1, a2, a3, a4⟩ := lone_facts (ind := ind) hp (keyNode_node hk)
  obtain ⟨b1, b2, b3, b4⟩ := lone_facts (ind := ind) hp' (keyNode_node hk')
  refine ⟨fun f => ?_, ?_, ?_, ?_⟩
  · rw [a1, b1, s.fmt]
  · rw [a2, b2, s.block]
  · rw [a3, b3]
  · rw [a4, b4, hs]

theorem item_same {c c' : List Green} (h : ItemSame ind c c') :
    (∀ f, formatItem ind c' f = formatItem ind c f) ∧ containsBlockL c' = containsBlockL c ∧
      isTagWithBlock c' = isTagWithBlock c := by
  obtain ⟨g, g', rfl, rfl, ⟨h1, h2, h3, k', x', rfl⟩, k, x, rfl⟩ := h
  refine ⟨fun f => ?_, ?_, h3⟩
  · rw [formatItem_key, formatItem_key, h1]
  · rw [blockL_one, blockL_one, block_node (by simp), block_node (by simp), blockL_one, blockL_one, h2]

/-! ## Attributes -/

/-- Two attributes that are written in the same way. -/
structure AttrSame (ind : List Char) (c c' : List Green) : Prop where
  fmt : ∀ f, formatAttribute ind c' f = formatAttribute ind c f
  block : containsBlockL c' = containsBlockL c

theorem attr_same {k : List Char} {g g' : Green} (h : Same ind g g') (hg : ∃ k c, g = .node k c) :
    AttrSame ind [.token .BARE_SCALAR k, .token .GT ['>'], g] [.token .BARE_SCALAR k, .token .GT ['>'], g'] := by
  obtain ⟨h1, h2, -, k', c', rfl⟩ := h
  obtain ⟨k, c, rfl⟩ := hg
  refine ⟨fun f => ?_, ?_⟩
  · simp only [formatAttribute, h1]
  · simp only [containsBlockL, h2]

theorem formatAttributes_run : ∀ (gs : List Green) (f : Fmt),
    formatAttributes ind gs f = runInline ind (formatAttribute ind) [' '] (nodesOf .ATTRIBUTE gs) f
  | [], f => by rw [formatAttributes, nodesOf, runInline]
  | .token _ _ :: gs, f => by rw [formatAttributes, nodesOf, formatAttributes_run gs]
  | .node k cs :: gs, f => by
    rw [formatAttributes, nodesOf]
    split
    · rw [formatAttributes_run gs]
      cases h : nodesOf .ATTRIBUTE gs with
      | nil => simp [runInline]
      | cons a as => simp [runInline]
    · exact formatAttributes_run gs f

/-- Whether there is a block, from the nodes of one kind. -/
theorem blockL_nodes {k : SyntaxKind} (hk : k ≠ .OBJECT) : ∀ (cs : List Green), (∀ g ∈ cs, ∀ k' c, g = .node k' c → k' = k) →
    containsBlockL cs = (nodesOf k cs).any containsBlockL
  | [], _ => by simp [containsBlockL, nodesOf]
  | .token _ _ :: gs, h => by
    rw [containsBlockL, containsBlock, nodesOf, blockL_nodes hk gs fun x hx => h x (by simp [hx])]
    rfl
  | .node k' cs :: gs, h => by
    obtain rfl := h (.node k' cs) (by simp) _ _ rfl
    rw [containsBlockL, containsBlock, nodesOf, if_pos rfl, List.any_cons, blockL_nodes hk gs fun x hx => h x (by simp [hx])]
    cases hb : (k' == SyntaxKind.OBJECT) with
    | false => simp
    | true => exact absurd (by simpa using hb) hk

theorem all2_any {α β : Type} {R : α → β → Prop} {p : α → Bool} {q : β → Bool} (hR : ∀ a b, R a b → q b = p a) {as : List α}
    {bs : List β} (h : All2 R as bs) : bs.any q = as.any p := by
  induction h with
  | nil => rfl
  | cons h1 _ ih => rw [List.any_cons, List.any_cons, ih, hR _ _ h1]

theorem attributes_same {cs gs : List Green} (hc : ∀ g ∈ cs, IsWs g ∨ ∃ c, g = .node .ATTRIBUTE c)
    (hg : ∀ g ∈ gs, IsWs g ∨ ∃ c, g = .node .ATTRIBUTE c)
    (h : All2 (AttrSame ind) (nodesOf .ATTRIBUTE cs) (nodesOf .ATTRIBUTE gs)) :
    Same ind (.node .ATTRIBUTES cs) (.node .ATTRIBUTES gs) := by
  have one : ∀ (cs : List Green), (∀ g ∈ cs, IsWs g ∨ ∃ c, g = .node .ATTRIBUTE c) →
      ∀ g ∈ cs, ∀ k' c, g = .node k' c → k' = .ATTRIBUTE := by
    rintro cs h g hg k c rfl
    rcases h _ hg with ⟨t, h⟩ | ⟨c', h⟩
    · cases h
    · cases h; rfl
  refine ⟨fun f => ?_, ?_, rfl, _, _, rfl⟩
  · rw [formatNode, formatNode, formatAttributes_run, formatAttributes_run]
    exact runInline_congr (fun c c' h => h.fmt) h f
  · rw [containsBlock, containsBlock, blockL_nodes (by simp) cs (one cs hc), blockL_nodes (by simp) gs (one gs hg)]
    rw [all2_any (fun a b h => h.block) h]
    rfl

end Styx.Cst
