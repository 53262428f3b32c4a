import Verif.Tree.SpanLemmas

/-!
# C72: the places noted in a document tree

A tree read from a source notes for every node, tag and payload the bytes of the source it stands for.
`Tree/SpanSpec.lean` says what the nodes and places are.
-/

namespace Styx.Props

open Styx Styx.Spec

/-- **C72**, the places are in the source: every place noted anywhere in the tree of a source covers some
text of the source; in particular it starts and ends between characters and can be sliced. -/
theorem C72_in_source (source : List Char) (v : Value) (sp : Span) (h : parseTree source = some (.ok v))
    (hn : NotesInside v sp) : ∃ text, Covers source sp text := by
  obtain ⟨w, h1, h2⟩ := hn
  rcases tree_placed h h1 with rfl | hp
  · obtain ⟨es, rfl, _⟩ := parseTree_std h
    rcases h2 with h2 | ⟨t, h2, _⟩ | ⟨p, h2, h3⟩
    · cases h2
    · cases h2
    · cases h2; cases h3
  · obtain ⟨t, a, b, ht⟩ := spanOK_text (hp.ok sp h2).1
    exact ⟨t, a, b, ht⟩

/-- **C72**, nothing is without a place: every node below the root notes a place of its own, its payload
notes the same one, and its tag notes one. -/
theorem C72_noted (source : List Char) (v w : Value) (h : parseTree source = some (.ok v)) (hw : Node w v)
    (hr : w ≠ v) :
    (∃ sp, w.span = some sp ∧ ∀ p, w.payload = some p → payloadPlace p = some sp) ∧
    ∀ t, w.tag = some t → ∃ sp, t.span = some sp := by
  rcases tree_placed h hw with rfl | hp
  · exact absurd rfl hr
  · obtain ⟨sp, h1, h2, _⟩ := hp.own
    exact ⟨⟨sp, h1, h2⟩, fun t ht => let ⟨sp, g, _⟩ := hp.tag t ht; ⟨sp, g⟩⟩

/-- **C72**, the places of scalars say what the source says: the source has at the place of a bare key or
value without a tag exactly its text; at the place of a quoted one it has a quoted text that stands for
it (unless that text has an escape that stands for nothing, which the parser lets through in some cases,
see C08); at the place of a raw string it has a raw string that stands for it (unless the source has 256
hashes in a row somewhere, see C07); at the place of a heredoc it has a heredoc that stands for it. -/
theorem C72_text (source : List Char) (v : Value) (text : List Char) (k : ScalarKind) (sp : Span)
    (psp : Option Span) (h : parseTree source = some (.ok v))
    (hw : Node (.mk none (some (.scalar text k psp)) (some sp)) v) :
    (k = .bare → Covers source sp text) ∧
    (k = .quoted → ∃ raw, Covers source sp ('"' :: raw ++ ['"']) ∧
      (Escaped raw text ∨ ¬ ∃ t, Escaped raw t)) ∧
    (k = .raw → (∃ t, Covers source sp t ∧ RawFor t text) ∨ List.replicate 256 '#' <:+: source) ∧
    (k = .heredoc → ∃ t, Covers source sp t ∧ HeredocFor t text) := by
  rcases tree_placed h hw with h1 | hp
  · obtain ⟨es, h2, _⟩ := parseTree_std h
    rw [h2] at h1; cases h1
  · obtain ⟨sp', h1, _, h2⟩ := hp.own
    cases h1
    exact h2 text k psp rfl rfl

/-- **C72**, the places of tags: the source has at the place of a tag an `@`, the tag's name and then its
payload. -/
theorem C72_tag (source : List Char) (v w : Value) (t : Tag) (sp : Span) (h : parseTree source = some (.ok v))
    (hw : Node w v) (ht : w.tag = some t) (hs : t.span = some sp) :
    ∃ payload, Covers source sp ('@' :: t.name ++ payload) := by
  rcases tree_placed h hw with rfl | hp
  · obtain ⟨es, rfl, _⟩ := parseTree_std h
    cases ht
  · obtain ⟨sp', h1, h2, h3⟩ := hp.tag t ht
    rw [hs] at h1
    cases h1
    have hok := (hp.ok sp (.inr (.inl ⟨t, ht, hs⟩))).1
    obtain ⟨r, hr⟩ := spanOK_text (s := source) (sp := ⟨sp.start + 1 + utf8Len t.name, sp.stop⟩)
      ⟨h2, h3.spanOK.2.2, hok.2.2⟩
    obtain ⟨a, b, g1, g2, g3⟩ := h3.join rfl hr
    exact ⟨r, a, b, g1, g2, g3⟩

/-- **C72**, the places are in order: in every object of a tree, whatever is noted in an earlier entry ends
before anything noted in a later entry starts. -/
theorem C72_order_entries (source : List Char) (v : Value) (t : Option Tag) (psp osp : Option Span)
    (a b c : List Entry) (e1 e2 : Entry) (sp1 sp2 : Span) (h : parseTree source = some (.ok v))
    (hw : Node (.mk t (some (.object (a ++ e1 :: b ++ e2 :: c) psp)) osp) v) (h1 : EntryNotes e1 sp1)
    (h2 : EntryNotes e2 sp2) : sp1.stop ≤ sp2.start := by
  obtain ⟨es, rfl, hr⟩ := parseTree_std h
  rcases tree_sort h hw with hv | hs | ⟨e, sp, hv⟩
  · cases hv
    exact hr.ordered h1 h2
  · rcases hs with ⟨lo, hi, hs⟩ | ⟨lo, ksp, hs⟩ | ⟨sp, hs⟩
    · cases osp with
      | none => exact hs.elim
      | some sp => exact (hs.2.2.2.2.2).root.ordered h1 h2
    · rcases hs.2.2.2.2 with hs | ⟨_, _, hs, _⟩ <;> cases hs
    · cases hs
  · simp only [Value.mk.injEq, Option.some.injEq, Payload.object.injEq] at hv
    have := congrArg List.length hv.2.1.1
    simp at this
    omega

/-- **C72**, the places are in order: in every sequence of a tree, whatever is noted in an earlier item
ends before anything noted in a later item starts. -/
theorem C72_order_items (source : List Char) (v : Value) (t : Option Tag) (psp osp : Option Span)
    (a b c : List Value) (v1 v2 : Value) (sp1 sp2 : Span) (h : parseTree source = some (.ok v))
    (hw : Node (.mk t (some (.sequence (a ++ v1 :: b ++ v2 :: c) psp)) osp) v) (h1 : NotesInside v1 sp1)
    (h2 : NotesInside v2 sp2) : sp1.stop ≤ sp2.start := by
  obtain ⟨es, rfl, hr⟩ := parseTree_std h
  rcases tree_sort h hw with hv | hs | ⟨e, sp, hv⟩
  · cases hv
  · rcases hs with ⟨lo, hi, hs⟩ | ⟨lo, ksp, hs⟩ | ⟨sp, hs⟩
    · cases osp with
      | none => exact hs.elim
      | some sp => exact (hs.2.2.2.2.2).ordered h1 h2
    · rcases hs.2.2.2.2 with hs | ⟨_, _, hs, _⟩ <;> cases hs
    · cases hs
  · cases hv

/-- **C72**, what is inside is inside: in the tree of a source without dotted keys at the root, everything
noted inside a node is in that node's place.  Missing for the full property: dotted keys, for which it is
false (`C72_nested_false`). -/
theorem C72_nested_partial (source : List Char) (es : List Entry) (w x : Value) (sp sp' : Span)
    (h : parseTree source = some (.ok (.mk none (some (.object es none)) none))) (hu : Undotted es)
    (hw : Node w (.mk none (some (.object es none)) none)) (hs : w.span = some sp) (hc : Child x w)
    (hn : NotesInside x sp') : sp.start ≤ sp'.start ∧ sp'.stop ≤ sp.stop := by
  obtain ⟨es', hes, hr⟩ := parseTree_std h
  cases hes
  obtain ⟨y, h1, h2⟩ := hn
  rcases undotted_sort hr hu hw with rfl | hs3
  · cases hs
  · rcases hs3 with ⟨lo, hi, hs3⟩ | ⟨lo, ksp, hs3⟩ | ⟨sp, rfl⟩
    · obtain ⟨sp0, g1, g2, g3, g4⟩ := hs3.child hc
      rw [hs] at g1
      cases g1
      have : Placed source sp.start sp.stop y := by
        rcases g4 with ⟨ksp, k1, k2⟩ | ⟨ksp, k1, k2, k3, rfl⟩ | g
        · rw [k1.node h1]; exact k1.placed k2
        · rw [unit_node h1]; exact unit_placed k1 k2 k3
        · exact Std.node h1 g
      exact (this.ok sp' h2).2
    · obtain ⟨t, p, wsp⟩ := w
      rcases hs3.2.2.2.2 with rfl | ⟨_, _, rfl, _⟩ <;> cases hc
    · cases hc

/-- **C72**, keys stand before their values: in the tree of a source without dotted keys at the root, the
value of an entry is a unit that notes the place of the key, for a value that is not written, or whatever
is noted in the key ends before anything noted in the value starts.  Missing for the full property: dotted
keys, for which it is false (`C72_key_value_false`). -/
theorem C72_key_value_partial (source : List Char) (es : List Entry) (t : Option Tag) (es' : List Entry)
    (psp osp : Option Span) (k v : Value) (d : Option (List Char))
    (h : parseTree source = some (.ok (.mk none (some (.object es none)) none))) (hu : Undotted es)
    (hw : Node (.mk t (some (.object es' psp)) osp) (.mk none (some (.object es none)) none))
    (he : Entry.mk k v d ∈ es') :
    v = .mk none none k.span ∨ ∀ sp sp', NotesInside k sp → NotesInside v sp' → sp.stop ≤ sp'.start := by
  obtain ⟨es0, hes, hr⟩ := parseTree_std h
  cases hes
  have key : ∀ lo hi, EntriesStd source lo hi es' → v = .mk none none k.span ∨
      ∀ sp sp', NotesInside k sp → NotesInside v sp' → sp.stop ≤ sp'.start := by
    intro lo hi hs
    obtain ⟨ksp, g1, g2, g3⟩ := hs.mem he
    have hk : k.span = some ksp := by obtain ⟨kt, kp, ks⟩ := k; exact g1.1
    rcases g3 with rfl | g3
    · exact .inl (by rw [hk])
    · right
      rintro sp sp' ⟨w, h1, h2⟩ ⟨w', h3, h4⟩
      rw [g1.node h1] at h2
      have p1 := (g1.placed (Nat.le_refl _)).ok sp h2
      have p2 := (Std.node h3 g3).ok sp' h4
      omega
  rcases undotted_sort hr hu hw with hv | hs3
  · cases hv
    exact key _ _ (undotted_entries hr hu)
  · rcases hs3 with ⟨lo, hi, hs⟩ | ⟨lo, ksp, hs⟩ | ⟨sp, hs⟩
    · cases osp with
      | none => exact hs.elim
      | some sp => exact key _ _ hs.2.2.2.2.2
    · rcases hs.2.2.2.2 with hs | ⟨_, _, hs, _⟩ <;> cases hs
    · cases hs

/-- The tree of `a.b 1`. -/
def dottedTree : Value :=
  .mk none (some (.object [.mk (.mk none (some (.scalar ['a'] .bare (some ⟨0, 1⟩))) (some ⟨0, 1⟩))
    (.mk none (some (.object [.mk (.mk none (some (.scalar ['b'] .bare (some ⟨2, 3⟩))) (some ⟨2, 3⟩))
      (.mk none (some (.scalar ['1'] .bare (some ⟨4, 5⟩))) (some ⟨4, 5⟩)) none] (some ⟨0, 3⟩))) (some ⟨0, 3⟩))
    none] none)) none

theorem dottedTree_parsed : parseTree (chars! "a.b 1") = some (.ok dottedTree) := by rfl

/-- **C72** is false as a whole: the object that `a.b 1` puts under `a` notes the place of the key `a.b`, and
the value `1` inside it stands after that place. -/
theorem C72_nested_false : ∃ source v w x sp sp', parseTree source = some (.ok v) ∧ Node w v ∧
    w.span = some sp ∧ Child x w ∧ NotesInside x sp' ∧ sp.stop < sp'.start :=
  ⟨_, _, _, _, ⟨0, 3⟩, ⟨4, 5⟩, dottedTree_parsed, .inside (.value (List.mem_cons_self ..)) .self, rfl,
    .value (List.mem_cons_self ..), ⟨_, .self, .inl rfl⟩, by decide⟩

/-- **C72** is false as a whole: the object that `a.b 1` puts under `a` starts where its key does. -/
theorem C72_key_value_false : ∃ source es k v d ksp vsp,
    parseTree source = some (.ok (.mk none (some (.object es none)) none)) ∧ Entry.mk k v d ∈ es ∧
    v.payload ≠ none ∧ k.span = some ksp ∧ v.span = some vsp ∧ vsp.start < ksp.stop :=
  ⟨_, _, _, _, _, ⟨0, 1⟩, ⟨0, 3⟩, dottedTree_parsed, List.mem_cons_self .., by simp [Value.payload], rfl, rfl,
    by decide⟩

/-- **C72**, a limit: the place a value with a tag notes is that of its payload only, and does not have the
tag: `x @t(1)` notes the bytes 4 to 7 for the value and 2 to 7 for its tag. -/
theorem C72_tag_outside : ∃ source es k v d t sp tsp,
    parseTree source = some (.ok (.mk none (some (.object es none)) none)) ∧ Entry.mk k v d ∈ es ∧
    v.tag = some t ∧ v.span = some sp ∧ t.span = some tsp ∧ tsp.start < sp.start :=
  ⟨chars! "x @t(1)", [.mk (.mk none (some (.scalar ['x'] .bare (some ⟨0, 1⟩))) (some ⟨0, 1⟩))
    (.mk (some ⟨['t'], some ⟨2, 7⟩⟩) (some (.sequence [.mk none (some (.scalar ['1'] .bare (some ⟨5, 6⟩)))
      (some ⟨5, 6⟩)] (some ⟨4, 7⟩))) (some ⟨4, 7⟩)) none], _, _, _, _, ⟨4, 7⟩, ⟨2, 7⟩, by rfl,
    List.mem_cons_self .., rfl, rfl, rfl, by decide⟩

/-- The tree of `k {a "é"} s (1 2)` on two lines. -/
def nestedTree : Value :=
  .mk none (some (.object [
    .mk (.mk none (some (.scalar ['k'] .bare (some ⟨0, 1⟩))) (some ⟨0, 1⟩))
      (.mk none (some (.object [.mk (.mk none (some (.scalar ['a'] .bare (some ⟨3, 4⟩))) (some ⟨3, 4⟩))
        (.mk none (some (.scalar ['é'] .quoted (some ⟨5, 9⟩))) (some ⟨5, 9⟩)) none] (some ⟨2, 10⟩))) (some ⟨2, 10⟩)) none,
    .mk (.mk none (some (.scalar ['s'] .bare (some ⟨11, 12⟩))) (some ⟨11, 12⟩))
      (.mk none (some (.sequence [.mk none (some (.scalar ['1'] .bare (some ⟨14, 15⟩))) (some ⟨14, 15⟩),
        .mk none (some (.scalar ['2'] .bare (some ⟨16, 17⟩))) (some ⟨16, 17⟩)] (some ⟨13, 18⟩))) (some ⟨13, 18⟩)) none]
    none)) none

theorem nestedTree_parsed : parseTree (chars! "k {a \"é\"}\ns (1 2)") = some (.ok nestedTree) := by rfl

/-! The hypotheses of the theorems are met by this document. -/

example : ∃ text, Covers (chars! "k {a \"é\"}\ns (1 2)") ⟨5, 9⟩ text :=
  C72_in_source _ _ _ nestedTree_parsed ⟨_, .inside (.value (List.mem_cons_self ..))
    (.inside (.value (List.mem_cons_self ..)) .self), .inl rfl⟩

example : Undotted (match nestedTree with | .mk _ (some (.object es _)) _ => es | _ => []) := by
  intro k v d ksp vsp hm h1 h2 _
  simp only [nestedTree, List.mem_cons, List.not_mem_nil, or_false] at hm
  rcases hm with hm | hm <;> cases hm <;> cases h1 <;> cases h2 <;> decide

example : (⟨14, 15⟩ : Span).stop ≤ (⟨16, 17⟩ : Span).start :=
  C72_order_items _ _ none _ _ [] [] [] _ _ _ _ nestedTree_parsed
    (.inside (.value (List.mem_cons_of_mem _ (List.mem_cons_self ..))) .self) ⟨_, .self, .inl rfl⟩ ⟨_, .self, .inl rfl⟩

example : (⟨5, 9⟩ : Span).stop ≤ (⟨16, 17⟩ : Span).start :=
  C72_order_entries _ _ none _ _ [] [] [] _ _ _ _ nestedTree_parsed .self
    (.inr ⟨_, .inside (.value (List.mem_cons_self ..)) .self, .inl rfl⟩)
    (.inr ⟨_, .inside (.item (List.mem_cons_of_mem _ (List.mem_cons_self ..))) .self, .inl rfl⟩)

example : Covers (chars! "k {a \"é\"}\ns (1 2)") ⟨3, 4⟩ ['a'] :=
  (C72_text _ _ _ _ _ _ nestedTree_parsed (.inside (.value (List.mem_cons_self ..))
    (.inside (.key (List.mem_cons_self ..)) .self))).1 rfl

/-- The tree of a heredoc and a raw string. -/
def verbatimTree : Value :=
  .mk none (some (.object [
    .mk (.mk none (some (.scalar ['h'] .bare (some ⟨0, 1⟩))) (some ⟨0, 1⟩))
      (.mk none (some (.scalar ['a', '\n'] .heredoc (some ⟨2, 11⟩))) (some ⟨2, 11⟩)) none,
    .mk (.mk none (some (.scalar ['k'] .bare (some ⟨12, 13⟩))) (some ⟨12, 13⟩))
      (.mk none (some (.scalar ['"'] .raw (some ⟨14, 20⟩))) (some ⟨14, 20⟩)) none] none)) none

theorem verbatimTree_parsed : parseTree (chars! "h <<X\n a\n X\nk r#\"\"\"#") = some (.ok verbatimTree) := by rfl

example : ∃ t, Covers (chars! "h <<X\n a\n X\nk r#\"\"\"#") ⟨2, 11⟩ t ∧ HeredocFor t ['a', '\n'] :=
  (C72_text _ _ _ _ _ _ verbatimTree_parsed (.inside (.value (List.mem_cons_self ..)) .self)).2.2.2 rfl

example : Covers (chars! "h <<X\n a\n X\nk r#\"\"\"#") ⟨14, 20⟩ (chars! "r#\"\"\"#") :=
  ⟨chars! "h <<X\n a\n X\nk ", [], rfl, rfl, rfl⟩

end Styx.Props
