import Verif.Lsp.ContextLemmas
import Verif.Props.Cursor
import Verif.Props.Text

/-!
# C74: the object and the tagged value around the cursor

`findObject` and `findTagged` model the lookups behind completion; `taggedCalls` counts the calls of the
second.  `Lsp/ContextSpec.lean` says what it means to be around the cursor.
-/

namespace Styx.Props

open Styx Styx.Spec Styx.Lsp

/-- **C74**, an object is always found, and it is around the cursor: for every source and cursor, the
context is an object of the tree with its entries and its path, it is the root or the cursor touches it, and
the cursor touches none of the objects right inside. -/
theorem C74_object (source : List Char) (v : Value) (off : Nat) (h : parseTree source = some (.ok v)) :
    ∃ ctx x, findObject off [] v = some ctx ∧ ThroughObjects x v ctx.path ∧
      x.payload = some (.object ctx.entries ctx.span) ∧ (x = v ∨ Touches off x.span) ∧
      ∀ k y d, Entry.mk k y d ∈ ctx.entries → y.asObject ≠ none → ¬ Touches off y.span := by
  have he := tree_even h
  obtain ⟨es, rfl, _⟩ := parseTree_std h
  obtain ⟨ctx, h1, x, p, h2, h3, h4, _, h5, h6⟩ :=
    findObject_around off (.mk none (some (.object es none)) none) [] he (by simp [Value.asObject]) (.inl rfl)
  rw [List.nil_append] at h2
  subst h2
  exact ⟨ctx, x, h1, h3, h4, h5, h6⟩

/-- **C74**, no object further inside is missed, for sources without dotted keys at the root: with the cursor
behind the opening brace of an object that is reached through objects, the context is this object or one
inside it.  Missing for the full property: objects in sequences and of dotted keys, for which it is false
(`C74_sequence_false`, `C74_dotted_false`). -/
theorem C74_closest_partial (source : List Char) (es es' : List Entry) (o : Option Span) (off : Nat) (x : Value)
    (p : List (List Char)) (h : parseTree source = some (.ok (.mk none (some (.object es none)) none)))
    (hu : Undotted es) (hx : ThroughObjects x (.mk none (some (.object es none)) none) p)
    (hp : x.payload = some (.object es' o)) (hb : Behind off x.span) :
    ∃ ctx z q, findObject off [] (.mk none (some (.object es none)) none) = some ctx ∧ ctx.path = p ++ q ∧
      ThroughObjects z x q ∧ z.payload = some (.object ctx.entries ctx.span) := by
  have he := tree_even h
  obtain ⟨_, hes, hr⟩ := parseTree_std h
  cases hes
  have hlaid : LaidNode source (.mk none (some (.object es none)) none) :=
    ⟨fun es' o hp => by cases hp; exact ⟨_, _, undotted_entries hr hu⟩, fun _ _ hp => (nomatch hp)⟩
  have ho : x.asObject ≠ none := by
    obtain ⟨t, pl, sp⟩ := x
    simp only [Value.payload] at hp
    subst hp
    simp [Value.asObject]
  obtain ⟨ctx, h1, z, q, h2, h3, h4, _⟩ := findObject_around off x ([] ++ p)
    (fun w hw => he w (by
      have := through_node hx
      clear hx hp hb hlaid ho he hr hu h
      generalize Value.mk none (some (.object es none)) none = r at this
      induction this with
      | self => exact hw
      | inside hc _ ih => exact .inside hc (ih))) ho
    (.inr (behind_touches hb))
  exact ⟨ctx, z, q, through_find hx [] ctx hlaid he (.inl rfl) ho hb h1, by simpa using h2, h3, h4⟩

/-- **C74** is false for objects in sequences: in `s ({a 1})`, with the cursor in the inner object, the
context is the root. -/
theorem C74_sequence_false : ∃ source v off x es o ctx, parseTree source = some (.ok v) ∧ Node x v ∧
    x.payload = some (.object es o) ∧ Behind off x.span ∧ findObject off [] v = some ctx ∧ ctx.path = [] ∧
    ctx.span = none :=
  ⟨chars! "s ({a 1})", .mk none (some (.object [.mk (.mk none (some (.scalar ['s'] .bare (some ⟨0, 1⟩))) (some ⟨0, 1⟩))
    (.mk none (some (.sequence [.mk none (some (.object [.mk (.mk none (some (.scalar ['a'] .bare (some ⟨4, 5⟩)))
      (some ⟨4, 5⟩)) (.mk none (some (.scalar ['1'] .bare (some ⟨6, 7⟩))) (some ⟨6, 7⟩)) none] (some ⟨3, 8⟩)))
      (some ⟨3, 8⟩)] (some ⟨2, 9⟩))) (some ⟨2, 9⟩)) none] none)) none, 5, _, _, _, _, by rfl,
    .inside (.value (List.mem_cons_self ..)) (.inside (.item (List.mem_cons_self ..)) .self), rfl,
    ⟨⟨3, 8⟩, rfl, by decide, by decide⟩, rfl, rfl, rfl⟩

/-- **C74** is false for dotted keys: in `a.b {c 1}`, with the cursor in the object, the context is the
root. -/
theorem C74_dotted_false : ∃ source v off x p es o ctx, parseTree source = some (.ok v) ∧ ThroughObjects x v p ∧
    x.payload = some (.object es o) ∧ Behind off x.span ∧ findObject off [] v = some ctx ∧ ctx.path = [] ∧
    ctx.span = none :=
  ⟨chars! "a.b {c 1}", .mk none (some (.object [.mk (.mk none (some (.scalar ['a'] .bare (some ⟨0, 1⟩))) (some ⟨0, 1⟩))
    (.mk none (some (.object [.mk (.mk none (some (.scalar ['b'] .bare (some ⟨2, 3⟩))) (some ⟨2, 3⟩))
      (.mk none (some (.object [.mk (.mk none (some (.scalar ['c'] .bare (some ⟨5, 6⟩))) (some ⟨5, 6⟩))
        (.mk none (some (.scalar ['1'] .bare (some ⟨7, 8⟩))) (some ⟨7, 8⟩)) none] (some ⟨4, 9⟩))) (some ⟨4, 9⟩)) none]
      (some ⟨0, 3⟩))) (some ⟨0, 3⟩)) none] none)) none, 6, _, _, _, _, _, by rfl,
    .entry (List.mem_cons_self ..) (.entry (List.mem_cons_self ..) .here), rfl,
    ⟨⟨4, 9⟩, rfl, by decide, by decide⟩, rfl, rfl, rfl⟩

/-- **C74**, what is found is a tagged value around the cursor, for every source and cursor. -/
theorem C74_tag (source : List Char) (v w : Value) (off : Nat) (h : parseTree source = some (.ok v))
    (hw : findTagged off none v = some w) : Node w v ∧ w.tag ≠ none ∧ Touches off w.span := by
  rcases findTagged_sound off v none w hw with h' | ⟨h1, h2, h3⟩
  · cases h'
  · refine ⟨h1, h2, ?_⟩
    rcases h3 with h3 | h3
    · exfalso
      rcases tree_placed h h1 with rfl | hp
      · obtain ⟨es, rfl, _⟩ := parseTree_std h
        exact h2 rfl
      · obtain ⟨sp, h4, _⟩ := hp.own
        rw [h3] at h4
        cases h4
    · exact h3

/-- **C74**, no tagged value further inside is missed, for sources without dotted keys at the root: with the
cursor behind the first byte of the payload of a tagged value, at any depth, this value is found or one inside
it. -/
theorem C74_tag_closest_partial (source : List Char) (es : List Entry) (off : Nat) (x : Value) (p : List Seg)
    (h : parseTree source = some (.ok (.mk none (some (.object es none)) none))) (hu : Undotted es)
    (hx : LeadsTo x (.mk none (some (.object es none)) none) p) (ht : x.tag ≠ none) (hb : Behind off x.span) :
    ∃ w, findTagged off none (.mk none (some (.object es none)) none) = some w ∧ Node w x := by
  obtain ⟨_, hes, hr⟩ := parseTree_std h
  cases hes
  exact tagged_find hx none
    ⟨fun es' o hp => by cases hp; exact ⟨_, _, undotted_entries hr hu⟩, fun _ _ hp => (nomatch hp)⟩
    (.inl rfl) ht hb

/-! ## The cost of looking for a tagged value -/

/-- Objects in objects. -/
def deep : Nat → Value
  | 0 => .mk none (some (.object [] none)) none
  | n + 1 => .mk none (some (.object [.mk (scalarValue ['a'] .bare) (deep n) none] none)) none

/-- Their text: `{a {a … {} … }}`. -/
def deepText : Nat → List Char
  | 0 => ['{', '}']
  | n + 1 => '{' :: 'a' :: ' ' :: (deepText n ++ ['}'])

theorem deep_text : ∀ n, ValueText (deep n) .closed (deepText n)
  | 0 => .object (.nil (g := []) .nil) .nil
  | n + 1 => by
    have := EntriesText.cons (g := []) (dt := []) (ls := []) (b := [' ']) (tr := []) .nil .nil
      (.scalar (.bare (bareText_of_ok (s := ['a']) rfl)) (by simp)) (by simp [Blanks, Blank]) (by simp) (deep_text n) .none
      (.nil (g := []) .nil) trivial (by
        rw [EntryEnd, if_pos rfl]
        exact ⟨[], ['}'], rfl, by simp [Blanks], .inr ⟨'}', [], rfl, .inr rfl⟩⟩)
    have := ValueText.object this (by simp [DistinctKeys])
    simpa [deepText, deep, docOf] using this

theorem deepText_length (n : Nat) : (deepText n).length = 4 * n + 2 := by
  induction n with
  | zero => rfl
  | succ n ih => simp [deepText, ih]; omega

/-- Every tree that is `deep n` up to places has a byte at which looking for a tagged value takes at least
`2 ^ n` calls and finds nothing. -/
theorem deep_calls {s : List Char} : ∀ (n : Nat) {lo hi : Nat} {v : Value}, Std s lo hi v → erase v = deep n →
    ∃ off, Touches off v.span ∧ findTagged off none v = none ∧ 2 ^ n ≤ taggedCalls off none v
  | 0, lo, hi, .mk t p sp, h, he => by
    cases sp with
    | none => exact h.elim
    | some sp =>
      have ht : t = none := by
        cases t with
        | none => rfl
        | some t => simp [erase, deep] at he
      subst ht
      match p, he with
      | some (.object es o), he =>
        have hes : es = [] := by
          cases es with
          | nil => rfl
          | cons e es => obtain ⟨k, v, d⟩ := e; simp [erase, erasePayload, deep, eraseEntries] at he
        subst hes
        refine ⟨sp.start, ⟨sp, rfl, Nat.le_refl _, h.1.le⟩, ?_, ?_⟩
        · rw [findTagged]; simp [findTaggedEntries]
        · rw [taggedCalls]; split <;> simp [findTaggedEntries, taggedCallsEntries]
      | some (.sequence _ _), he => simp [erase, erasePayload, deep] at he
      | some (.scalar _ _ _), he => simp [erase, erasePayload, deep] at he
      | none, he => simp [erase, erasePayload, deep] at he
  | n + 1, lo, hi, .mk t p sp, h, he => by
    cases sp with
    | none => exact h.elim
    | some sp =>
      have ht : t = none := by
        cases t with
        | none => rfl
        | some t => simp [erase, deep] at he
      subst ht
      match p, he with
      | some (.object [.mk k y d] o), he =>
        simp only [erase, erasePayload, eraseEntries, deep, Value.mk.injEq, Option.some.injEq, Payload.object.injEq,
          List.cons.injEq, Entry.mk.injEq] at he
        have hy : erase y = deep n := he.2.1.1.1.2.1
        obtain ⟨h1, h2, h3, _, h5, ksp, m, h6, h7, h8⟩ := h
        have hle : m ≤ sp.stop := h8
        rcases h7 with ⟨rfl, _⟩ | h7
        · cases n <;> simp [erase, erasePayload, deep] at hy
        · obtain ⟨off, g1, g2, g3⟩ := deep_calls n h7 hy
          have ht : Touches off (some sp) := by
            obtain ⟨ysp, f1, f2, f3⟩ := g1
            have := (h7.placed.ok ysp (.inl f1)).2
            have := h6.spanOK
            have := this.1.le
            exact ⟨sp, rfl, by omega, by omega⟩
          refine ⟨off, ht, ?_, ?_⟩
          · rw [findTagged]
            simp [findTaggedEntries, g2]
          · rw [taggedCalls]
            simp [touches_iff.mpr ht, findTaggedEntries, taggedCallsEntries, g2]
            rw [Nat.pow_succ]
            omega
      | some (.object [] o), he => simp [erase, erasePayload, deep, eraseEntries] at he
      | some (.object (.mk _ _ _ :: .mk _ _ _ :: _) o), he => simp [erase, erasePayload, deep, eraseEntries] at he
      | some (.sequence _ _), he => simp [erase, erasePayload, deep] at he
      | some (.scalar _ _ _), he => simp [erase, erasePayload, deep] at he
      | none, he => simp [erase, erasePayload, deep] at he

/-- **C74**, the cost is not bounded by the size of the document: for every `n` there is a source of
`4 * n + 6` characters, `a ({a {a … {} … }})`, and a cursor at which looking for a tagged value takes at least
`2 ^ n` calls and finds nothing. -/
theorem C74_cost_false (n : Nat) : ∃ source v off, source.length = 4 * n + 6 ∧ parseTree source = some (.ok v) ∧
    findTagged off none v = none ∧ 2 ^ n ≤ taggedCalls off none v := by
  have hv : ValueText (.mk none (some (.sequence [deep n] none)) none) .closed ('(' :: (deepText n ++ [')'])) := by
    have := ItemsText.cons (g := []) .nil (deep_text n) (.nil (g := []) .nil) trivial
    simpa using ValueText.sequence this
  obtain ⟨v, h1, h2⟩ := C47_value (k := ['a']) (bareText_of_ok rfl) (by decide) hv trivial
  obtain ⟨es, rfl, hr⟩ := parseTree_std h1
  match es, h2, hr with
  | [.mk k y d], h2, hr =>
    simp only [erase, erasePayload, eraseEntries, Value.mk.injEq, Option.some.injEq, Payload.object.injEq,
      List.cons.injEq, Entry.mk.injEq] at h2
    have hy := h2.2.1.1.1.2.1
    obtain ⟨m, hr, _⟩ := hr
    rcases hr with ⟨ksp, m', e1, e2, e3⟩ | ⟨⟨_, _, _, _, rfl, _⟩, _⟩
    · rcases e2 with ⟨rfl, _⟩ | e2
      · simp [erase, erasePayload] at hy
      · obtain ⟨t, p, sp⟩ := y
        cases sp with
        | none => exact e2.elim
        | some sp =>
          obtain ⟨s1, s2, s3, _, s5⟩ := e2
          match t, p, hy, s5 with
          | none, some (.sequence [z] _), hy, s5 =>
            simp only [erase, erasePayload, eraseAll, Value.mk.injEq, Option.some.injEq, Payload.sequence.injEq,
              List.cons.injEq] at hy
            obtain ⟨_, m2, z1, z2⟩ := s5
            obtain ⟨off, g1, g2, g3⟩ := deep_calls n z1 hy.2.1.1.1
            have ht : Touches off (some sp) := by
              obtain ⟨zsp, f1, f2, f3⟩ := g1
              have := (z1.placed.ok zsp (.inl f1)).2
              have : m2 ≤ sp.stop := z2
              exact ⟨sp, rfl, by omega, by omega⟩
            have hf : findTagged off none (.mk none (some (.sequence [z] ‹_›)) (some sp)) = none := by
              rw [findTagged]
              simp [findTaggedItems, g2]
            refine ⟨_, _, off, ?_, h1, ?_, ?_⟩
            · simp [deepText_length]
            · rw [findTagged]
              simp [findTaggedEntries, hf]
            · rw [taggedCalls]
              simp only [findTaggedEntries, taggedCallsEntries]
              rw [taggedCalls]
              simp [touches_iff.mpr ht, taggedCallsItems, g2]
              omega
          | some _, _, hy, _ => simp [erase] at hy
          | none, some (.sequence [] _), hy, _ => simp [erase, erasePayload, eraseAll] at hy
          | none, some (.sequence (_ :: _ :: _) _), hy, _ => simp [erase, erasePayload, eraseAll] at hy
          | none, some (.object _ _), hy, _ => simp [erase, erasePayload] at hy
          | none, some (.scalar _ _ _), hy, _ => simp [erase, erasePayload] at hy
          | none, none, hy, _ => simp [erase, erasePayload] at hy
    · simp [erase, erasePayload] at hy
  | [], h2, _ => simp [erase, erasePayload, eraseEntries] at h2
  | .mk _ _ _ :: .mk _ _ _ :: _, h2, _ => simp [erase, erasePayload, eraseEntries] at h2

/-! Concrete cases: the cursor in `k @t{a {b 1}}`. -/

/-- The tree of `k @t{a {b 1}}`. -/
def contextTree : Value :=
  .mk none (some (.object [.mk (.mk none (some (.scalar ['k'] .bare (some ⟨0, 1⟩))) (some ⟨0, 1⟩))
    (.mk (some ⟨['t'], some ⟨2, 13⟩⟩) (some (.object [.mk (.mk none (some (.scalar ['a'] .bare (some ⟨5, 6⟩)))
      (some ⟨5, 6⟩)) (.mk none (some (.object [.mk (.mk none (some (.scalar ['b'] .bare (some ⟨8, 9⟩))) (some ⟨8, 9⟩))
        (.mk none (some (.scalar ['1'] .bare (some ⟨10, 11⟩))) (some ⟨10, 11⟩)) none] (some ⟨7, 12⟩)))
        (some ⟨7, 12⟩)) none] (some ⟨4, 13⟩))) (some ⟨4, 13⟩)) none] none)) none

theorem contextTree_parsed : parseTree (chars! "k @t{a {b 1}}") = some (.ok contextTree) := by rfl

example : (List.range 14).map (fun off => (findObject off [] contextTree).map (·.path)) =
    let r : Option (List (List Char)) := some []
    let k := some [['k'], ['@', 't']]
    let a := some [['k'], ['@', 't'], ['a']]
    [r, r, r, r, k, k, k, a, a, a, a, a, a, k] := by decide +kernel

example : (List.range 14).map (fun off => (findTagged off none contextTree).map (·.tagName)) =
    let t := some (some ['t'])
    [none, none, none, none, t, t, t, t, t, t, t, t, t, t] := by decide +kernel

example : ∃ ctx z q, findObject 9 [] contextTree = some ctx ∧ ctx.path = [['k'], ['@', 't'], ['a']] ++ q ∧
    ThroughObjects z (.mk none (some (.object [.mk (.mk none (some (.scalar ['b'] .bare (some ⟨8, 9⟩))) (some ⟨8, 9⟩))
        (.mk none (some (.scalar ['1'] .bare (some ⟨10, 11⟩))) (some ⟨10, 11⟩)) none] (some ⟨7, 12⟩)))
        (some ⟨7, 12⟩)) q ∧ z.payload = some (.object ctx.entries ctx.span) :=
  C74_closest_partial (chars! "k @t{a {b 1}}") _ _ _ 9 _ _ contextTree_parsed (by
    intro k v d ksp vsp hm h1 h2 _
    simp only [List.mem_cons, List.not_mem_nil, or_false] at hm
    cases hm; cases h1; cases h2; decide)
    (.entry (List.mem_cons_self ..) (.entry (List.mem_cons_self ..) .here)) rfl ⟨⟨7, 12⟩, rfl, by decide, by decide⟩

end Styx.Props
