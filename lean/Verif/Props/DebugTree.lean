import Verif.Cli.DebugTreeLemmas

/-!
# C132, C133: the debug tree, and the names of tags
-/

namespace Styx.Props

open Styx Styx.Spec Styx.Cli

/-! ## C132 -/

/-- The tree of a document with one entry, with these places. -/
def docOfOne (k v : Value) : Value := .mk none (some (.object [.mk k v none] none)) none

/-- A scalar at a place. -/
def scalarAt (text : List Char) (k : ScalarKind) (i j : Nat) : Value :=
  .mk none (some (.scalar text k (some ⟨i, j⟩))) (some ⟨i, j⟩)

/-- **C132** (partial): two documents have the same debug tree exactly if what is shown of their trees is the same: their
structure, all texts, all names of tags, and the kinds of scalars that are items of sequences or tagged values.  Not shown
are places, doc comments, the kinds of other scalars and the payloads of tagged keys. -/
theorem C132_partial (pr : Char → Bool) {a b : List Char} {v w : Value} (ha : parseTree a = some (.ok v))
    (hb : parseTree b = some (.ok w)) :
    debugOutput pr (.ok v) = debugOutput pr (.ok w) ↔ shownValue v = shownValue w := by
  constructor
  · intro h
    have h : treeValue pr 0 v = treeValue pr 0 w := h
    exact (treeValue_pre pr 0 v w [] [] (parseTree_validTags ha) (parseTree_validTags hb) (by rw [h])).1
  · intro h
    show treeValue pr 0 v = treeValue pr 0 w
    rw [← treeValue_shown, h, treeValue_shown]

/-- The hypotheses are met by a document with all kinds of values, and its debug tree is what it should be. -/
example : (parseTree (chars! "a @t(c \"d\")\n@e {}\n@k\"x\" @")).map (Except.toOption <| ·.map fun v => debugOutput (fun _ => true) (.ok v)) =
    some (some ((chars! "Object {\n  key: Scalar(\"a\")\n  value: \n    Tagged @t {\n      Sequence [\n") ++
      (chars! "        Scalar(\"c\", Bare)\n        Scalar(\"d\", Quoted)\n      ]\n    }\n") ++
      (chars! "  key: Tagged @e\n  value: \n    Object {\n    }\n") ++
      (chars! "  key: Tagged @k {...}\n  value: Unit\n}\n"))) := by
  decide +kernel

/-- Both sides of the equivalence are met by two different documents. -/
example : ∃ v w, parseTree (chars! "a 1") = some (.ok v) ∧ parseTree (chars! "\n/// x\na  1") = some (.ok w) ∧
    shownValue v = shownValue w := ⟨_, _, rfl, rfl, rfl⟩

/-- **C132**: the kind of a scalar that is the value of an entry is not shown. -/
theorem C132_false_kind (pr : Char → Bool) : ∃ v w, parseTree (chars! "a 1") = some (.ok v) ∧
    parseTree (chars! "a \"1\"") = some (.ok w) ∧ debugOutput pr (.ok v) = debugOutput pr (.ok w) ∧
    (∃ e x y, v.asObject = some [e] ∧ e.value = .mk none (some (.scalar (chars! "1") .bare x)) y) ∧
    ∃ e x y, w.asObject = some [e] ∧ e.value = .mk none (some (.scalar (chars! "1") .quoted x)) y :=
  ⟨docOfOne (scalarAt (chars! "a") .bare 0 1) (scalarAt (chars! "1") .bare 2 3),
    docOfOne (scalarAt (chars! "a") .bare 0 1) (scalarAt (chars! "1") .quoted 2 5), by rfl, by rfl,
    by simp only [debugOutput, docOfOne, scalarAt, treeValue, treePayload, treeEntries, isComplexValue, treeInline,
      Bool.false_eq_true, if_false], ⟨_, _, _, rfl, rfl⟩, ⟨_, _, _, rfl, rfl⟩⟩

/-- **C132**: what follows the tag of a key is not shown. -/
theorem C132_false_key (pr : Char → Bool) : ∃ v w, parseTree (chars! "@a\"x\" 1") = some (.ok v) ∧
    parseTree (chars! "@a\"y\" 1") = some (.ok w) ∧ debugOutput pr (.ok v) = debugOutput pr (.ok w) ∧
    (∃ e k x, v.asObject = some [e] ∧ e.key.payload = some (.scalar (chars! "x") k x)) ∧
    ∃ e k x, w.asObject = some [e] ∧ e.key.payload = some (.scalar (chars! "y") k x) :=
  ⟨docOfOne (.mk (some ⟨chars! "a", some ⟨0, 5⟩⟩) (some (.scalar (chars! "x") .quoted (some ⟨0, 5⟩))) (some ⟨0, 5⟩))
      (scalarAt (chars! "1") .bare 6 7),
    docOfOne (.mk (some ⟨chars! "a", some ⟨0, 5⟩⟩) (some (.scalar (chars! "y") .quoted (some ⟨0, 5⟩))) (some ⟨0, 5⟩))
      (scalarAt (chars! "1") .bare 6 7), by rfl, by rfl,
    by simp only [debugOutput, docOfOne, scalarAt, treeValue, treePayload, treeEntries, isComplexValue, treeInline,
      Bool.false_eq_true, if_false], ⟨_, _, _, rfl, rfl⟩, ⟨_, _, _, rfl, rfl⟩⟩

/-! ## C133 -/

/-- **C133**: the name of every tag of a document that parses, on keys and on values, at any depth, is a letter or an
underscore followed by letters, digits, underscores and hyphens. -/
theorem C133 {s : List Char} {v x : Value} {t : Tag} (h : parseTree s = some (.ok v)) (hx : Node x v)
    (ht : x.tag = some t) :
    ∃ c cs, t.name = c :: cs ∧ (c.isAlpha = true ∨ c = '_') ∧
      ∀ d ∈ cs, d.isAlphanum = true ∨ d = '_' ∨ d = '-' := by
  have := parseTree_validTags h x hx t ht
  cases hn : t.name with
  | nil => rw [hn] at this; cases this
  | cons c cs =>
    rw [hn] at this
    simp only [isValidTagName, isTagStart, isTagChar, Bool.and_eq_true, List.all_eq_true, Bool.or_eq_true,
      beq_iff_eq, or_assoc] at this
    exact ⟨c, cs, rfl, this.1, this.2⟩

/-- A tag deep inside a document, with a name with all kinds of characters. -/
example : ∃ v x t, parseTree (chars! "a {b (@_x-9)}") = some (.ok v) ∧ Node x v ∧ x.tag = some t ∧
    t.name = (chars! "_x-9") :=
  ⟨_, _, _, rfl, .inside (.value (List.mem_cons_self ..)) (.inside (.value (List.mem_cons_self ..))
    (.inside (.item (List.mem_cons_self ..)) .self)), rfl, rfl⟩

/-- Other names are errors. -/
example : ((parseTree (chars! "a @9")).map fun r => r.toOption.isSome) = some false ∧
    ((parseTree (chars! "a @é")).map fun r => r.toOption.isSome) = some false := by decide +kernel

end Styx.Props
