import Verif.Lsp.Host
import Verif.Lsp.HostSpec
import Verif.Props.Cursor

/-!
# C128: an extension that asks for the path of a request gets the part of the document the request is about

`hostSubtree` is what the server answers an extension, `pathAt` the path that its requests carry.
`Lsp/HostSpec.lean` says which part of a document a path names.
-/

namespace Styx.Props

open Styx Styx.Spec Styx.Lsp

/-- **C128**, what a path leads to: the answer is the value that the names lead to, through the first keys with these
texts, and there is no answer if they lead nowhere. -/
theorem C128_subtree (path : List (List Char)) (v w : Value) : subtreeAt path v = some w ↔ NamesTo w v path := by
  constructor
  · intro h
    induction path generalizing v with
    | nil => rw [← Option.some.inj h]; exact .here
    | cons key path ih =>
      obtain ⟨t, p, sp⟩ := v
      match p with
      | none => cases h
      | some (.scalar ..) => cases h
      | some (.sequence ..) => cases h
      | some (.object es o) =>
        simp only [subtreeAt, Value.asObject] at h
        split at h
        · cases h
        · rename_i e he
          obtain ⟨h1, a, b, rfl, h2⟩ := List.find?_eq_some_iff_append.mp he
          obtain ⟨k, y, d⟩ := e
          exact .field (by have h0 := h1; simp only [beq_iff_eq] at h0; exact h0) (fun e he => by simpa using h2 e he) (ih _ h)
  · intro h
    induction h with
    | here => rfl
    | @field t a k y d b o sp name p hk ha _ ih =>
      have hn : a.find? (fun e => e.key.asStr == some name) = none :=
        List.find?_eq_none.mpr fun e he => by simpa using ha e he
      have hf : (a ++ Entry.mk k y d :: b).find? (fun e => e.key.asStr == some name) = some (.mk k y d) := by
        rw [List.find?_append, hn, List.find?_cons]
        simp only [Entry.key, hk, beq_self_eq_true]
        rfl
      simp only [subtreeAt, Value.asObject, hf]
      exact ih

/-- **C128**, the answers about one document belong together: the part at the empty path is the document, there is a
part only of a document that could be read, and its text is there too. -/
theorem C128_document (docs : List (List Char × HeldDoc)) (uri : List Char) (path : List (List Char)) (w : Value) :
    hostSubtree docs uri [] = hostDocument docs uri ∧
    (hostSubtree docs uri path = some w ↔ ∃ v, hostDocument docs uri = some v ∧ NamesTo w v path) ∧
    (hostSubtree docs uri path = some w → ∃ s, hostSource docs uri = some s) := by
  simp only [hostSubtree, hostDocument, hostSource]
  cases docs.lookup uri with
  | none => simp
  | some doc =>
    obtain ⟨content, tree⟩ := doc
    cases tree with
    | none => simp
    | some v => simp [C128_subtree, subtreeAt]

/-- **C128**, which document: of documents with different addresses, the text and the tree are those of the document
with the address asked for, and there is nothing for an address that no document has. -/
theorem C128_address (docs : List (List Char × HeldDoc)) (hd : (docs.map (·.1)).Nodup) (uri : List Char) :
    (∀ doc, (uri, doc) ∈ docs → hostSource docs uri = some doc.content ∧ hostDocument docs uri = doc.tree) ∧
    (uri ∉ docs.map (·.1) → hostSource docs uri = none ∧ hostDocument docs uri = none ∧
      ∀ path, hostSubtree docs uri path = none) := by
  simp only [hostSubtree, hostDocument, hostSource]
  induction docs with
  | nil => simp
  | cons d docs ih =>
    obtain ⟨u, doc0⟩ := d
    simp only [List.map_cons, List.nodup_cons] at hd
    obtain ⟨h1, h2⟩ := hd
    obtain ⟨i1, i2⟩ := ih h2
    by_cases hu : uri = u
    · subst hu
      simp only [List.lookup_cons_self, List.mem_cons, List.map_cons]
      refine ⟨fun doc h => ?_, fun h => absurd (Or.inl trivial) h⟩
      rcases h with h | h
      · cases h; exact ⟨rfl, rfl⟩
      · exact absurd (List.mem_map_of_mem (f := (·.1)) h) h1
    · have hb : (uri == u) = false := by simpa using hu
      simp only [List.lookup_cons, hb, List.mem_cons, List.map_cons]
      refine ⟨fun doc h => ?_, fun h => i2 fun hm => h (Or.inr hm)⟩
      rcases h with h | h
      · cases h; exact absurd rfl hu
      · exact i1 doc h

theorem keysNamed_entry {es : List Entry} (h : KeysNamedEntries es) {k y : Value} {d : Option (List Char)}
    (he : Entry.mk k y d ∈ es) : k.asStr ≠ none ∧ KeysNamed y := by
  induction es with
  | nil => cases he
  | cons e es ih =>
    obtain ⟨k', v', d'⟩ := e
    obtain ⟨h1, h2, h3⟩ := h
    rcases List.mem_cons.mp he with heq | he
    · cases heq; exact ⟨h1, h2⟩
    · exact ih h3 he

theorem namesTo_of_leads {x v : Value} {p : List Seg} (h : LeadsTo x v p) (hv : KeysNamed v) {names : List (List Char)}
    (hp : p = names.map .field) : NamesTo x v names ∧ KeysNamed x := by
  induction h generalizing names with
  | here =>
    cases names with
    | nil => exact ⟨.here, hv⟩
    | cons _ _ => cases hp
  | @field t es o sp k y d name p he hk _ ih =>
    cases names with
    | nil => cases hp
    | cons n names =>
      simp only [List.map_cons, List.cons.injEq, Seg.field.injEq] at hp
      obtain ⟨rfl, rfl⟩ := hp
      obtain ⟨h1, h2⟩ := hv
      obtain ⟨k1, k2⟩ := ih (keysNamed_entry h2 he).2 rfl
      obtain ⟨a, b, rfl⟩ := List.append_of_mem he
      refine ⟨.field hk (fun e hea hc => ?_) k1, k2⟩
      rw [List.map_append, List.nodup_append] at h1
      exact h1.2.2 _ (List.mem_map_of_mem hea) _ (List.mem_map_of_mem (List.mem_cons_self ..)) (hc.trans hk.symm)
  | unnamed he hk _ _ => exact absurd hk (keysNamed_entry hv.2 he).1
  | item _ _ _ =>
    cases names with
    | nil => cases hp
    | cons _ _ => simp at hp

/-- **C128**, for documents in which all keys have a text and no object has one twice, and a cursor that is not in a
sequence: with the path of the request, the extension gets the value the cursor is on, or whose key it is on.
Missing, because it is false: sequences, keys without text, keys that come twice, and (C73) dotted keys. -/
theorem C128_cursor_partial (tree : Value) (off : Nat) (names : List (List Char)) (hk : KeysNamed tree)
    (h : findPath off tree = some (names.map .field)) :
    pathAt tree off = some names ∧ ∃ y, subtreeAt names tree = some y ∧ CursorValue off tree y := by
  refine ⟨by rw [pathAt, h]; simp [Seg.text, Function.comp_def], ?_⟩
  have hc := C73_sound tree off _ h
  generalize hp : names.map Seg.field = p at hc
  cases hc with
  | @key w es o k y d name p0 h1 h2 h3 h4 h5 =>
    obtain ⟨front, last, rfl, hf, hl⟩ := List.map_eq_append_iff.mp hp
    obtain ⟨n, rest, rfl, hn, hr⟩ := List.map_eq_cons_iff.mp hl
    obtain rfl : rest = [] := by simpa using hr
    obtain rfl : n = name := by simpa using hn
    obtain ⟨k1, k2⟩ := namesTo_of_leads h1 hk hf.symm
    obtain ⟨t, pl, sp⟩ := w
    cases h2
    have hone := (namesTo_of_leads (x := y) (.field (t := t) (o := o) (sp := sp) h3 h4 .here) k2 (names := [n]) rfl).1
    refine ⟨y, ?_, Or.inr ⟨_, p0, es, o, k, d, h1, rfl, h3, h5⟩⟩
    have happ : ∀ (f : List (List Char)) (a b c : Value), subtreeAt f a = some b → subtreeAt [n] b = some c →
        subtreeAt (f ++ [n]) a = some c := by
      intro f
      induction f with
      | nil => intro a b c e1 e2; rw [← Option.some.inj e1] at e2; exact e2
      | cons g f ih =>
        intro a b c e1 e2
        rw [List.cons_append]
        rw [subtreeAt] at e1 ⊢
        cases hes : a.asObject with
        | none => rw [hes] at e1; cases e1
        | some es' =>
          rw [hes] at e1
          cases he : es'.find? (fun e => e.key.asStr == some g) with
          | none => simp only [he] at e1; cases e1
          | some e =>
            simp only [he] at e1 ⊢
            exact ih _ _ _ e1 e2
    exact happ front tree _ y ((C128_subtree _ _ _).mpr k1) ((C128_subtree _ _ _).mpr hone)
  | @value x p0 h1 h2 h3 h4 =>
    exact ⟨x, (C128_subtree _ _ _).mpr (namesTo_of_leads h1 hk hp.symm).1, Or.inl ⟨_, h1, h3⟩⟩

/-! ## Where it fails -/

/-- The answer for the path of the cursor is the text `got`, although the cursor is on a value with the text
`wanted`. -/
def WrongPart (source : List Char) (off : Nat) (wanted got : List Char) : Prop :=
  ∃ v names x p, parseTree source = some (.ok v) ∧ LeadsTo x v p ∧ On off x.span ∧ x.asStr = some wanted ∧
    pathAt v off = some names ∧ (subtreeAt names v).bind Value.asStr = some got ∧ wanted ≠ got

/-- **C128 is false of the code**: the path leaves out keys without text, so in `a x, @ {a 1}` the path of the `1` is
that of the `x`. -/
theorem C128_unnamed_false : WrongPart (chars! "a x\n@ {a 1}\n") 9 ['1'] ['x'] :=
  ⟨_, _, _, [.field ['a']], rfl, .unnamed (List.mem_cons_of_mem _ (List.mem_cons_self ..)) rfl
    (.field (List.mem_cons_self ..) rfl .here), ⟨⟨9, 10⟩, rfl, by decide, by decide⟩, rfl, rfl, rfl, by decide⟩

/-- **C128 is false of the code**: an attribute may come twice, and the path of the second is that of the first. -/
theorem C128_twice_false : WrongPart (chars! "p a>1 a>2\n") 8 ['2'] ['1'] :=
  ⟨_, _, _, [.field ['p'], .field ['a']], rfl, .field (List.mem_cons_self ..) rfl
    (.field (List.mem_cons_of_mem _ (List.mem_cons_self ..)) rfl .here), ⟨⟨8, 9⟩, rfl, by decide, by decide⟩, rfl, rfl,
    rfl, by decide⟩

/-- **C128 is false of the code**: in a sequence the path has the number of the item in it, which leads nowhere. -/
theorem C128_sequence_false : ∃ v x p, parseTree (chars! "s (1 2)\n") = some (.ok v) ∧ LeadsTo x v p ∧ On 5 x.span ∧
    x.asStr = some ['2'] ∧ pathAt v 5 = some [['s'], ['1']] ∧ subtreeAt [['s'], ['1']] v = none :=
  ⟨_, _, [.field ['s'], .index 1], rfl, .field (List.mem_cons_self ..) rfl (.item (i := 1) rfl .here),
    ⟨⟨5, 6⟩, rfl, by decide, by decide⟩, rfl, rfl, rfl⟩

/-! ## A case of the hypotheses -/

example : ∃ v, parseTree (chars! "a {b {c x}}\nd y\n") = some (.ok v) ∧ KeysNamed v ∧
    findPath 8 v = some ([['a'], ['b'], ['c']].map .field) ∧
    (subtreeAt [['a'], ['b'], ['c']] v).bind Value.asStr = some ['x'] := by
  refine ⟨_, rfl, ?_, rfl, rfl⟩
  refine ⟨by decide, by decide, ⟨by decide, by decide, ⟨by decide, by decide, trivial, trivial⟩, trivial⟩, by decide, trivial, trivial⟩

example : (([(['u'], ⟨['a'], none⟩), (['v'], ⟨['b'], none⟩)] : List (List Char × HeldDoc)).map (·.1)).Nodup := by
  decide

end Styx.Props
