import Verif.Impl.ReadRoot
import Verif.Impl.StrayBrace
import Verif.Props.Implementations

/-! # Property theorem C91: the implementations agree

The Rust implementation (`parseTree`) and the Python, JavaScript and Go implementations (`Impl.parse`) read the same
documents, and read them alike.  Spans and doc comments are left out of the comparison (`shed`), as the three do not
keep doc comments. -/

namespace Styx.Props

open Styx Styx.Spec

/-- All four implementations give the document the same entries. -/
def AllRead (s : List Char) (entries : List Entry) : Prop :=
  (∃ t, parseTree s = some (.ok t) ∧ shed t = .mk none (some (.object entries none)) none) ∧
    ∀ d, Answers d s (.ok entries)

/-- All four implementations reject the document. -/
def AllReject (s : List Char) : Prop :=
  (∃ e, parseTree s = some (.error e)) ∧ ∀ d, ∃ e, Answers d s (.error e)

/-- The implementations agree on the document. -/
def AllAgree (s : List Char) : Prop := (∃ entries, AllRead s entries) ∨ AllReject s

/-- **C91**, partly: on the shared documents whose root paths are in order all four implementations agree, and what
they read are the entries the document was made of.  (Missing: documents outside the shared grammar on which they
agree too.) -/
theorem C91_agree_partial {es : List RootEntry} {s : List Char} (h : SharedRoot es s)
    (ho : PathsInOrder (callsOf es)) : AllRead s (shedEntries (es.map RootEntry.tree)) := by
  refine ⟨?_, fun d => (Impl.sharedRoot_parse d h).1 (Impl.watched_order _ ho)⟩
  obtain ⟨t, h1, h2⟩ := C47_document h.root ho.consistent
  refine ⟨t, h1, ?_⟩
  rw [← shed_erase t, h2]
  rfl

/-- Each of the three reads a shared document exactly if the paths it looks at are in order, and rejects it
otherwise. -/
theorem C91_others {es : List RootEntry} {s : List Char} (h : SharedRoot es s) (d : Impl.Dialect) :
    (PathsInOrder (watched (d == .go) es) → Answers d s (.ok (shedEntries (es.map RootEntry.tree)))) ∧
    (¬ PathsInOrder (watched (d == .go) es) → ∃ e, Answers d s (.error e)) :=
  Impl.sharedRoot_parse d h

/-- **C91**, exactly for the shared documents: the implementations agree if and only if the order of the root paths is
right for all of them or for none: for the Rust implementation (`Consistent`), for Python and JavaScript, and for Go. -/
theorem C91_agree_iff_partial {es : List RootEntry} {s : List Char} (h : SharedRoot es s) :
    AllAgree s ↔ (Consistent (callsOf es) ∧ PathsInOrder (watched false es) ∧ PathsInOrder (watched true es)) ∨
      (¬ Consistent (callsOf es) ∧ ¬ PathsInOrder (watched false es) ∧ ¬ PathsInOrder (watched true es)) := by
  have hd : ∀ d : Impl.Dialect, (∃ r, Answers d s (.ok r)) ↔ PathsInOrder (watched (d == .go) es) := by
    intro d
    obtain ⟨h1, h2⟩ := C91_others h d
    refine ⟨fun ⟨r, hr⟩ => Classical.byContradiction fun hno => ?_, fun ho => ⟨_, h1 ho⟩⟩
    obtain ⟨e, he⟩ := h2 hno
    cases (C92_answer d s).2.1 _ _ hr he
  constructor
  · rintro (⟨entries, ⟨t, h1, -⟩, h2⟩ | ⟨⟨e, h1⟩, h2⟩)
    · exact .inl ⟨(C16_document_partial h.root).1 ⟨t, h1⟩, (hd .python).1 ⟨_, h2 .python⟩, (hd .go).1 ⟨_, h2 .go⟩⟩
    · have hno : ∀ d : Impl.Dialect, ¬ PathsInOrder (watched (d == .go) es) := by
        intro d ho
        obtain ⟨e, he⟩ := h2 d
        cases (C92_answer d s).2.1 _ _ he ((C91_others h d).1 ho)
      refine .inr ⟨fun hc => ?_, hno .python, hno .go⟩
      obtain ⟨t, h3, -⟩ := C47_document h.root hc
      rw [h1] at h3
      cases h3
  · rintro (⟨h1, h2, h3⟩ | ⟨h1, h2, h3⟩)
    · refine .inl ⟨shedEntries (es.map RootEntry.tree), ?_, ?_⟩
      · obtain ⟨t, h4, h5⟩ := C47_document h.root h1
        refine ⟨t, h4, ?_⟩
        rw [← shed_erase t, h5]
        rfl
      · intro d
        cases d
        · exact (C91_others h .python).1 h2
        · exact (C91_others h .javascript).1 h2
        · exact (C91_others h .go).1 h3
    · refine .inr ⟨?_, ?_⟩
      · obtain ⟨k, sp, h4, -⟩ := C47_conflict h.root h1
        exact ⟨_, h4⟩
      · intro d
        cases d
        · exact (C91_others h .python).2 h2
        · exact (C91_others h .javascript).2 h2
        · exact (C91_others h .go).2 h3

/-- **C91**, partly: agreement in rejecting.  A shared document with conflicting root paths is rejected by all four, if no
key at the root is `@` or empty and no value at the root is an object with a tag. -/
theorem C91_reject_partial {es : List RootEntry} {s : List Char} (h : SharedRoot es s)
    (hc : ¬ Consistent (callsOf es))
    (hp : ∀ e ∈ es, e.path ≠ [[]] ∧ (∀ sp, e.keys ≠ [.mk none none sp]) ∧ objectKind e.value = pathKind e.value) :
    AllReject s := by
  have hw : ∀ go, watched go es = callsOf es := by
    intro go
    clear h hc
    induction es with
    | nil => rfl
    | cons e es ih =>
      obtain ⟨h1, h2, h3⟩ := hp e (List.mem_cons_self ..)
      rw [Impl.watched_cons, ih (fun e he => hp e (List.mem_cons_of_mem _ he))]
      have : watchedPath go e.keys e.path = some e.path := by
        unfold watchedPath
        split
        · rename_i sp hk
          exact (h2 sp hk).elim
        · rw [if_neg fun h => h1 h.2]
      rw [this, h3]
      rfl
  have hno : ∀ go, ¬ PathsInOrder (watched go es) := fun go ho => hc (by rw [hw] at ho; exact ho.consistent)
  rcases (C91_agree_iff_partial h).2 (.inr ⟨hc, hno false, hno true⟩) with ⟨_, ⟨t, h1, -⟩, -⟩ | hr
  · exact (hc ((C16_document_partial h.root).1 ⟨t, h1⟩)).elim
  · exact hr

/-! ## Where they do not agree -/

/-- An answer with some fuel is the answer. -/
theorem answers_of {d : Impl.Dialect} {s : List Char} {r} (n : Nat) (h : Impl.parse d n s = some r) : Answers d s r :=
  ⟨n, fun _ hm => Impl.parse_mono _ hm _ h⟩

/-- If the Rust implementation reads a document and another one rejects it, they do not agree. -/
theorem not_agree_reject {s : List Char} {t : Value} (h : parseTree s = some (.ok t)) (d : Impl.Dialect) {e}
    (hd : Answers d s (.error e)) : ¬ AllAgree s := by
  rintro (⟨es, -, h2⟩ | ⟨⟨e', h1⟩, -⟩)
  · cases (C92_answer d s).2.1 _ _ hd (h2 d)
  · rw [h] at h1; cases h1

/-- If the Rust implementation rejects a document and another one reads it, they do not agree. -/
theorem not_agree_accept {s : List Char} {e} (h : parseTree s = some (.error e)) (d : Impl.Dialect) {es}
    (hd : Answers d s (.ok es)) : ¬ AllAgree s := by
  rintro (⟨es, ⟨t, h1, -⟩, -⟩ | ⟨-, h2⟩)
  · rw [h] at h1; cases h1
  · obtain ⟨e', h3⟩ := h2 d
    cases (C92_answer d s).2.1 _ _ hd h3

/-- If two of the three give a document different answers, the implementations do not agree on their entries. -/
theorem not_agree_differ {s : List Char} (d d' : Impl.Dialect) {es es'} (h : Answers d s (.ok es))
    (h' : Answers d' s (.ok es')) (hne : es ≠ es') : ¬ AllAgree s := by
  rintro (⟨x, -, h2⟩ | ⟨-, h2⟩)
  · cases (C92_answer d s).2.1 _ _ h (h2 d)
    cases (C92_answer d' s).2.1 _ _ h' (h2 d')
    exact hne rfl
  · obtain ⟨e', h3⟩ := h2 d
    cases (C92_answer d s).2.1 _ _ h h3

/-- **C91** is false: a document in braces is, for the Rust implementation, the entries within; for the others it is
one entry without a key, whose value is the object. -/
theorem C91_false_braces : (∃ t, parseTree (chars! "{a 1}") = some (.ok t) ∧
      shed t = Impl.objectValue [.mk (Impl.bareValue ['a']) (Impl.bareValue ['1']) none]) ∧
    ∀ d, Answers d (chars! "{a 1}") (.ok [.mk Impl.unitValue
      (Impl.objectValue [.mk (Impl.bareValue ['a']) (Impl.bareValue ['1']) none]) none]) :=
  ⟨⟨_, rfl, rfl⟩, fun d => by cases d <;> exact answers_of 40 rfl⟩

/-- **C91** is false: a dotted key without value is given nothing by the Rust implementation, and what stands on the
next line by the others. -/
theorem C91_false_lone_path : (∃ t, parseTree (chars! "a.b\nc") = some (.ok t) ∧
      shed t = Impl.objectValue [.mk (Impl.bareValue ['a'])
        (Impl.objectValue [.mk (Impl.bareValue ['b']) Impl.unitValue none]) none,
        .mk (Impl.bareValue ['c']) Impl.unitValue none]) ∧
    ∀ d, Answers d (chars! "a.b\nc") (.ok [.mk (Impl.bareValue ['a'])
      (Impl.objectValue [.mk (Impl.bareValue ['b']) (Impl.bareValue ['c']) none]) none]) :=
  ⟨⟨_, rfl, rfl⟩, fun d => by cases d <;> exact answers_of 40 rfl⟩

/-- **C91** is false: the Rust implementation rejects a second value on a line; the others read it as the next key. -/
theorem C91_false_second_value : (∃ e, parseTree (chars! "a 1 2") = some (.error e)) ∧
    ∀ d, Answers d (chars! "a 1 2") (.ok [.mk (Impl.bareValue ['a']) (Impl.bareValue ['1']) none,
      .mk (Impl.bareValue ['2']) Impl.unitValue none]) :=
  ⟨⟨_, rfl⟩, fun d => by cases d <;> exact answers_of 40 rfl⟩

/-- **C91** is false: the Rust implementation reads these documents and all others reject them: a path that comes
again after another one; a path whose part is given a value; a key without value before a comma; a quoted string over
two lines. -/
theorem C91_false_rejected : ∀ s ∈ [chars! "a 1\nb 2\na 3", chars! "a.b 1\na 2", chars! "k {a, b 1}",
    chars! "k \"a\nb\""], (∃ t, parseTree s = some (.ok t)) ∧ ∀ d, ∃ e, Answers d s (.error e) := by
  intro s hs
  simp only [List.mem_cons, List.not_mem_nil, or_false] at hs
  rcases hs with rfl | rfl | rfl | rfl
  · exact ⟨⟨_, rfl⟩, fun d => by cases d <;> exact ⟨_, answers_of 60 rfl⟩⟩
  · exact ⟨⟨_, rfl⟩, fun d => by cases d <;> exact ⟨_, answers_of 60 rfl⟩⟩
  · exact ⟨⟨_, rfl⟩, fun d => by cases d <;> exact ⟨_, answers_of 60 rfl⟩⟩
  · exact ⟨⟨_, rfl⟩, fun d => by cases d <;> exact ⟨_, answers_of 60 rfl⟩⟩

/-- **C91** is false: nor do the three agree with each other.  A dotted key in an object is one key for Go (and Rust) and
a path for the others; and Go reads a document up to a string that is not closed, which the others reject. -/
theorem C91_false_dialects :
    (Answers .go (chars! "k {a.b 1}") (.ok [.mk (Impl.bareValue ['k']) (Impl.objectValue
        [.mk (Impl.bareValue (chars! "a.b")) (Impl.bareValue ['1']) none]) none]) ∧
      Answers .python (chars! "k {a.b 1}") (.ok [.mk (Impl.bareValue ['k']) (Impl.objectValue
        [.mk (Impl.bareValue ['a']) (Impl.objectValue [.mk (Impl.bareValue ['b']) (Impl.bareValue ['1']) none]) none])
          none])) ∧
    (Answers .go (chars! "a 1\n\"x") (.ok [.mk (Impl.bareValue ['a']) (Impl.bareValue ['1']) none]) ∧
      ∃ e, Answers .javascript (chars! "a 1\n\"x") (.error e)) :=
  ⟨⟨answers_of 60 rfl, answers_of 60 rfl⟩, answers_of 60 rfl, _, answers_of 60 rfl⟩

/-- **C91** is false: the implementations do not agree on every document. -/
theorem C91_false : ¬ ∀ s, AllAgree s := fun h =>
  not_agree_accept (s := chars! "a 1 2") rfl .python (C91_false_second_value.2 .python) (h _)

/-! ## A document that meets the hypotheses -/

/-- The entries of the sample document. -/
def agreeEntries : List RootEntry :=
  [⟨[scalarValue (chars! "a") .bare, scalarValue (chars! "b") .bare], [chars! "a", chars! "b"],
    .mk none (some (.object [.mk (scalarValue (chars! "x") .bare) (scalarValue (chars! "1") .bare) none] none)) none,
    some (chars! "doc")⟩,
   ⟨[scalarValue (chars! "a") .bare, scalarValue (chars! "c") .bare], [chars! "a", chars! "c"],
    .mk (some ⟨chars! "t", none⟩) (some (.sequence [scalarValue (chars! "2") .bare] none)) none, none⟩,
   ⟨[scalarValue (chars! "d") .quoted], [chars! "d"], .mk none none none, none⟩]

theorem agree_text : SharedRoot agreeEntries (chars! "/// doc\na.b {x 1} // c\na.c @t(2)\n\"d\"\n") := by
  have hb : Blanks [' '] := by simp [Blanks, Blank]
  have hnl : Gap true ['\n'] := .newline (n := ['\n']) (.inl rfl) .nil
  have h3 : SharedRoot [⟨[scalarValue (chars! "d") .quoted], [chars! "d"], .mk none none none, none⟩]
      (chars! "\n\"d\"\n") :=
    .lone (g := ['\n']) (dt := []) (ls := []) (tr := []) (kt := chars! "\"d\"") (t := ['\n']) hnl .nil
      (.other (k := scalarValue (chars! "d") .quoted) (.scalar (.quoted (body := chars! "d") (.plain (by decide) (by decide) .nil)
        (by decide) (by decide) (.plain (by decide) .nil)) (by decide)) (by intro v h; cases h) (by intro t p h; cases h) (by decide)) .none
      (.nil hnl) trivial ⟨[], ['\n'], rfl, by simp [Blanks], .inl (.inr (.inl ⟨_, rfl⟩))⟩
  have h2 : SharedRoot agreeEntries.tail (chars! "\na.c @t(2)\n\"d\"\n") :=
    .cons (g := ['\n']) (dt := []) (ls := []) (kt := chars! "a.c") (b := [' ']) (s := chars! "@t(2)") (tr := [])
      (t := chars! "\n\"d\"\n") hnl .nil
      (.path (segs := [chars! "a", chars! "c"]) (by decide) (by decide) (bareText_of_ok rfl)) hb (by decide)
      (.tagged (n := chars! "t") (s := chars! "(2)") ⟨'t', [], rfl, .inl (by decide), by simp⟩ (.sequence (.cons (g := []) (s := chars! "2")
        (t := [')']) .nil (.scalar (.bare (bareText_of_ok rfl))) (.nil (g := []) .nil) (.inr ⟨')', [], rfl, by simp⟩)))
        ⟨'(', _, rfl, .inl rfl⟩) .none h3 trivial
      ⟨[], chars! "\n\"d\"\n", rfl, by simp [Blanks], .inl (.inr (.inl ⟨_, rfl⟩))⟩
  exact .cons (g := []) (dt := chars! "/// doc\n") (ls := [chars! "doc"]) (kt := chars! "a.b") (b := [' '])
    (s := chars! "{x 1}") (tr := chars! " // c") (t := chars! "\na.c @t(2)\n\"d\"\n") .nil
    (.cons (l := chars! "doc") (body := chars! " doc") (n := ['\n']) (g := []) (t := []) (.inl rfl) (by decide)
      (.inl rfl) .nil .nil)
    (.path (segs := [chars! "a", chars! "b"]) (by decide) (by decide) (bareText_of_ok rfl)) hb (by decide)
    (.object (.cons (g := []) (dt := []) (ls := []) (k := scalarValue (chars! "x") .bare) (ks := chars! "x")
      (b := [' ']) (s := chars! "1") (tr := []) (t := ['}']) .nil .nil
      (.scalar (.bare (bareText_of_ok rfl)) (by decide)) (by intro v h; cases h; decide) hb (by decide)
      (.scalar (.bare (bareText_of_ok rfl))) .none (.nil (g := []) .nil) (.inr ⟨'}', [], rfl, by simp⟩)
      ⟨[], ['}'], rfl, by simp [Blanks], .inr ⟨'}', [], rfl, .inr rfl⟩⟩) (by simp [DistinctKeys]) (by
        simp [DistinctLabels, keyLabel, entryKey, scalarValue]))
    (.comment (b := [' ']) (c := chars! "// c") hb ⟨chars! " c", rfl, by decide, by decide⟩) h2 trivial
    (.inr (.inl ⟨_, rfl⟩))

theorem agree_order : PathsInOrder (callsOf agreeEntries) := by
  constructor
  · have : (callsOf agreeEntries).Pairwise fun x y => ¬ y.1 <+: x.1 ∧ (x.1 <+: y.1 → x.2 = .object) := by decide
    intro x y h
    exact List.pairwise_iff_forall_sublist.1 this h
  · intro x y z q h hq hx hz
    have := h.eq_of_length rfl
    simp only [callsOf, agreeEntries, List.map_cons, List.map_nil, List.cons.injEq, and_true] at this
    obtain ⟨rfl, -, rfl⟩ := this
    cases q with
    | nil => exact (hq rfl).elim
    | cons a q =>
      rw [List.cons_prefix_cons] at hx hz
      rw [hx.1] at hz
      exact absurd hz.1 (by decide)

/-- The hypotheses of `C91_agree_partial` are met: a document with a doc comment, dotted keys, an object, a tag, a sequence, a
comment and a quoted key without value. -/
example : AllRead (chars! "/// doc\na.b {x 1} // c\na.c @t(2)\n\"d\"\n")
    (shedEntries (agreeEntries.map RootEntry.tree)) := C91_agree_partial agree_text agree_order

/-- A document with the same path twice. -/
theorem reject_text : SharedRoot [⟨[scalarValue (chars! "a") .bare], [chars! "a"], scalarValue (chars! "1") .bare, none⟩,
    ⟨[scalarValue (chars! "a") .bare], [chars! "a"], scalarValue (chars! "2") .bare, none⟩] (chars! "a 1\na 2") := by
  have hb : Blanks [' '] := by simp [Blanks, Blank]
  exact .cons (g := []) (dt := []) (ls := []) (kt := chars! "a") (b := [' ']) (s := chars! "1") (tr := [])
    (t := chars! "\na 2") .nil .nil
    (.path (segs := [chars! "a"]) (by decide) (by decide) (bareText_of_ok rfl)) hb (by decide)
    (.scalar (.bare (bareText_of_ok rfl))) .none
    (.cons (g := ['\n']) (dt := []) (ls := []) (kt := chars! "a") (b := [' ']) (s := chars! "2") (tr := []) (t := [])
      (.newline (n := ['\n']) (.inl rfl) .nil) .nil
      (.path (segs := [chars! "a"]) (by decide) (by decide) (bareText_of_ok rfl)) hb (by decide)
      (.scalar (.bare (bareText_of_ok rfl))) .none (.nil .nil) (.inl rfl)
      ⟨[], [], rfl, by simp [Blanks], .inl (.inl rfl)⟩)
    (.inr ⟨'\n', _, rfl, by decide⟩)
    ⟨[], chars! "\na 2", rfl, by simp [Blanks], .inl (.inr (.inl ⟨_, rfl⟩))⟩

/-- The hypotheses of `C91_reject_partial` are met. -/
example : AllReject (chars! "a 1\na 2") := by
  refine C91_reject_partial reject_text ?_ (by simp [scalarValue, objectKind, pathKind])
  intro hc
  obtain ⟨t, h, -⟩ := C47_document reject_text.root hc
  have : ∃ e, parseTree (chars! "a 1\na 2") = some (.error e) := ⟨_, rfl⟩
  obtain ⟨e, he⟩ := this
  rw [h] at he
  cases he

/-! ## C92: a closing brace too many -/

/-- **C92** is false of far more documents than those that begin with a brace: whatever entries (with different keys) a
document has at the root, a closing brace behind them makes each of the three hang, whatever follows. -/
theorem C92_false_stray {es : List Entry} {t : List Char} (h : SharedEntries es t) (hd : DistinctLabels es)
    (d : Impl.Dialect) (rest : List Char) : Hangs d (t ++ rest) :=
  Impl.stray_hangs d h hd rest

/-- The hypotheses are met: an entry and a brace that closes nothing. -/
example (d : Impl.Dialect) : Hangs d (chars! "x 1\n}\ny 2") := by
  have h : SharedEntries [.mk (scalarValue (chars! "x") .bare) (scalarValue (chars! "1") .bare) none]
      (chars! "x 1\n}") :=
    .cons (g := []) (dt := []) (ls := []) (k := scalarValue (chars! "x") .bare) (ks := chars! "x")
      (b := [' ']) (s := chars! "1") (tr := []) (t := chars! "\n}") .nil .nil
      (.scalar (.bare (bareText_of_ok rfl)) (by decide)) (by intro v h; cases h; decide) (by simp [Blanks, Blank])
      (by decide) (.scalar (.bare (bareText_of_ok rfl))) .none
      (.nil (g := ['\n']) (.newline (n := ['\n']) (.inl rfl) .nil)) (.inr ⟨'\n', _, rfl, by decide⟩)
      ⟨[], chars! "\n}", rfl, by simp [Blanks], .inl (.inr (.inl ⟨_, rfl⟩))⟩
  exact C92_false_stray h (by simp [DistinctLabels, keyLabel, entryKey, scalarValue]) d (chars! "\ny 2")

end Styx.Props
