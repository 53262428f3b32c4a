import Verif.Swift.ReadRoot
import Verif.Props.Agreement
import Verif.Props.Swift

/-! # Property theorem C113: the Swift implementation reads documents as the other implementations do

`U` are the Unicode properties of characters; `Standard U` says that white space and the classes of the ASCII characters
are those of the Unicode standard. -/

namespace Styx.Props

open Styx Styx.Spec

/-- The Swift implementation agrees with the other four about a document on which those agree: it reads the same entries
or rejects it too. -/
def SwiftAgrees (U : Swift.Classes) (s : List Char) : Prop :=
  (∀ entries, AllRead s entries → SwiftAnswers U s (.ok entries)) ∧ (AllReject s → ∃ e, SwiftAnswers U s (.error e))

/-- **C113**, partly: the documents of the restricted grammar `SwiftRoot` whose root paths are in order are read by all
five implementations, as the entries they were made of.  (Missing: documents outside that grammar on which they agree
too.) -/
theorem C113_agree_partial {U : Swift.Classes} (hU : Standard U) {es : List RootEntry} {s : List Char}
    (h : SwiftRoot es s) (ho : PathsInOrder (callsOf es)) :
    AllRead s (shedEntries (es.map RootEntry.tree)) ∧
      SwiftAnswers U s (.ok (shedEntries (es.map RootEntry.tree))) := by
  refine ⟨C91_agree_partial (Swift.shared_root h) ho, (Swift.swiftRoot_parse hU h).1 ?_⟩
  refine Impl.PathsInOrder.kinds (f := fun e => pathKind e.value) ho ?_
  rintro ⟨ks, p, v, doc⟩ h
  match v, h with
  | .mk none (some (.object ..)) _, _ => rfl

/-- A document of the grammar is read by the Swift implementation exactly if its root paths are in order, and rejected
otherwise. -/
theorem C113_swift {U : Swift.Classes} (hU : Standard U) {es : List RootEntry} {s : List Char} (h : SwiftRoot es s) :
    (PathsInOrder (allPaths es) → SwiftAnswers U s (.ok (shedEntries (es.map RootEntry.tree)))) ∧
    (¬ PathsInOrder (allPaths es) → ∃ e, SwiftAnswers U s (.error e)) :=
  Swift.swiftRoot_parse hU h

/-- **C113**, partly, about agreement in general: on every document of the grammar in which no root key is `@` the
Swift implementation agrees with the other four, if those agree. -/
theorem C113_agrees_partial {U : Swift.Classes} (hU : Standard U) {es : List RootEntry} {s : List Char}
    (h : SwiftRoot es s) (hp : ∀ e ∈ es, ∀ sp, e.keys ≠ [.mk none none sp]) : SwiftAgrees U s := by
  have hw : watched false es = allPaths es := by
    clear h
    induction es with
    | nil => rfl
    | cons e es ih =>
      rw [Impl.watched_cons, ih fun e he => hp e (List.mem_cons_of_mem _ he)]
      have : watchedPath false e.keys e.path = some e.path := by
        unfold watchedPath
        split
        · rename_i sp hk
          exact (hp e (List.mem_cons_self ..) sp hk).elim
        · rw [if_neg (by simp)]
      rw [this]
      rfl
  obtain ⟨s1, s2⟩ := C113_swift hU h
  obtain ⟨p1, p2⟩ := C91_others (Swift.shared_root h) .python
  rw [show (Impl.Dialect.python == .go) = false from rfl, hw] at p1 p2
  by_cases ho : PathsInOrder (allPaths es)
  · refine ⟨fun entries hr => ?_, fun hr => ?_⟩
    · cases (C92_answer .python s).2.1 _ _ (hr.2 .python) (p1 ho)
      exact s1 ho
    · obtain ⟨e, he⟩ := hr.2 .python
      cases (C92_answer .python s).2.1 _ _ he (p1 ho)
  · refine ⟨fun entries hr => ?_, fun _ => s2 ho⟩
    obtain ⟨e, he⟩ := p2 ho
    cases (C92_answer .python s).2.1 _ _ he (hr.2 .python)

/-! ## Where it does not agree -/

/-- Classes of characters for the examples: those of the ASCII characters, and white space. -/
def sampleClasses : Swift.Classes := ⟨isWhitespace, Char.isUpper, Char.isLower, Char.isDigit, Char.isAlpha⟩

theorem sampleClasses_standard : Standard sampleClasses :=
  ⟨fun _ => rfl, fun _ _ => rfl, fun _ _ => rfl, fun _ _ => rfl, fun _ _ => rfl⟩

/-- An answer with some fuel is the answer. -/
theorem swiftAnswers_of {U : Swift.Classes} {s : List Char} {r} (n : Nat) (h : Swift.parse U n s = some r) :
    SwiftAnswers U s r := ⟨n, fun _ hm => Swift.parse_mono _ hm _ h⟩

/-- Both entries of a document with two keys. -/
def twoEntries (k v k' v' : Char) : List Entry :=
  [.mk (Impl.bareValue [k]) (Impl.bareValue [v]) none, .mk (Impl.bareValue [k']) (Impl.bareValue [v']) none]

/-- The entry `k` with a value. -/
def entryK (v : Value) : List Entry := [.mk (Impl.bareValue ['k']) v none]

theorem allRead_of {s : List Char} {es : List Entry} {t : Value} (h1 : parseTree s = some (.ok t))
    (h2 : shed t = .mk none (some (.object es none)) none) (h3 : ∀ d, Impl.parse d 60 s = some (.ok es)) : AllRead s es :=
  ⟨⟨t, h1, h2⟩, fun d => answers_of 60 (h3 d)⟩

/-- **C113** is false: in a sequence, a bare item behind attributes is lost. -/
theorem C113_false_lost :
    AllRead (chars! "k (a>1 b)") (entryK (.mk none (some (.sequence [Impl.objectValue
      [.mk (Impl.bareValue ['a']) (Impl.bareValue ['1']) none], Impl.bareValue ['b']] none)) none)) ∧
    SwiftAnswers sampleClasses (chars! "k (a>1 b)") (.ok (entryK (.mk none (some (.sequence [Impl.objectValue
      [.mk (Impl.bareValue ['a']) (Impl.bareValue ['1']) none]] none)) none))) :=
  ⟨allRead_of rfl rfl fun d => by cases d <;> rfl, swiftAnswers_of 60 rfl⟩

/-- **C113** is false: in an object, a key without value is given the key of the next line as its value. -/
theorem C113_false_lone :
    AllRead (chars! "k {a\nb 1}") (entryK (Impl.objectValue
      [.mk (Impl.bareValue ['a']) Impl.unitValue none, .mk (Impl.bareValue ['b']) (Impl.bareValue ['1']) none])) ∧
    SwiftAnswers sampleClasses (chars! "k {a\nb 1}") (.ok (entryK (Impl.objectValue
      [.mk (Impl.bareValue ['a']) (Impl.bareValue ['b']) none, .mk (Impl.bareValue ['1']) Impl.unitValue none]))) :=
  ⟨allRead_of rfl rfl fun d => by cases d <;> rfl, swiftAnswers_of 60 rfl⟩

/-- **C113** is false: commas before the first entry of an object, or two of them, are read as an entry. -/
theorem C113_false_comma :
    AllRead (chars! "k {,a 1}") (entryK (Impl.objectValue [.mk (Impl.bareValue ['a']) (Impl.bareValue ['1']) none])) ∧
    SwiftAnswers sampleClasses (chars! "k {,a 1}") (.ok (entryK (Impl.objectValue
      [.mk Impl.unitValue Impl.unitValue none, .mk (Impl.bareValue ['a']) (Impl.bareValue ['1']) none]))) :=
  ⟨allRead_of rfl rfl fun d => by cases d <;> rfl, swiftAnswers_of 60 rfl⟩

/-- **C113** is false: a string behind the tag `@r` is read as the key of the next entry. -/
theorem C113_false_tag :
    AllRead (chars! "k @r\"x\"") (entryK (.mk (some ⟨['r'], none⟩) (some (.scalar ['x'] .quoted none)) none)) ∧
    SwiftAnswers sampleClasses (chars! "k @r\"x\"") (.ok (entryK Impl.unitValue ++
      [.mk (.mk none (some (.scalar ['x'] .raw none)) none) Impl.unitValue none])) :=
  ⟨allRead_of rfl rfl fun d => by cases d <;> rfl, swiftAnswers_of 60 rfl⟩

/-- **C113** is false: the Swift implementation rejects documents that the others read alike: lines that end with CRLF,
a heredoc whose delimiter is one letter, a comma between root entries, and an escape with seven digits. -/
theorem C113_false_rejected :
    ∀ s ∈ [chars! "a 1\r\nb 2", chars! "k <<E\nx\nE", chars! "a 1, b 2", chars! "k \"\\u{0000041}\""],
      (∃ es, AllRead s es) ∧ ∃ e, SwiftAnswers sampleClasses s (.error e) := by
  intro s hs
  simp only [List.mem_cons, List.not_mem_nil, or_false] at hs
  rcases hs with rfl | rfl | rfl | rfl
  · exact ⟨⟨twoEntries 'a' '1' 'b' '2', allRead_of rfl rfl fun d => by cases d <;> rfl⟩, _, swiftAnswers_of 60 rfl⟩
  · exact ⟨⟨entryK (.mk none (some (.scalar ['x', '\n'] .heredoc none)) none),
      allRead_of rfl rfl fun d => by cases d <;> rfl⟩, _, swiftAnswers_of 60 rfl⟩
  · exact ⟨⟨twoEntries 'a' '1' 'b' '2', allRead_of rfl rfl fun d => by cases d <;> rfl⟩, _, swiftAnswers_of 60 rfl⟩
  · exact ⟨⟨entryK (.mk none (some (.scalar ['A'] .quoted none)) none),
      allRead_of rfl rfl fun d => by cases d <;> rfl⟩, _, swiftAnswers_of 60 rfl⟩

/-- **C113** is false: it accepts a key twice in an object, which all others reject. -/
theorem C113_false_twice : AllReject (chars! "k {a 1, a 2}") ∧
    SwiftAnswers sampleClasses (chars! "k {a 1, a 2}") (.ok (entryK (Impl.objectValue (twoEntries 'a' '1' 'a' '2')))) :=
  ⟨⟨⟨_, rfl⟩, fun d => by cases d <;> exact ⟨_, answers_of 60 rfl⟩⟩, swiftAnswers_of 60 rfl⟩

/-- **C113** is false: the Swift implementation does not agree with the others on every document. -/
theorem C113_false : ¬ ∀ s, SwiftAgrees sampleClasses s := by
  intro h
  obtain ⟨e, he⟩ := (h (chars! "k {a 1, a 2}")).2 C113_false_twice.1
  cases (C112_answer sampleClasses _).2.1 _ _ he C113_false_twice.2

/-! ## A document that meets the hypotheses -/

theorem swift_text : SwiftRoot agreeEntries (chars! "/// doc\na.b {x 1} // c\na.c @t(2)\n\"d\"\n") := by
  have hb : Blanks [' '] := by simp [Blanks, Blank]
  have hnl : LfGap ['\n'] := ⟨.newline (n := ['\n']) (.inl rfl) .nil, by decide⟩
  have h0 : LfGap [] := ⟨.nil, by decide⟩
  have h3 : SwiftRoot [⟨[scalarValue (chars! "d") .quoted], [chars! "d"], .mk none none none, none⟩]
      (chars! "\n\"d\"\n") :=
    .lone (g := ['\n']) (dt := []) (ls := []) (tr := []) (kt := chars! "\"d\"") (t := ['\n']) hnl .nil
      (.other (k := scalarValue (chars! "d") .quoted) (.scalar (.quoted (body := chars! "d")
        (.plain (by decide) (by decide) .nil) (by decide) (by decide) (.plain (by decide) .nil) (by
          intro a h b he
          have := congrArg List.length he
          simp at this
          omega)) (by decide))
        (by intro v h; cases h) (by intro t p h; cases h) (by decide)) .none
      (.nil hnl) trivial ⟨[], ['\n'], rfl, by simp [Blanks], .inl (.inr (.inl ⟨_, rfl⟩))⟩
  have h2 : SwiftRoot agreeEntries.tail (chars! "\na.c @t(2)\n\"d\"\n") :=
    .cons (g := ['\n']) (dt := []) (ls := []) (kt := chars! "a.c") (b := [' ']) (s := chars! "@t(2)") (tr := [])
      (t := chars! "\n\"d\"\n") hnl .nil
      (.path (segs := [chars! "a", chars! "c"]) (by decide) (by decide) (bareText_of_ok rfl)) hb (by decide)
      (.tagged (n := chars! "t") (s := chars! "(2)") ⟨'t', [], rfl, .inl (by decide), by simp⟩ (.sequence (.cons (g := []) (s := chars! "2")
        (t := [')']) h0 (.scalar (.bare (bareText_of_ok rfl))) (.nil (g := []) h0) (.inr ⟨')', [], rfl, by simp⟩)))
        ⟨'(', _, rfl, .inl rfl⟩) .none h3 trivial
      ⟨[], chars! "\n\"d\"\n", rfl, by simp [Blanks], .inl (.inr (.inl ⟨_, rfl⟩))⟩
  exact .cons (g := []) (dt := chars! "/// doc\n") (ls := [chars! "doc"]) (kt := chars! "a.b") (b := [' '])
    (s := chars! "{x 1}") (tr := chars! " // c") (t := chars! "\na.c @t(2)\n\"d\"\n") h0
    (.cons (l := chars! "doc") (body := chars! " doc") (g := []) (t := []) (.inl rfl) (by decide) h0 .nil)
    (.path (segs := [chars! "a", chars! "b"]) (by decide) (by decide) (bareText_of_ok rfl)) hb (by decide)
    (.object (.cons (g := []) (dt := []) (ls := []) (k := scalarValue (chars! "x") .bare) (ks := chars! "x")
      (b := [' ']) (s := chars! "1") (tr := []) (t := ['}']) (.inl h0) .nil
      (.scalar (.bare (bareText_of_ok rfl)) (by decide)) (by intro v h; cases h; decide) hb (by decide)
      (.scalar (.bare (bareText_of_ok rfl))) .none (.nil (g := []) (.inl h0)) (.inr ⟨'}', [], rfl, by simp⟩)
      ⟨[], ['}'], rfl, by simp [Blanks], .inr ⟨'}', [], rfl, .inr rfl⟩⟩) (by simp [DistinctKeys]) (by
        simp [DistinctLabels, keyLabel, entryKey, scalarValue]))
    (.comment (b := [' ']) (c := chars! "// c") hb ⟨chars! " c", rfl, by decide, by decide⟩) h2 trivial
    (.inr (.inl ⟨_, rfl⟩))

/-- The hypotheses of `C113_agree_partial` are met: a document with a doc comment, dotted keys, an object, a tag, a
sequence, a comment and a quoted key without value. -/
example : AllRead (chars! "/// doc\na.b {x 1} // c\na.c @t(2)\n\"d\"\n")
      (shedEntries (agreeEntries.map RootEntry.tree)) ∧
    SwiftAnswers sampleClasses (chars! "/// doc\na.b {x 1} // c\na.c @t(2)\n\"d\"\n")
      (.ok (shedEntries (agreeEntries.map RootEntry.tree))) :=
  C113_agree_partial sampleClasses_standard swift_text agree_order

/-- The hypotheses of `C113_agrees_partial` are met by the same document. -/
example : SwiftAgrees sampleClasses (chars! "/// doc\na.b {x 1} // c\na.c @t(2)\n\"d\"\n") :=
  C113_agrees_partial sampleClasses_standard swift_text (by simp [agreeEntries, scalarValue])

/-- A document with the same path twice is rejected. -/
example : ∃ e, SwiftAnswers sampleClasses (chars! "a 1\na 2") (.error e) := ⟨_, swiftAnswers_of 40 rfl⟩

end Styx.Props
