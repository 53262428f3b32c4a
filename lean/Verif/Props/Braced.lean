import Verif.Text.Braced
import Verif.Props.Text

/-! # Property theorems C16 and C47: documents with braces around the root

`Verif.Text.BracedSpec` says how such documents are written. -/

namespace Styx.Props

open Styx Styx.Spec

/-- **C47**, braces around the root: however the root entries are written between the braces, the parsed tree
has exactly these entries, if no two keys that are not dotted are the same. -/
theorem C47_braced {es : List RootEntry} {s : List Char} (h : BracedText es s) (hd : DistinctSimple es) :
    ∃ t, parseTree s = some (.ok t) ∧
      erase t = .mk none (some (.object (es.map RootEntry.tree) none)) none :=
  (bracedText_events h).1 hd

/-- **C47**, braces around the root: two equal keys that are not dotted are reported. -/
theorem C47_braced_duplicate {es : List RootEntry} {s : List Char} (h : BracedText es s)
    (hd : ¬ DistinctSimple es) :
    ∃ k sp, parseTree s = some (.error (.parse k sp)) ∧ ∃ o, k = .duplicateKey o :=
  (bracedText_events h).2 hd

/-- A document with braces around the root is accepted exactly when its keys that are not dotted are
distinct. -/
theorem C47_braced_accepted {es : List RootEntry} {s : List Char} (h : BracedText es s) :
    (∃ t, parseTree s = some (.ok t)) ↔ DistinctSimple es := by
  constructor
  · rintro ⟨t, ht⟩
    by_cases hd : DistinctSimple es
    · exact hd
    · obtain ⟨k, sp, h', -⟩ := C47_braced_duplicate h hd
      rw [h'] at ht
      cases ht
  · intro hd
    obtain ⟨t, ht, -⟩ := C47_braced h hd
    exact ⟨t, ht⟩

/-- **C47**, layout of documents with braces around the root. -/
theorem C47_braced_layout {es : List RootEntry} {s s' : List Char} (h : BracedText es s)
    (h' : BracedText es s') (hd : DistinctSimple es) :
    ∃ t t', parseTree s = some (.ok t) ∧ parseTree s' = some (.ok t') ∧ erase t = erase t' := by
  obtain ⟨t, h1, h2⟩ := C47_braced h hd
  obtain ⟨t', h3, h4⟩ := C47_braced h' hd
  exact ⟨t, t', h1, h3, by rw [h2, h4]⟩

/-- **C47**: braces around the root of an accepted document change nothing in its tree (the keys that are
not dotted must be distinct between braces; without braces the paths must not conflict). -/
theorem C47_braces {es : List RootEntry} {s s' : List Char} (h : RootText es s) (h' : BracedText es s')
    (hc : Consistent (callsOf es)) (hd : DistinctSimple es) :
    ∃ t t', parseTree s = some (.ok t) ∧ parseTree s' = some (.ok t') ∧ erase t = erase t' := by
  obtain ⟨t, h1, h2⟩ := C47_document h hc
  obtain ⟨t', h3, h4⟩ := C47_braced h' hd
  exact ⟨t, t', h1, h3, by rw [h2, h4]⟩

/-! ## A document -/

/-- The sample of `Verif.Props.Text` with braces around it. -/
theorem sample_braced :
    BracedText sampleEntries (chars! "// hi\n{/// doc\na.b x>1 y>(2) // c\n\ta.b.c\n} // end\n") := by
  have h2 : BracedEntries [⟨[scalarValue (chars! "a") .bare, scalarValue (chars! "b") .bare,
      scalarValue (chars! "c") .bare], [chars! "a", chars! "b", chars! "c"], .mk none none none, none⟩]
      (chars! "\n\ta.b.c\n}") :=
    .lone (g := chars! "\n\t") (dt := []) (ls := []) (tr := []) (kt := chars! "a.b.c") (t := chars! "\n}")
      (.newline (n := ['\n']) (.inl rfl) (.blank (.inr rfl) .nil)) .nil
      (.path (segs := [chars! "a", chars! "b", chars! "c"]) (by decide) (by decide) (bareText_of_ok rfl)) .none
      (.nil (g := ['\n']) (.newline (n := ['\n']) (.inl rfl) .nil)) (.inr ⟨'\n', _, rfl, by decide⟩)
      ⟨[], _, rfl, by simp [Blanks], .inl (.inr (.inl ⟨_, rfl⟩))⟩
  have h3 : BracedEntries sampleEntries (chars! "/// doc\na.b x>1 y>(2) // c\n\ta.b.c\n}") :=
    .cons (g := []) (dt := chars! "/// doc\n") (ls := [chars! "doc"]) (kt := chars! "a.b")
      (b := [' ']) (s := chars! "x>1 y>(2)") (tr := chars! " // c") (t := chars! "\n\ta.b.c\n}")
      .nil
      (.cons (l := chars! "doc") (body := chars! " doc") (n := ['\n']) (g := []) (t := []) (.inl rfl) (by decide)
        (.inl rfl) .nil .nil)
      (.path (segs := [chars! "a", chars! "b"]) (by decide) (by decide) (bareText_of_ok rfl))
      (by simp [Blanks, Blank]) (by decide) (.attributes sample_attrs)
      (.comment (b := [' ']) (c := chars! "// c") (by simp [Blanks, Blank]) ⟨chars! " c", rfl, by decide, by decide⟩) h2
      ⟨trivial, [' '], chars! "// c\n\ta.b.c\n}", rfl, by simp [Blanks, Blank], .inr (.inr ⟨_, rfl⟩)⟩
      (.inr (.inl ⟨_, rfl⟩))
  exact .mk (g := chars! "// hi\n") (g' := chars! " // end\n")
    (.comment (t := chars! "// hi") (n := ['\n']) ⟨chars! " hi", rfl, by decide, by decide⟩ (.inl rfl) .nil) h3
    (.blank (.inl rfl) (.comment (t := chars! "// end") (n := ['\n']) ⟨chars! " end", rfl, by decide, by decide⟩
      (.inl rfl) .nil))

/-- The hypotheses are met: the sample with and without braces gives the same tree. -/
example : ∃ t t', parseTree (chars! "// hi\n/// doc\na.b x>1 y>(2) // c\n\ta.b.c\n") = some (.ok t) ∧
    parseTree (chars! "// hi\n{/// doc\na.b x>1 y>(2) // c\n\ta.b.c\n} // end\n") = some (.ok t') ∧
    erase t = erase t' := by
  refine C47_braces sample_text sample_braced ?_ (by unfold DistinctSimple; decide)
  exact (C16_accepted_iff_partial [⟨[chars! "a", chars! "b"], .object, ⟨0, 0⟩⟩,
    ⟨[chars! "a", chars! "b", chars! "c"], .terminal, ⟨0, 0⟩⟩] (by decide)).1 ⟨_, rfl⟩

/-- Two entries with the same key between braces. -/
theorem sample_bracedTwice : BracedText
    [⟨[scalarValue (chars! "a") .bare], [chars! "a"], scalarValue (chars! "1") .bare, none⟩,
     ⟨[scalarValue (chars! "a") .quoted], [chars! "a"], .mk none none none, none⟩] (chars! "{a 1, \"a\"}") := by
  refine .mk (g := []) (g' := []) (t := chars! "a 1, \"a\"}") .nil ?_ .nil
  refine .cons (g := []) (dt := []) (ls := []) (kt := ['a']) (b := [' ']) (s := ['1']) (tr := [])
    (t := chars! ", \"a\"}") .nil .nil (.path (segs := [['a']]) (by decide) (by decide) (bareText_of_ok rfl))
    (by simp [Blanks, Blank]) (by decide) (.scalar (.bare (bareText_of_ok rfl))) .none ?_
    (.inr ⟨',', _, rfl, by decide⟩) ⟨[], _, rfl, by simp [Blanks], .inr ⟨_, _, rfl, .inl rfl⟩⟩
  exact .lone (g := [',', ' ']) (dt := []) (ls := []) (kt := chars! "\"a\"") (tr := []) (t := ['}'])
    (.comma rfl (.blank (.inl rfl) .nil)) .nil
    (.other (.scalar (.quoted (body := ['a']) (.plain (by decide) (by decide) .nil) (.plain (by decide) .nil)) (by decide))
      (by intro v h; simp [scalarValue] at h))
    .none (.nil (g := []) .nil) trivial ⟨[], _, rfl, by simp [Blanks], .inr ⟨_, _, rfl, .inr rfl⟩⟩

example : ∃ k sp, parseTree (chars! "{a 1, \"a\"}") = some (.error (.parse k sp)) ∧ ∃ o, k = .duplicateKey o :=
  C47_braced_duplicate sample_bracedTwice (by unfold DistinctSimple; decide)

/-- **C16** fails between the braces of the root: the same dotted path twice is accepted there, and the tree
has the key twice; without the braces it is rejected. -/
theorem C16_braced_false :
    (∃ t, parseTree (chars! "{a.b 1\na.b 2}") = some (.ok t) ∧ erase t = .mk none (some (.object
      [.mk (scalarValue (chars! "a") .bare) (.mk none (some (.object [.mk (scalarValue (chars! "b") .bare)
        (scalarValue (chars! "1") .bare) none] none)) none) none,
       .mk (scalarValue (chars! "a") .bare) (.mk none (some (.object [.mk (scalarValue (chars! "b") .bare)
        (scalarValue (chars! "2") .bare) none] none)) none) none] none)) none) ∧
    ∃ k sp, parseTree (chars! "a.b 1\na.b 2") = some (.error (.parse k sp)) :=
  ⟨⟨_, rfl, rfl⟩, _, _, rfl⟩

end Styx.Props
