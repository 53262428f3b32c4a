import Verif.Text.Root

/-! # Property theorems C16, C18 and C47: documents as texts

`Verif.Text.Grammar` (how values and documents are written) and `Verif.Parse.PathSpec` (which paths
conflict) are the specifications. -/

namespace Styx.Props

open Styx Styx.Spec

/-! ## C47 -/

/-- **C47**: however the root entries `es` are written — any layout, any comments, any form of scalars, at
any nesting — the parsed tree has exactly these entries, if no path conflicts with those before it. -/
theorem C47_document {es : List RootEntry} {s : List Char} (h : RootText es s)
    (hc : Consistent (callsOf es)) :
    ∃ t, parseTree s = some (.ok t) ∧
      erase t = .mk none (some (.object (es.map RootEntry.tree) none)) none :=
  (rootText_events h).1 hc

/-- **C47**, layout: two texts of the same root entries give the same tree, spans aside. -/
theorem C47_layout {es : List RootEntry} {s s' : List Char} (h : RootText es s) (h' : RootText es s')
    (hc : Consistent (callsOf es)) :
    ∃ t t', parseTree s = some (.ok t) ∧ parseTree s' = some (.ok t') ∧ erase t = erase t' := by
  obtain ⟨t, h1, h2⟩ := C47_document h hc
  obtain ⟨t', h3, h4⟩ := C47_document h' hc
  exact ⟨t, t', h1, h3, by rw [h2, h4]⟩

/-- **C47**: a text with a conflicting path is rejected with an error about keys. -/
theorem C47_conflict {es : List RootEntry} {s : List Char} (h : RootText es s)
    (hc : ¬ Consistent (callsOf es)) :
    ∃ k sp, parseTree s = some (.error (.parse k sp)) ∧
      ((∃ o, k = .duplicateKey o) ∨ (∃ p, k = .reopenedPath p) ∨ ∃ p, k = .nestIntoTerminal p) :=
  (rootText_events h).2 hc

/-- A key at the root followed by a value is a document. -/
theorem entry_document {k s : List Char} {v : Value} {e : Tail} (hk : BareText k) (hd : '.' ∉ k)
    (hv : ValueText v e s) (hf : Follows e []) :
    RootText [⟨[scalarValue k .bare], [k], v, none⟩] (k ++ ' ' :: s) := by
  have hne : k ≠ [] := by
    obtain ⟨c, r, rfl, -⟩ := hk.2
    simp
  have := RootText.cons (g := []) (dt := []) (ls := []) (b := [' ']) (tr := []) .nil .nil
    (.path (segs := [k]) (by simp) (by simpa using ⟨hne, hd⟩) hk) (by simp [Blanks, Blank]) (by simp) hv .none
    (.nil .nil) (by simpa using hf) (by
      rw [EntryEnd, if_pos rfl]
      exact ⟨[], [], rfl, by simp [Blanks], .inl (.inl rfl)⟩)
  simpa [docOf, dotted] using this

theorem consistent_single (p : List (List Char)) (k : PathValueKind) : Consistent [(p, k)] := by
  rw [← List.nil_append [(p, k)], consistent_snoc]
  refine ⟨consistent_nil, ?_⟩
  rintro ⟨h0, last, kind, h, -⟩
  simp at h

/-- Every value is read back when it stands at a key. -/
theorem C47_value {k s : List Char} {v : Value} {e : Tail} (hk : BareText k) (hd : '.' ∉ k)
    (hv : ValueText v e s) (hf : Follows e []) :
    ∃ t, parseTree (k ++ ' ' :: s) = some (.ok t) ∧
      erase t = .mk none (some (.object [.mk (scalarValue k .bare) v none] none)) none :=
  C47_document (entry_document hk hd hv hf) (consistent_single _ _)

/-! ## C16 for documents -/

/-- **C16**, documents: a text of root entries is accepted exactly when no path conflicts with those before
it, where a path counts as given an object if its value is an object or a run of attributes without tag,
and as given a terminal value otherwise.  (As for `C16_accepted_iff_partial`, only an extension of the last
path is a conflict with a terminal value.) -/
theorem C16_document_partial {es : List RootEntry} {s : List Char} (h : RootText es s) :
    (∃ t, parseTree s = some (.ok t)) ↔ Consistent (callsOf es) := by
  constructor
  · rintro ⟨t, ht⟩
    by_cases hc : Consistent (callsOf es)
    · exact hc
    · obtain ⟨k, sp, h', -⟩ := C47_conflict h hc
      rw [h'] at ht
      cases ht
  · intro hc
    obtain ⟨t, ht, -⟩ := C47_document h hc
    exact ⟨t, ht⟩

/-! ## C18 -/

/-- **C18**: a run of attributes at a key is one object with these entries in the written order. -/
theorem C18_attributes {k t : List Char} {es : List Entry} {e : Tail} (hk : BareText k) (hd : '.' ∉ k)
    (ha : AttrsText es e t) (hf : Follows e []) :
    ∃ tree, parseTree (k ++ ' ' :: t) = some (.ok tree) ∧
      erase tree = .mk none (some (.object
        [.mk (scalarValue k .bare) (.mk none (some (.object es none)) none) none] none)) none :=
  C47_value hk hd (.attributes ha) ⟨hf, [], [], rfl, by simp [Blanks], .inl (.inl rfl)⟩

/-- **C18**: writing the attributes with braces gives the same tree. -/
theorem C18_braces {k t t' : List Char} {es : List Entry} {e : Tail} (hk : BareText k) (hd : '.' ∉ k)
    (ha : AttrsText es e t) (hf : Follows e []) (he : EntriesText es t') (hdis : DistinctKeys es) :
    ∃ tree tree', parseTree (k ++ ' ' :: t) = some (.ok tree) ∧
      parseTree (k ++ ' ' :: '{' :: t') = some (.ok tree') ∧ erase tree = erase tree' := by
  obtain ⟨t1, h1, h2⟩ := C18_attributes hk hd ha hf
  obtain ⟨t2, h3, h4⟩ := C47_value hk hd (.object he hdis) trivial
  exact ⟨t1, t2, h1, h3, by rw [h2, h4]⟩

/-! ## A document -/

/-- A checkable form of `BareText`. -/
def bareOk (s : List Char) : Bool :=
  s.all (fun c => !(bareForbidden.contains c) && !isWhitespace c) &&
  match s with
  | [] => false
  | c :: r => !(c = '=' || c = '@') && !(c = '/' && r.head? = some '/') && !(c = 'r' && r.head? = some '#') &&
      !(c = '<' && r.head? = some '<')

theorem bareText_of_ok {s : List Char} (h : bareOk s = true) : BareText s := by
  unfold bareOk at h
  rw [Bool.and_eq_true] at h
  obtain ⟨h1, h2⟩ := h
  refine ⟨?_, ?_⟩
  · intro c hc
    have := (List.all_eq_true.1 h1) c hc
    simpa using this
  · cases s with
    | nil => cases h2
    | cons c r =>
      refine ⟨c, r, rfl, ?_⟩
      grind

theorem sample_attrs : AttrsText [.mk (scalarValue (chars! "x") .bare) (scalarValue (chars! "1") .bare) none,
    .mk (scalarValue (chars! "y") .bare) (.mk none (some (.sequence [scalarValue (chars! "2") .bare] none)) none) none]
    .closed (chars! "x>1 y>(2)") :=
  .cons (k := chars! "x") (s := chars! "1") (b := [' ']) (e := .word) (t := chars! "y>(2)")
    (bareText_of_ok rfl) (.scalar (.bare (bareText_of_ok rfl))) trivial
    (by simp [Blanks, Blank]) (.one (k := chars! "y") (s := chars! "(2)") (bareText_of_ok rfl)
      (.sequence (.cons (g := []) (s := chars! "2") (t := [')']) .nil (.scalar (.bare (bareText_of_ok rfl)))
        (.nil (g := []) .nil) (.inr ⟨')', [], rfl, by simp⟩))) trivial)
    (.inr ⟨' ', _, rfl, by simp⟩)

/-- The hypotheses of C18 are met. -/
example : ∃ tree, parseTree (chars! "k x>1 y>(2)") = some (.ok tree) ∧
    erase tree = .mk none (some (.object [.mk (scalarValue (chars! "k") .bare) (.mk none (some (.object
      [.mk (scalarValue (chars! "x") .bare) (scalarValue (chars! "1") .bare) none,
       .mk (scalarValue (chars! "y") .bare) (.mk none (some (.sequence [scalarValue (chars! "2") .bare] none)) none)
        none] none)) none) none] none)) none :=
  C18_attributes (k := chars! "k") (bareText_of_ok rfl) (by decide) sample_attrs trivial

/-- The root entries of the sample document. -/
def sampleEntries : List RootEntry :=
  [⟨[scalarValue (chars! "a") .bare, scalarValue (chars! "b") .bare], [chars! "a", chars! "b"],
    .mk none (some (.object
      [.mk (scalarValue (chars! "x") .bare) (scalarValue (chars! "1") .bare) none,
       .mk (scalarValue (chars! "y") .bare) (.mk none (some (.sequence [scalarValue (chars! "2") .bare] none)) none)
        none] none)) none, some (chars! "doc")⟩,
   ⟨[scalarValue (chars! "a") .bare, scalarValue (chars! "b") .bare, scalarValue (chars! "c") .bare],
    [chars! "a", chars! "b", chars! "c"], .mk none none none, none⟩]

/-- A document with a comment, a doc comment, dotted keys, attributes, a trailing comment and a lone key. -/
theorem sample_text : RootText sampleEntries (chars! "// hi\n/// doc\na.b x>1 y>(2) // c\n\ta.b.c\n") := by
  have h2 : RootText [⟨[scalarValue (chars! "a") .bare, scalarValue (chars! "b") .bare,
      scalarValue (chars! "c") .bare], [chars! "a", chars! "b", chars! "c"], .mk none none none, none⟩]
      (chars! "\n\ta.b.c\n") :=
    .lone (g := chars! "\n\t") (dt := []) (ls := []) (tr := []) (kt := chars! "a.b.c") (t := ['\n'])
      (.newline (n := ['\n']) (.inl rfl) (.blank (.inr rfl) .nil)) .nil
      (.path (segs := [chars! "a", chars! "b", chars! "c"]) (by decide) (by decide) (bareText_of_ok rfl)) .none
      (.nil (.newline (n := ['\n']) (.inl rfl) .nil)) (.inr ⟨'\n', [], rfl, by decide⟩)
      ⟨[], ['\n'], rfl, by simp [Blanks], .inl (.inr (.inl ⟨_, rfl⟩))⟩
  exact .cons (g := chars! "// hi\n") (dt := chars! "/// doc\n") (ls := [chars! "doc"]) (kt := chars! "a.b")
    (b := [' ']) (s := chars! "x>1 y>(2)") (tr := chars! " // c") (t := chars! "\n\ta.b.c\n")
    (.comment (t := chars! "// hi") (n := ['\n']) ⟨chars! " hi", rfl, by decide, by decide⟩ (.inl rfl) .nil)
    (.cons (l := chars! "doc") (body := chars! " doc") (n := ['\n']) (g := []) (t := []) (.inl rfl) (by decide)
      (.inl rfl) .nil .nil)
    (.path (segs := [chars! "a", chars! "b"]) (by decide) (by decide) (bareText_of_ok rfl))
    (by simp [Blanks, Blank]) (by decide) (.attributes sample_attrs)
    (.comment (b := [' ']) (c := chars! "// c") (by simp [Blanks, Blank]) ⟨chars! " c", rfl, by decide, by decide⟩) h2
    ⟨trivial, [' '], chars! "// c\n\ta.b.c\n", rfl, by simp [Blanks, Blank], .inr (.inr ⟨_, rfl⟩)⟩
    (.inr (.inl ⟨_, rfl⟩))

/-- The hypotheses of C47 are met. -/
example : ∃ t, parseTree (chars! "// hi\n/// doc\na.b x>1 y>(2) // c\n\ta.b.c\n") = some (.ok t) ∧
    erase t = .mk none (some (.object (sampleEntries.map RootEntry.tree) none)) none := by
  refine C47_document sample_text ?_
  exact (C16_accepted_iff_partial [⟨[chars! "a", chars! "b"], .object, ⟨0, 0⟩⟩,
    ⟨[chars! "a", chars! "b", chars! "c"], .terminal, ⟨0, 0⟩⟩] (by decide)).1 ⟨_, rfl⟩

end Styx.Props
