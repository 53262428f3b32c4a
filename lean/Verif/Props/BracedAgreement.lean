import Verif.Impl.ReadBraced
import Verif.Swift.ReadBraced
import Verif.Props.Braced
import Verif.Props.Agreement
import Verif.Props.SwiftAgreement

/-! # Property theorems C91 and C113: documents with braces around the root

`Verif.Impl.BracedSpec` and `Verif.Swift.ReadBraced` say how such documents are written.  The Rust implementation takes
the braces to be those of the root; the others read a document with one entry, of key `@`. -/

namespace Styx.Props

open Styx Styx.Spec

/-- An entry as a root entry. -/
def asRoot : Entry → RootEntry
  | .mk k v doc => ⟨[k], [keyName k], v, doc⟩

/-- The document whose only entry has the key `@` and the object with the given entries. -/
def underUnit (entries : List Entry) : List Entry := [.mk Impl.unitValue (Impl.objectValue entries) none]

theorem asRoot_tree (es : List Entry) : (es.map asRoot).map RootEntry.tree = es := by
  induction es with
  | nil => rfl
  | cons e es ih => cases e; simp only [List.map, ih]; rfl

theorem asRoot_ids (es : List Entry) : simpleIds (es.map asRoot) = es.map fun e => keyId (entryKey e) := by
  induction es with
  | nil => rfl
  | cons e es ih =>
    cases e
    unfold simpleIds at ih ⊢
    rw [List.map, List.filterMap_cons, ih]
    rfl

theorem asRoot_key {k e s} (h : SharedKey k e s) (hd : Dotless k) : ∃ e', RootKeyText [k] [keyName k] e' s ∧
    ∀ rest, SharedFollows e rest → Follows e' rest := by
  by_cases hb : ∃ v, k = scalarValue v .bare
  · obtain ⟨v, rfl⟩ := hb
    have hdot := hd v rfl
    cases h with
    | scalar h1 h2 =>
      cases h1 with
      | bare h =>
        refine ⟨.word, RootKeyText.path (segs := [_]) (by simp) ?_ h, fun _ h => h.follows⟩
        intro seg hs
        simp at hs
        subst hs
        refine ⟨?_, hdot⟩
        rintro rfl
        obtain ⟨-, c, r, h, -⟩ := h
        cases h
  · exact ⟨e, .other h.key fun v hv => hb ⟨v, hv⟩, fun _ h => h.follows⟩

theorem asRoot_entries {es t} (h : SharedEntries es t) : BracedEntries (es.map asRoot) t := by
  refine SharedEntries.rec (motive_1 := fun _ _ _ _ => True) (motive_2 := fun _ _ _ => True)
    (motive_3 := fun es t _ => BracedEntries (es.map asRoot) t) (motive_4 := fun _ _ _ _ => True)
    ?_ ?_ ?_ ?_ ?_ ?_ ?_ ?_ ?_ ?_ ?_ ?_ ?_ ?_ h
  · intros; trivial
  · intros; trivial
  · intros; trivial
  · intros; trivial
  · intros; trivial
  · intros; trivial
  · intros; trivial
  · intros; trivial
  · intros; trivial
  · intro g h; exact .nil h
  · intro g ls dt k ke ks b v e s tr es t h1 h2 h3 h4 h5 h6 h7 h8 _ h9 h10 _ ih
    obtain ⟨e', hk, -⟩ := asRoot_key h3 h4
    exact .cons h1 h2 hk h5 h6 h7.value h8 ih h9.follows h10
  · intro g ls dt k ke ks tr es t h1 h2 h3 h4 h5 _ h6 h7 ih
    obtain ⟨e', hk, hf⟩ := asRoot_key h3 h4
    exact .lone h1 h2 hk h5 ih (hf _ h6) h7.entryEnd
  · intros; trivial
  · intros; trivial

theorem asRoot_braced {es s} (h : SharedBraced es s) : BracedText (es.map asRoot) s ∧ DistinctSimple (es.map asRoot) := by
  obtain ⟨h1, h2, h3, h4, h5⟩ := h
  refine ⟨.mk h1 (asRoot_entries h2) h5, ?_⟩
  unfold DistinctSimple
  rw [asRoot_ids]
  exact h3

/-- **C91**, partly, for documents with braces around the root: all the implementations accept them; the Rust
implementation reads the entries between the braces, and the others one entry of key `@` with these entries. -/
theorem C91_braced_partial {es : List Entry} {s : List Char} (h : SharedBraced es s) :
    (∃ t, parseTree s = some (.ok t) ∧ shed t = .mk none (some (.object (shedEntries es) none)) none) ∧
      ∀ d, Answers d s (.ok (underUnit (shedEntries es))) := by
  refine ⟨?_, fun d => Impl.sharedBraced_parse d h⟩
  obtain ⟨hb, hd⟩ := asRoot_braced h
  obtain ⟨t, h1, h2⟩ := C47_braced hb hd
  refine ⟨t, h1, ?_⟩
  rw [← shed_erase t, h2, asRoot_tree]
  rfl

theorem underUnit_ne (es : List Entry) : es ≠ underUnit es := by
  intro h
  have := congrArg sizeOf h
  simp [underUnit, Impl.objectValue] at this
  omega

/-- **C91** is false of every document with braces around the root: the implementations do not agree. -/
theorem C91_braced_false {es : List Entry} {s : List Char} (h : SharedBraced es s) : ¬ AllAgree s := by
  obtain ⟨⟨t, h1, h2⟩, h3⟩ := C91_braced_partial h
  rintro (⟨entries, ⟨t', h4, h5⟩, h6⟩ | ⟨⟨e, h4⟩, -⟩)
  · rw [h1] at h4
    cases h4
    rw [h2] at h5
    cases h5
    have := (C92_answer .python s).2.1 _ _ (h6 .python) (h3 .python)
    injection this with this
    exact underUnit_ne _ this
  · rw [h1] at h4
    cases h4

/-- Python, JavaScript and Go accept nothing but space and commas behind the closing brace (of which the first token
is well formed; Go passes over the rest of a text that is not, see `C115_go_false`). -/
theorem C91_braced_trailing (d : Impl.Dialect) {g : List Char} {es : List Entry} {t g' : List Char} {c : Char}
    {r : List Char} (hg : Gap true g) (h : SharedEntries es t) (hk : DistinctKeys es) (hl : DistinctLabels es)
    (hg' : Gap true g') (hc : c ∉ [' ', '\t', '\r', '\n', ',', '/'])
    (hx : ∀ ws nl, ∃ tk z, Impl.readToken d ws nl (c :: r) = .ok (tk, z)) (es' : List Entry) :
    ¬ Answers d (g ++ ('{' :: (t ++ (g' ++ c :: r)))) (.ok es') := by
  rintro ⟨n, hn⟩
  have hcore : Impl.core false (g' ++ c :: r) = c :: r := by
    rw [Impl.core_gap hg']
    simp only [List.mem_cons, not_or] at hc
    obtain ⟨h1, h2, h3, h4, h5, h6, -⟩ := hc
    refine Impl.core_start (Impl.start_char ?_ h6) (by simpa using h5)
    simp [Impl.isSpace, h1, h2, h3, h4]
  refine Impl.sharedBraced_trailing d hg h hk hl (x := g' ++ c :: r) ?_ ?_ (hn n (Nat.le_refl n))
  · intro ws nl
    rw [hcore]
    exact hx ws nl
  · rw [hcore]
    exact (nofun)

/-- **C113**, partly, for documents with braces around the root: the Swift implementation reads what Python, JavaScript
and Go read. -/
theorem C113_braced_partial {U : Swift.Classes} (hU : Standard U) {es : List Entry} {s : List Char}
    (h : SwiftBraced es s) : SwiftAnswers U s (.ok (underUnit (shedEntries es))) ∧
      (∀ d, Answers d s (.ok (underUnit (shedEntries es)))) ∧ ¬ AllAgree s :=
  ⟨Swift.swiftBraced_parse hU h, (C91_braced_partial (Swift.shared_braced h)).2, C91_braced_false (Swift.shared_braced h)⟩

/-- The Swift implementation accepts nothing but blanks, line feeds and comments behind the closing brace. -/
theorem C113_braced_trailing {U : Swift.Classes} (hU : Standard U) {g : List Char} {es : List Entry}
    {t g' : List Char} {c : Char} {r : List Char} (hg : LfGap g) (h : SwiftEntries false es t) (hg' : LfGap g')
    (hc : c ∉ [' ', '\t', '\n', '\r', '/']) : SwiftAnswers U (g ++ ('{' :: (t ++ (g' ++ c :: r)))) (.error .trailingContent) := by
  refine Swift.swiftBraced_trailing hU _ hg h ?_
  simp only [List.mem_cons, not_or] at hc
  obtain ⟨h1, h2, h3, h4, h5, -⟩ := hc
  rw [Swift.behindBlank_gap hg', Swift.behindBlank_start (Impl.start_char (by simp [Impl.isSpace, h1, h2, h3, h4]) h5)]
  exact Swift.kindOf_cons U c r

/-! ## Documents -/

theorem sample_sharedBraced : SwiftBraced [.mk (scalarValue ['a'] .bare) (scalarValue ['1'] .bare) none] (chars! "{a 1}\n") :=
  .mk (g := []) (t := chars! "a 1}") (g' := ['\n']) ⟨.nil, by simp⟩
    (.cons (c := false) (g := []) (ls := []) (dt := []) (ks := ['a']) (b := [' ']) (s := ['1']) (tr := []) (t := ['}'])
      (.inl ⟨.nil, by simp⟩) .nil (.scalar (.bare (bareText_of_ok rfl)) (by simp)) (by intro v h; cases h; decide)
      (by simp [Blanks, Blank]) (by simp) (.scalar (.bare (bareText_of_ok rfl))) .none
      (.nil (g := []) (.inl ⟨.nil, by simp⟩)) (.inr ⟨'}', _, rfl, by decide⟩)
      ⟨[], _, rfl, by simp [Blanks], .inr ⟨'}', _, rfl, .inr rfl⟩⟩)
    (by unfold DistinctKeys; decide) (by unfold DistinctLabels; decide) ⟨.newline (n := ['\n']) (.inl rfl) .nil, by decide⟩

example : ¬ AllAgree (chars! "{a 1}\n") := C91_braced_false (Swift.shared_braced sample_sharedBraced)

example : SwiftAnswers sampleClasses (chars! "{a 1}\n") (.ok (underUnit
    [.mk (scalarValue ['a'] .bare) (scalarValue ['1'] .bare) none])) :=
  (C113_braced_partial sampleClasses_standard sample_sharedBraced).1

example : ¬ ∃ es, Answers .go (chars! "{} b") (.ok es) := by
  rintro ⟨es, h⟩
  exact C91_braced_trailing .go (g := []) (es := []) (t := ['}']) (g' := [' ']) (c := 'b') (r := []) .nil (.nil .nil)
    .nil .nil (.blank (.inl rfl) .nil) (by decide) (fun ws nl => ⟨_, _, rfl⟩) es h

end Styx.Props
