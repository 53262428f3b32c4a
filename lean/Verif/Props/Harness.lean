import Verif.Lsp.HarnessLemmas
import Verif.Props.Complete
import Verif.Props.Context

/-!
# C125: a test asks an extension what the editor would ask it

`harnessRequest` and `harnessCompletion` are the requests of the test harness, `serverRequest` and
`serverCompletion` the ones of the server.  `Lsp/HarnessSpec.lean` says where the cursor is.
-/

namespace Styx.Props

open Styx Styx.Spec Styx.Lsp

/-! ## The document and the cursor -/

/-- **C125**, the document of a test: the first bar is taken out and marks the cursor; without a bar the text is
kept as it is and there is no cursor. -/
theorem C125_document (a b : List Char) (ha : '|' ∉ a) :
    (testDocument (a ++ '|' :: b)).source = a ++ b ∧
    (testDocument (a ++ '|' :: b)).cursor.map (·.offset) = some (utf8Len a) ∧
    testDocument a = ⟨a, none⟩ := by
  rw [testDocument, splitBar_at ha, testDocument, splitBar_none ha]
  exact ⟨rfl, rfl, rfl⟩

theorem utf8Len_eq_length {l : List Char} : utf8Len l = l.length ↔ ∀ c ∈ l, c.utf8Size = 1 := by
  have hle : ∀ l : List Char, l.length ≤ utf8Len l := by
    intro l
    induction l with
    | nil => simp
    | cons c cs ih => simp only [utf8Len, List.length_cons]; have := utf8Size_pos' c; omega
  induction l with
  | nil => simp [utf8Len]
  | cons c cs ih =>
    have h1 := utf8Size_pos' c
    have h2 := hle cs
    simp only [utf8Len, List.length_cons, List.forall_mem_cons, ← ih]
    omega

theorem advance_last {ls l : List Char} (h : ls = [] ∨ ls.getLast? = some '\n') (hl : '\n' ∉ l) :
    (Lsp.advance ⟨0, 0⟩ (ls ++ l)).character = l.length := by
  rw [advance_append, advance_noNl l hl]
  rcases h with rfl | h
  · simp [Lsp.advance]
  · obtain ⟨q, rfl⟩ := List.getLast?_eq_some_iff.mp h
    rw [advance_append]
    simp [Lsp.advance, Lsp.step]

/-- **C125**, the position of the cursor: it is the one the server works with if and only if the characters
before the cursor on its line are all ASCII; the line is always the same. -/
theorem C125_cursor (ls l b : List Char) (ha : '|' ∉ ls ++ l) (hls : ls = [] ∨ ls.getLast? = some '\n')
    (hl : '\n' ∉ l) : ∃ c, (testDocument (ls ++ l ++ '|' :: b)).cursor = some c ∧
      (offsetToPosition (ls ++ l ++ b) c.offset).line = c.line ∧
      (offsetToPosition (ls ++ l ++ b) c.offset = ⟨c.line, c.character⟩ ↔ ∀ x ∈ l, x.utf8Size = 1) := by
  refine ⟨⟨utf8Len (ls ++ l), (ls ++ l).count '\n', utf8Len (lastLine (ls ++ l))⟩, ?_, ?_, ?_⟩
  · rw [testDocument, splitBar_at ha]
  · rw [offsetToPosition_eq, advance_line]
    exact Nat.zero_add _
  · rw [offsetToPosition_eq, lastLine_eq hls hl, ← utf8Len_eq_length]
    have h1 := advance_line (ls ++ l) ⟨0, 0⟩
    have h2 := advance_last hls hl
    constructor
    · intro h
      rw [h] at h2
      exact h2
    · intro h
      rw [show Lsp.advance ⟨0, 0⟩ (ls ++ l) = ⟨(Lsp.advance ⟨0, 0⟩ (ls ++ l)).line, (Lsp.advance ⟨0, 0⟩ (ls ++ l)).character⟩ from rfl,
        h1, h2, h]
      simp

/-! ## The tagged value -/

/-- **C125**, the tagged value around the cursor is the same, for every tree and every cursor. -/
theorem C125_tagged (tree : Value) (off : Nat) : harnessTagged off none tree = findTagged off none tree :=
  tagged_same off tree none

/-! ## The word before the cursor -/

/-- **C125**, the word before the cursor is the same for words without parentheses, commas and braces behind a
blank, a line break, an opening brace or nothing. -/
theorem C125_prefix_partial (pre w post : List Char) (hp : BeforeWord pre) (hw : ∀ c ∈ w, PlainWordChar c) :
    harnessPrefix (pre ++ w ++ post) (utf8Len (pre ++ w)) = .done w ∧
    ∃ r, wordRange (pre ++ w ++ post) (offsetToPosition (pre ++ w ++ post) (utf8Len (pre ++ w))) = .done r ∧
      (r.map (·.1)).getD [] = w := by
  have hoff : positionToOffset (pre ++ w ++ post) (offsetToPosition (pre ++ w ++ post) (utf8Len (pre ++ w))) =
      utf8Len (pre ++ w) := by
    have := positionLoop_eq (pre ++ w) post 0 ⟨0, 0⟩
    rw [offsetToPosition_eq, positionToOffset, this, Nat.zero_add]
  have hb : ∀ c ∈ w, isPrefixBreak c = false := by
    intro c hc
    obtain ⟨h1, h2, h3, h4, h5⟩ := hw c hc
    simp [isPrefixBreak, h1, h2, h4, h5]
  have hws : ∀ c ∈ w, WordChar c := fun c hc => ⟨(hw c hc).1, (hw c hc).2.1, (hw c hc).2.2.1⟩
  have hend : EndsWord pre := by
    rcases hp with h | ⟨q, c, h1, h2⟩
    · exact .inl h
    · refine .inr ⟨q, c, h1, ?_⟩
      rcases h2 with h | h | h | h <;> simp [h]
  refine ⟨?_, ?_⟩
  · rw [harnessPrefix, takeBytes_app]
    rcases hp with rfl | ⟨q, c, rfl, hc⟩
    · simp [rfindBy_none hb, dropBytes]
    · have hbc : isPrefixBreak c = true := by rcases hc with rfl | rfl | rfl | rfl <;> decide
      have hl : c.utf8Size = 1 := by rcases hc with rfl | rfl | rfl | rfl <;> decide
      have h1 : rfindBy isPrefixBreak 0 (q ++ [c] ++ w) = some (utf8Len q) := by
        rw [List.append_assoc, List.singleton_append, rfindBy_at hb hbc, Nat.zero_add]
      have h2 : utf8Len q + 1 = utf8Len (q ++ [c]) := by simp [utf8Len_append, utf8Len, hl]
      simp only [h1, Option.map_some, Option.getD_some, h2, dropBytes_app]
  · rw [wordRange, hoff]
    by_cases h0 : utf8Len (pre ++ w) = 0
    · rw [if_pos h0]
      have := Lsp.utf8Len_eq_zero h0
      simp only [List.append_eq_nil_iff] at this
      exact ⟨none, rfl, by simp [this.2]⟩
    · rw [if_neg h0, takeBytes_app]
      simp only [wordStart_at hend hws, dropBytes_app]
      cases w with
      | nil => exact ⟨none, rfl, rfl⟩
      | cons c w => exact ⟨_, rfl, rfl⟩

/-! ## The whole request -/

/-- **C125**, the request for hover or for a definition, for the documents that can be read and have no dotted
keys at the root and no key without a value: with the cursor inside a scalar that is reached through objects
without tags, on a line that is ASCII up to the cursor, everything but the place of the context is the same.
Missing for the full property: the other documents and cursors, the place of the context, and the path of a
completion, for which it is false (`C125_character_false`, `C125_path_false`, `C125_key_path_false`,
`C125_completion_path_false`, `C125_context_false`, `C125_sequence_context_false`, `C125_prefix_false`). -/
theorem C125_request_partial (ls l b : List Char) (es : List Entry) (x : Value) (p : List (List Char))
    (ha : '|' ∉ ls ++ l) (hls : ls = [] ∨ ls.getLast? = some '\n') (hl : '\n' ∉ l) (hasc : ∀ c ∈ l, c.utf8Size = 1)
    (h : parseTree (ls ++ l ++ b) = some (.ok (.mk none (some (.object es none)) none))) (hu : Undotted es)
    (hg : AllGiven (.mk none (some (.object es none)) none))
    (hx : FieldsTo x (.mk none (some (.object es none)) none) p) (hs : ∃ text k o, x.payload = some (.scalar text k o))
    (hin : WithinPlace (utf8Len (ls ++ l)) x.span) :
    ∃ c, (testDocument (ls ++ l ++ '|' :: b)).cursor = some c ∧
      let test := harnessRequest (.mk none (some (.object es none)) none) c
      let real := serverRequest (ls ++ l ++ b) (.mk none (some (.object es none)) none)
        (offsetToPosition (ls ++ l ++ b) (utf8Len (ls ++ l)))
      test.offset = real.offset ∧ test.line = real.line ∧ test.character = real.character ∧
      test.path = p ∧ real.path = p ∧ test.tagged = real.tagged ∧
      ∃ v w, test.context = some v ∧ real.context = some w ∧ v.payload = w.payload := by
  obtain ⟨c, hc1, hc2, hc3⟩ := C125_cursor ls l b ha hls hl
  obtain ⟨hd1, hd2, _⟩ := C125_document (ls ++ l) b ha
  have hco : c.offset = utf8Len (ls ++ l) := by rw [hc1] at hd2; simpa using hd2
  have hpos := hc3.mpr hasc
  rw [hco] at hpos
  have hoff : positionToOffset (ls ++ l ++ b) (offsetToPosition (ls ++ l ++ b) (utf8Len (ls ++ l))) =
      utf8Len (ls ++ l) := by
    have := positionLoop_eq (ls ++ l) b 0 ⟨0, 0⟩
    rw [offsetToPosition_eq, positionToOffset, this, Nat.zero_add]
  obtain ⟨_, hes, hr⟩ := parseTree_std h
  cases hes
  have hstd := undotted_entries hr hu
  have hlaid : LaidNode (ls ++ l ++ b) (.mk none (some (.object es none)) none) :=
    ⟨fun es' o hp => by cases hp; exact ⟨_, _, hstd⟩, fun _ _ hp => (nomatch hp)⟩
  obtain ⟨w1, w2⟩ := harness_walk (s := ls ++ l ++ b) hx hs hin (.inl rfl)
    (fun es' o hp => by cases hp; exact ⟨.inl rfl, _, _, hstd⟩) hg
  have hpne : p ≠ [] := by
    rintro rfl
    cases hx
    obtain ⟨sp, hsp, _⟩ := hin
    cases hsp
  obtain ⟨_, t', es', o', sp', j1, j2⟩ := (w2 none).2 hpne
  obtain ⟨ctx, k1, k2, k3⟩ := j2 []
  have hon : On (utf8Len (ls ++ l)) x.span := by
    obtain ⟨sp, e1, e2, e3⟩ := hin
    exact ⟨sp, e1, by omega, e3⟩
  have hfx : findPath (utf8Len (ls ++ l)) x = none := by
    obtain ⟨t, pl, sp⟩ := x
    obtain ⟨text, k, o, hp⟩ := hs
    simp only [Value.payload] at hp
    subst hp
    rfl
  have hfp := (leadsTo_find (fieldsTo_leadsTo hx) hlaid hon).2.1 hfx (by simpa using hpne)
  refine ⟨c, hc1, ?_⟩
  simp only [harnessRequest, serverRequest, pathAt, hco, hoff, w1, hfp, Option.getD_some, Option.map_some,
    true_and]
  refine ⟨by rw [hpos], by rw [hpos], ?_, C125_tagged _ _, _, _, j1, by rw [k1]; rfl, ?_⟩
  · rw [List.map_map]
    have : (Seg.text ∘ Seg.field) = id := rfl
    rw [this, List.map_id]
  · simp [contextValue, Value.payload, k2, k3]

/-! ## Where a test and the editor differ -/

/-- A document and its tree, for a test with a cursor. -/
def Differ (source : List Char) (P : Value → CursorInfo → List Char → Prop) : Prop :=
  ∃ v c, (testDocument source).cursor = some c ∧ parseTree (testDocument source).source = some (.ok v) ∧
    P v c (testDocument source).source

/-- **C125** is false for the column: behind `é`, the column in a test is a number of bytes. -/
theorem C125_character_false : Differ (chars! "k éa|") fun v c content =>
    (harnessRequest v c).character = 5 ∧
    (serverRequest content v (offsetToPosition content c.offset)).character = 4 :=
  ⟨_, _, rfl, rfl, by decide, by rfl⟩

/-- **C125** is false for the path of a hover: with the cursor at the end of `a b`, a test has the path `a` and
the editor has none. -/
theorem C125_path_false : Differ (chars! "a b|") fun v c content =>
    (harnessRequest v c).path = [['a']] ∧
    (serverRequest content v (offsetToPosition content c.offset)).path = [] :=
  ⟨_, _, rfl, rfl, by rfl, by rfl⟩

/-- **C125** is false for the path of a hover on a key: on `abc`, a test has no path and the editor has the path
of the key. -/
theorem C125_key_path_false : Differ (chars! "ab|c d") fun v c content =>
    (harnessRequest v c).path = [] ∧
    (serverRequest content v (offsetToPosition content c.offset)).path = [['a', 'b', 'c']] :=
  ⟨_, _, rfl, rfl, by rfl, by rfl⟩

/-- **C125** is false for the path of a completion: inside the value of `a bc`, a test has the path `a` and the
editor has the path of the object around the cursor. -/
theorem C125_completion_path_false : Differ (chars! "a b|c") fun v c content =>
    (∃ r, harnessCompletion content v c = .done r ∧ r.path = [['a']]) ∧
    ∃ r, serverCompletion content v (offsetToPosition content c.offset) = .done r ∧ r.path = [] :=
  ⟨_, _, rfl, rfl, ⟨_, rfl, by rfl⟩, ⟨_, rfl, by rfl⟩⟩

/-- **C125** is false for the context: in `a {b cc}`, the object in a test has a place and the one from the
editor has none. -/
theorem C125_context_false : Differ (chars! "a {b c|c}") fun v c content =>
    (harnessRequest v c).context.map (·.span) = some (some ⟨2, 8⟩) ∧
    (serverRequest content v (offsetToPosition content c.offset)).context.map (·.span) = some none :=
  ⟨_, _, rfl, rfl, by rfl, by rfl⟩

/-- **C125** is false in sequences: in `s (a bb)`, the context in a test is no object, and the one from the
editor is the root object. -/
theorem C125_sequence_context_false : Differ (chars! "s (a b|b)") fun v c content =>
    (harnessRequest v c).context.map (·.asObject.isSome) = some false ∧
    (serverRequest content v (offsetToPosition content c.offset)).context.map (·.asObject.isSome) = some true :=
  ⟨_, _, rfl, rfl, by rfl, by rfl⟩

/-- **C125** is false for a word behind a parenthesis: in `s (b)`, the word in a test is `b` and the one from
the editor is `(b`. -/
theorem C125_prefix_false : Differ (chars! "s (b|)") fun v c content =>
    (∃ r, harnessCompletion content v c = .done r ∧ r.prefix_ = ['b']) ∧
    ∃ r, serverCompletion content v (offsetToPosition content c.offset) = .done r ∧ r.prefix_ = ['(', 'b'] :=
  ⟨_, _, rfl, rfl, ⟨_, rfl, by rfl⟩, ⟨_, rfl, by rfl⟩⟩

/-! ## The hypotheses are met -/

/-- The tree of `k 1\na {b cc}`. -/
def harnessTree : Value :=
  let word (t : List Char) (a b : Nat) : Value := .mk none (some (.scalar t .bare (some ⟨a, b⟩))) (some ⟨a, b⟩)
  .mk none (some (.object [.mk (word ['k'] 0 1) (word ['1'] 2 3) none,
    .mk (word ['a'] 4 5) (.mk none (some (.object [.mk (word ['b'] 7 8) (word ['c', 'c'] 9 11) none] (some ⟨6, 12⟩)))
      (some ⟨6, 12⟩)) none] none)) none

theorem harnessTree_parsed : parseTree (chars! "k 1\na {b cc}") = some (.ok harnessTree) := by rfl

/-- The text of a test with the cursor inside the nested scalar meets the hypotheses of `C125_request_partial`. -/
example : ∃ c, (testDocument (chars! "k 1\na {b c|c}")).cursor = some c ∧
    (harnessRequest harnessTree c).path = [['a'], ['b']] := by
  have hx : FieldsTo (.mk none (some (.scalar ['c', 'c'] .bare (some ⟨9, 11⟩))) (some ⟨9, 11⟩)) harnessTree [['a'], ['b']] :=
    .field (List.mem_cons_of_mem _ (List.mem_cons_self ..)) rfl (.field (List.mem_cons_self ..) rfl .here)
  have := C125_request_partial (chars! "k 1\n") (chars! "a {b c") (chars! "c}") _ _ _ (by decide) (.inr (by decide))
    (by decide) (by decide) harnessTree_parsed
    (by
      intro k v d ksp vsp hm hk hv _
      simp only [List.mem_cons, List.not_mem_nil, or_false, Entry.mk.injEq] at hm
      rcases hm with ⟨rfl, rfl, rfl⟩ | ⟨rfl, rfl, rfl⟩ <;> cases hk <;> cases hv <;> decide)
    (by simp [AllGiven, AllGivenEntries, Value.payload])
    hx ⟨_, _, _, rfl⟩ ⟨⟨9, 11⟩, rfl, by decide, by decide⟩
  obtain ⟨c, h1, _, _, _, h2, _⟩ := this
  exact ⟨c, h1, h2⟩

end Styx.Props
