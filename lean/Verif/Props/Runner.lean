import Verif.Lsp.RunnerLemmas

/-!
# C126: a test of an extension passes exactly if the diagnostics are the ones its file marks

`parseSpanMarkers` reads a test, `runDiagnostics` compares the answer of the extension with what is expected.
`Lsp/RunnerSpec.lean` says how a test is written and which places its marks point at.
-/

namespace Styx.Props

open Styx Styx.Spec Styx.Lsp

/-! ## Reading a test -/

/-- **C126**, a mark is told from a line of the document: a line is a mark if and only if it is blanks, carets,
blanks and a message in quotes, and what is read are its columns and its message. -/
theorem C126_mark (line : List Char) (r : MarkerLine) : tryMarker line = some r ↔
    ∃ m : CaretMark, m.Ok ∧ line = m.text ∧
      r = ⟨utf8Len m.indent, utf8Len m.indent + m.width, m.message.getD []⟩ :=
  ⟨tryMarker_some, fun ⟨_, h1, h2, h3⟩ => by rw [h2, h3]; exact tryMarker_text h1⟩

/-- **C126**, the document and the marks of a test: the extension gets the lines without the marks, and the marks
are the ones written below the lines, each with the line it is below. -/
theorem C126_read (bs : List Block) (h : ∀ b ∈ bs, b.Ok) :
    (parseSpanMarkers (inputOf bs)).1 = documentOf bs ∧
    ∀ x, x ∈ (parseSpanMarkers (inputOf bs)).2 ↔ ∃ i b m, bs[i]? = some b ∧ m ∈ b.marks ∧
      x = ⟨i, utf8Len m.indent, utf8Len m.indent + m.width, m.message.getD []⟩ := by
  rw [parseSpanMarkers_input h]
  refine ⟨rfl, fun x => ?_⟩
  rw [allMarkers_mem]
  simp

/-! ## The verdict -/

/-- A diagnostic meets an expectation of the test file: the message has the wanted text in it, and the line
(counted from 1) and the columns are the wanted ones, where they are given. -/
def Meets (bs : List Block) (e : DiagExpectation) (d : ExtDiag) : Prop :=
  e.message <:+: d.message ∧ ∃ i first last, AtLine bs d.start d.stop i first last ∧
    (∀ n, e.line = some n → n = i + 1) ∧ (∀ n, e.startCol = some n → n = first) ∧ ∀ n, e.endCol = some n → n = last

/-- What a test asks of the diagnostics: one for every mark, at its place and with its message; and the number,
the diagnostics and the missing texts the test file names. -/
def AsWanted (bs : List Block) (explicit : Option DiagExpectations) (ds : List ExtDiag) : Prop :=
  (∀ m start stop, Points bs m start stop →
    ∃ d ∈ ds, d.start = start ∧ d.stop = stop ∧ m.message.getD [] <:+: d.message) ∧
  ∀ e, explicit = some e → (∀ n, e.count = some n → ds.length = n) ∧ (∀ x ∈ e.has, ∃ d ∈ ds, Meets bs x d) ∧
    ∀ t ∈ e.notHas, ∀ d ∈ ds, ¬ t <:+: d.message

theorem atLine_unique {bs : List Block} {s t i f l i' f' l' : Nat} (h : AtLine bs s t i f l)
    (h' : AtLine bs s t i' f' l') : i = i' ∧ f = f' ∧ l = l' := by
  obtain ⟨b, u, v, w, h1, h2, h3, h4, rfl, rfl⟩ := h
  obtain ⟨b', u', v', w', k1, k2, k3, k4, rfl, rfl⟩ := h'
  obtain ⟨rfl, hu⟩ := blockLine_unique h1 k1 (x := utf8Len u) (y := utf8Len u') (by rw [h2]; simp only [utf8Len_append]; omega)
    (by rw [k2]; simp only [utf8Len_append]; omega) (by omega)
  exact ⟨rfl, hu, by omega⟩

/-- What the marker of a mark asks is what the mark points at. -/
theorem marker_meets {bs : List Block} {i : Nat} {b : Block} {m : CaretMark} (hb : bs[i]? = some b)
    (hon : utf8Len m.indent + m.width ≤ utf8Len b.line) {d : ExtDiag} {j f l : Nat}
    (hd : AtLine bs d.start d.stop j f l) :
    (i + 1 = j + 1 ∧ utf8Len m.indent = f ∧ utf8Len m.indent + m.width = l) ↔
      d.start = lineStart bs i + utf8Len m.indent ∧ d.stop = lineStart bs i + utf8Len m.indent + m.width := by
  obtain ⟨c, u, v, w, h1, h2, h3, h4, rfl, rfl⟩ := hd
  have hlen : utf8Len u + utf8Len v ≤ utf8Len c.line := by rw [h2]; simp only [utf8Len_append]; omega
  constructor
  · rintro ⟨e1, e2, e3⟩
    obtain rfl : i = j := by omega
    omega
  · rintro ⟨e1, e2⟩
    obtain ⟨rfl, hu⟩ := blockLine_unique hb h1 (x := utf8Len m.indent) (y := utf8Len u) (by omega) (by omega) (by omega)
    exact ⟨rfl, hu, by omega⟩

/-- **C126**, for tests without the bar of a cursor whose marks lie on their lines, and extensions that answer with
places in one line each: the run never panics, and the test has no error if and only if the diagnostics are as
wanted.  Missing: places over several lines or outside the document, the bar of a cursor, and the severity. -/
theorem C126_verdict_partial (bs : List Block) (explicit : Option DiagExpectations) (ext : List Char → List ExtDiag)
    (hok : ∀ b ∈ bs, b.Ok) (hbar : '|' ∉ documentOf bs) (hon : ∀ b ∈ bs, OnLine b)
    (hline : ∀ e, explicit = some e → ∀ x ∈ e.has, x.line ≠ some 0)
    (hd : ∀ d ∈ ext (documentOf bs), ∃ i f l, AtLine bs d.start d.stop i f l) :
    ∃ r, runDiagnostics (inputOf bs) explicit ext = .done r ∧
      (r = true ↔ AsWanted bs explicit (ext (documentOf bs))) := by
  have hn : ∀ b ∈ bs, '\n' ∉ b.line := fun b hb => (hok b hb).1
  have hdoc : (testDocument (documentOf bs)).source = documentOf bs := by rw [testDocument, splitBar_none hbar]
  simp only [runDiagnostics, parseSpanMarkers_input hok, hdoc]
  generalize ext (documentOf bs) = ds at *
  -- the expectations of the marks
  have hmarks : ∀ e : DiagExpectation, (e ∈ (allMarkers 0 bs).map fun m =>
      (⟨m.message, none, some (m.line + 1), some m.startCol, some m.endCol⟩ : DiagExpectation)) ↔
      ∃ i b m, bs[i]? = some b ∧ m ∈ b.marks ∧ e = ⟨m.message.getD [], none, some (i + 1), some (utf8Len m.indent),
        some (utf8Len m.indent + m.width)⟩ := by
    intro e
    rw [List.mem_map]
    constructor
    · rintro ⟨x, hx, rfl⟩
      obtain ⟨i, b, m, h1, h2, rfl⟩ := allMarkers_mem.mp hx
      exact ⟨i, b, m, h1, h2, by simp⟩
    · rintro ⟨i, b, m, h1, h2, rfl⟩
      exact ⟨_, allMarkers_mem.mpr ⟨i, b, m, h1, h2, rfl⟩, by simp⟩
  have hpoint : (∀ m start stop, Points bs m start stop →
      ∃ d ∈ ds, d.start = start ∧ d.stop = stop ∧ m.message.getD [] <:+: d.message) ↔
      ∀ e ∈ (allMarkers 0 bs).map fun m =>
        (⟨m.message, none, some (m.line + 1), some m.startCol, some m.endCol⟩ : DiagExpectation),
        ∃ d ∈ ds, Meets bs e d := by
    constructor
    · intro h e he
      obtain ⟨i, b, m, h1, h2, rfl⟩ := (hmarks e).mp he
      obtain ⟨d, hdm, e1, e2, e3⟩ := h m _ _ ⟨i, b, h1, h2, rfl, rfl⟩
      obtain ⟨j, f, l, hat⟩ := hd d hdm
      obtain ⟨q1, q2, q3⟩ := (marker_meets h1 (hon b (List.mem_of_getElem? h1) m h2) hat).mpr ⟨e1, e2⟩
      refine ⟨d, hdm, e3, j, f, l, hat, ?_, ?_, ?_⟩
      · rintro n ⟨⟩; exact q1
      · rintro n ⟨⟩; exact q2
      · rintro n ⟨⟩; exact q3
    · rintro h m start stop ⟨i, b, h1, h2, rfl, rfl⟩
      obtain ⟨d, hdm, e3, j, f, l, hat, q1, q2, q3⟩ := h _ ((hmarks _).mpr ⟨i, b, m, h1, h2, rfl⟩)
      obtain ⟨e1, e2⟩ := (marker_meets h1 (hon b (List.mem_of_getElem? h1) m h2) hat).mp ⟨q1 _ rfl, q2 _ rfl, q3 _ rfl⟩
      exact ⟨d, hdm, e1, e2, e3⟩
  -- one expectation
  have hone : ∀ e : DiagExpectation, e.line ≠ some 0 → ∀ d ∈ ds,
      ∃ r, matchOne (documentOf bs) e d = .done r ∧ (r = true ↔ Meets bs e d) := by
    intro e he d hdm
    obtain ⟨i, f, l, hat⟩ := hd d hdm
    obtain ⟨r, h1, h2⟩ := matchOne_at hn hat he
    refine ⟨r, h1, h2.trans ⟨fun ⟨a, b, c, d⟩ => ⟨a, i, f, l, hat, b, c, d⟩, ?_⟩⟩
    rintro ⟨a, i', f', l', hat', b, c, d⟩
    obtain ⟨rfl, rfl, rfl⟩ := atLine_unique hat hat'
    exact ⟨a, b, c, d⟩
  have hm0 : ∀ e ∈ (allMarkers 0 bs).map fun m =>
      (⟨m.message, none, some (m.line + 1), some m.startCol, some m.endCol⟩ : DiagExpectation), e.line ≠ some 0 := by
    intro e he
    obtain ⟨i, b, m, _, _, rfl⟩ := (hmarks e).mp he
    simp
  have hchk : ∀ e : DiagExpectations, (∀ x ∈ e.has, x.line ≠ some 0) →
      ∃ r, checkDiagnostics ds e (documentOf bs) = .done r ∧ (r = true ↔ (∀ n, e.count = some n → ds.length = n) ∧
        (∀ x ∈ e.has, ∃ d ∈ ds, Meets bs x d) ∧ ∀ t ∈ e.notHas, ∀ d ∈ ds, ¬ t <:+: d.message) := by
    intro e he
    obtain ⟨r, h1, h2⟩ := allFound_of (es := e.has) (P := Meets bs) (content := documentOf bs) (ds := ds)
      (fun x hx d hdm => hone x (he x hx) d hdm)
    refine ⟨_, by rw [checkDiagnostics, h1]; rfl, ?_⟩
    rw [Bool.and_eq_true, Bool.and_eq_true, wants_iff, h2, and_assoc]
    have : (e.notHas.all fun t => !ds.any fun d => Hints.contains t d.message) = true ↔
        ∀ t ∈ e.notHas, ∀ d ∈ ds, ¬ t <:+: d.message := by
      simp only [List.all_eq_true, Bool.not_eq_true', List.any_eq_false, hintsContains_iff]
    rw [this]
  rw [buildExpectations]
  cases explicit with
  | none =>
    cases hm : (allMarkers 0 bs) with
    | nil =>
      rw [hm] at hpoint
      exact ⟨true, rfl, fun _ => ⟨hpoint.mpr (by simp), (nofun)⟩, fun _ => rfl⟩
    | cons x xs =>
      rw [← hm]
      simp only [hm, List.isEmpty_cons, Option.isNone_none, Bool.and_false, Bool.false_eq_true, if_false]
      rw [← hm]
      obtain ⟨r, h1, h2⟩ := hchk ⟨none, [] ++ (allMarkers 0 bs).map fun m =>
        ⟨m.message, none, some (m.line + 1), some m.startCol, some m.endCol⟩, []⟩ (by simpa using hm0)
      refine ⟨r, h1, h2.trans ?_⟩
      simp only [List.nil_append, ← hpoint, AsWanted]
      simp
  | some e =>
    simp only [Option.isNone_some, Bool.false_and, Bool.false_eq_true, if_false, Option.getD_some]
    obtain ⟨r, h1, h2⟩ := hchk { e with has := e.has ++ (allMarkers 0 bs).map fun m =>
        ⟨m.message, none, some (m.line + 1), some m.startCol, some m.endCol⟩ } (by
      intro x hx
      rcases List.mem_append.mp hx with hx | hx
      · exact hline e rfl x hx
      · exact hm0 x hx)
    refine ⟨r, h1, h2.trans ?_⟩
    simp only [List.mem_append, AsWanted, Option.some.injEq, hpoint]
    constructor
    · rintro ⟨a, b, c⟩
      exact ⟨fun x hx => b x (Or.inr hx), fun _ h => by subst h; exact ⟨a, fun x hx => b x (Or.inl hx), c⟩⟩
    · rintro ⟨a, b⟩
      obtain ⟨b1, b2, b3⟩ := b e rfl
      exact ⟨b1, fun x hx => hx.elim (b2 x) (a x), b3⟩

/-- **C126**, a test that is expected to fail passes exactly if there is an error. -/
theorem C126_expect_fail (noErrors : Bool) : (testPasses true noErrors = true ↔ noErrors = false) ∧
    (testPasses false noErrors = true ↔ noErrors = true) := by
  cases noErrors <;> decide

/-! ## What a test does not see -/

/-- **C126 is false of the code**: the severity a test file asks for is never compared, so a warning passes for an
error. -/
theorem C126_severity_false :
    runDiagnostics (chars! "a b\n") (some ⟨none, [⟨chars! "bad", some (chars! "error"), some 1, some 2, some 3⟩], []⟩)
      (fun _ => [⟨2, 3, chars! "warning", chars! "bad name"⟩]) = .done true := by decide +kernel

/-- **C126 is false of the code**: only the column of the end of a diagnostic is compared, not its line: a diagnostic
that goes on to the next line passes for one that ends where the mark ends. -/
theorem C126_end_line_false :
    runDiagnostics (chars! "aa bb\n^^ \"bad\"\ncc dd\n") none (fun _ => [⟨0, 8, chars! "error", chars! "bad"⟩]) =
      .done true := by decide +kernel

/-- **C126 is false of the code**: a diagnostic outside the document passes for one that ends at the end of the
document. -/
theorem C126_outside_false :
    runDiagnostics (chars! "aa bb\n   ^^ \"bad\"\n") none (fun _ => [⟨3, 500, chars! "error", chars! "bad"⟩]) =
      .done true := by decide +kernel

/-- **C126 is false of the code**: the extension gets the document without the bar of the cursor, but its answer is
compared in the text with the bar: an extension that answers the marked place fails the test, and one that answers
a place one byte before passes. -/
theorem C126_bar_false :
    runDiagnostics (chars! "a|a bb\n    ^^ \"bad\"\n") none
      (fun s => if s = chars! "aa bb" then [⟨3, 5, chars! "error", chars! "bad"⟩] else []) = .done false ∧
    runDiagnostics (chars! "a|a bb\n   ^^ \"bad\"\n") none
      (fun s => if s = chars! "aa bb" then [⟨3, 5, chars! "error", chars! "bad"⟩] else []) = .done true := by
  decide +kernel

/-- **C126 is false of the code**: a line of 0 in a test file overflows as soon as a diagnostic has the message. -/
theorem C126_line_zero_false :
    runDiagnostics (chars! "a b\n") (some ⟨none, [⟨chars! "bad", none, some 0, none, none⟩], []⟩)
      (fun _ => [⟨2, 3, chars! "error", chars! "bad"⟩]) = .panics := by decide +kernel

/-- **C126 is false of the code**: a diagnostic with an end between the bytes of a character stops the run of all
tests. -/
theorem C126_boundary_false :
    runDiagnostics (chars! "é\n^^ \"bad\"\n") none (fun _ => [⟨0, 1, chars! "error", chars! "bad"⟩]) = .panics := by
  decide +kernel

/-- **C126 is false of the code**: a mark before the first line of the document is dropped, so a test with nothing
but such marks asks for nothing. -/
theorem C126_first_mark_false :
    runDiagnostics (chars! "^^ \"bad\"\naa bb\n") none (fun _ => []) = .done true := by decide +kernel

/-- **C126 is false of the code**: a line of a document that looks like a mark is taken out of the document. -/
theorem C126_caret_line_false :
    (parseSpanMarkers (chars! "a <<E\n^^^\nE\n")).1 = chars! "a <<E\nE" := by decide +kernel

/-! ## A case of the hypotheses -/

section Examples

/-- `from alisjdf` with a mark below the second word, and a line without marks. -/
def markedTest : List Block :=
  [⟨chars! "from alisjdf", [⟨chars! "     ", 7, chars! " ", some (chars! "not found"), []⟩]⟩, ⟨chars! "limit 3", []⟩]

theorem plain_not_mark {l : List Char} (h : '^' ∉ l) (m : CaretMark) (hm : m.Ok) : l ≠ m.text := by
  rintro rfl
  refine h ?_
  simp only [CaretMark.text, List.mem_append]
  exact Or.inl (Or.inl (Or.inl (Or.inr (List.mem_replicate.mpr ⟨by have := hm.2.2.2; omega, rfl⟩))))

theorem markedTest_ok : ∀ b ∈ markedTest, b.Ok := by
  simp only [markedTest, List.forall_mem_cons]
  refine ⟨⟨by decide, by decide, plain_not_mark (by decide), ?_⟩, ⟨by decide, by decide, plain_not_mark (by decide), by simp⟩,
    by simp⟩
  simp only [List.forall_mem_cons]
  exact ⟨⟨⟨by decide, by decide, by decide, by decide⟩, by decide, by decide⟩, by simp⟩

example : inputOf markedTest = chars! "from alisjdf\n     ^^^^^^^ \"not found\"\nlimit 3\n" := by decide

/-- An extension that answers the marked place passes. -/
example : runDiagnostics (inputOf markedTest) none
    (fun _ => [⟨5, 12, chars! "error", chars! "table not found"⟩]) = .done true := by decide +kernel

/-- One that answers the keyword does not. -/
example : runDiagnostics (inputOf markedTest) none
    (fun _ => [⟨0, 4, chars! "error", chars! "table not found"⟩]) = .done false := by decide +kernel

example : AsWanted markedTest none [⟨5, 12, chars! "error", chars! "table not found"⟩] := by
  obtain ⟨r, h1, h2⟩ := C126_verdict_partial markedTest none (fun _ => [⟨5, 12, chars! "error", chars! "table not found"⟩])
    markedTest_ok (by decide) (by
      simp only [markedTest, List.forall_mem_cons, OnLine]
      exact ⟨⟨by decide, by simp⟩, by simp, by simp⟩) (by simp) (by
      intro d hd
      simp only [List.mem_singleton] at hd
      subst hd
      exact ⟨0, 5, 12, _, chars! "from ", chars! "alisjdf", [], rfl, rfl, by decide, by decide, by decide, by decide⟩)
  exact h2.mp (by
    have : runDiagnostics (inputOf markedTest) none
      (fun _ => [⟨5, 12, chars! "error", chars! "table not found"⟩]) = .done true := by decide +kernel
    rw [this] at h1
    exact (Outcome.done.inj h1).symm)

end Examples

end Styx.Props
