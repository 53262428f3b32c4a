import Verif.Lsp.Marks
import Verif.Cst.Sound
import Verif.Props.Check
import Verif.Props.Place
import Verif.Props.Text

/-!
# C85: the editor marks a document as broken exactly if it cannot be read
-/

namespace Styx.Props

open Styx Styx.Spec Styx.Lsp

/-- The server reports an error in the syntax of the document. -/
def Broken (ms : List Mark) : Prop := ∃ m ∈ ms, m.severity = .error ∧ m.origin = .styx

/-- A text that cannot be read is an error in the stream of events, or has an object behind entries at the root. -/
theorem rejected_event {s : List Char} {k : ParseErrorKind} {sp : Span} (h : parseTree s = some (.error (.parse k sp))) :
    ∃ evs, parseEvents s = some evs ∧ ⟨sp, .error k⟩ ∈ evs := by
  unfold parseTree at h
  cases hp : parseEvents s with
  | none => simp [hp] at h
  | some evs =>
    simp only [hp] at h
    split at h
    · cases h
    · refine ⟨evs, rfl, ?_⟩
      simp only [Option.some.injEq] at h
      unfold buildTree Builder.finish at h
      rw [run_errors] at h
      have key : ∀ evs : List Event, (k, sp) ∈ errorsOf evs → ⟨sp, .error k⟩ ∈ evs := by
        intro evs
        induction evs with
        | nil => intro h; simp [errorsOf] at h
        | cons e es ih =>
          intro h
          rw [errorsOf_cons] at h
          rcases List.mem_append.1 h with h | h
          · obtain ⟨sp', k'⟩ := e
            cases k' <;> simp [errorsOf] at h
            obtain ⟨rfl, rfl⟩ := h
            exact List.mem_cons_self ..
          · exact List.mem_cons_of_mem _ (ih h)
      apply key
      cases hx : errorsOf evs with
      | nil =>
        rw [hx] at h
        simp only [List.append_nil] at h
        split at h <;> cases h
      | cons x xs =>
        rw [hx] at h
        obtain ⟨a, b⟩ := x
        cases h
        exact List.mem_cons_self ..

/-- **C85**, one direction, for every text: a document that cannot be read is marked.  Whatever the schema. -/
theorem C85_rejected (s : List Char) (checked : Checked) (hint : Bool) (e : BuildError)
    (h : parseTree s = some (.error e)) : ∃ ms, marks s checked hint = some ms ∧ Broken ms := by
  refine ⟨_, by rw [marks, h]; rfl, treeMark s e, ?_, ?_⟩
  · simp [computeDiagnostics]
  · cases e <;> exact ⟨rfl, rfl⟩

/-- **C85**, the place: a document that cannot be read for an error in its syntax is marked at a text of the document,
the one the parser reports.  For documents without carriage returns whose characters are all one UTF-16 unit (C51), and
not for errors in escapes of documents with `\\` or `\u` (C11). -/
theorem C85_place_partial (s : List Char) (checked : Checked) (hint : Bool) (k : ParseErrorKind) (sp : Span)
    (hs : ∀ c ∈ s, c ≠ '\r' ∧ utf16Units c = 1) (h : parseTree s = some (.error (.parse k sp)))
    (hk : (∀ seq, k ≠ .invalidEscape seq) ∨ (¬ ['\\', '\\'] <:+: s ∧ ¬ ['\\', 'u'] <:+: s)) :
    ∃ ms m text, marks s checked hint = some ms ∧ m ∈ ms ∧ m.severity = .error ∧ m.origin = .styx ∧
      Covers s sp text ∧ Selects s m.range text := by
  obtain ⟨evs, h1, h2⟩ := rejected_event h
  obtain ⟨evs', h1', hg⟩ := parseEvents_good s
  rw [h1] at h1'
  cases h1'
  have hok : SpanOK s sp := by
    rcases (hg.1 _ h2).1 with h | ⟨⟨seq, g1⟩, g2⟩
    · exact h
    · simp only [EventKind.error.injEq] at g1
      rcases hk with hk | ⟨hk1, hk2⟩
      · exact absurd g1 (hk seq)
      · rcases g2 with g2 | g2
        · exact absurd g2 hk1
        · exact absurd g2 hk2
  obtain ⟨t, a, b, g1, g2, g3⟩ := spanOK_text hok
  have hc : Covers s sp t := ⟨a, b, g1, g2, g3⟩
  exact ⟨_, treeMark s (.parse k sp), t, by rw [marks, h]; rfl, by simp [computeDiagnostics], rfl, rfl, hc,
    covers_selects hs hc⟩

/-- A document that can be read and in which the parser for concrete syntax trees reports nothing is not marked. -/
theorem clean_notBroken {s : List Char} (hc : (Cst.parse s).errors = []) (checked : Checked) (hint : Bool) (t : Value)
    (ht : parseTree s = some (.ok t)) : ∃ ms, marks s checked hint = some ms ∧ ¬ Broken ms := by
  refine ⟨_, by rw [marks, ht]; rfl, ?_⟩
  rintro ⟨m, hm, h1, h2⟩
  simp only [computeDiagnostics, cstMarks, hc, List.map_nil, Option.map_none, Option.toList_none,
    List.nil_append, List.mem_append] at hm
  rcases hm with (hm | hm) | hm
  · simp only [checkMarks, List.mem_map] at hm
    obtain ⟨d, hd, rfl⟩ := hm
    obtain ⟨a, b, rfl | ⟨v, rfl⟩⟩ := C71_only s d hd <;> cases h1
  · cases checked with
    | unresolved => simp [schemaMarks] at hm
    | unloadable =>
      simp only [schemaMarks, List.mem_singleton] at hm
      subst hm; cases h2
    | validated r =>
      simp only [schemaMarks, List.mem_append, List.mem_map] at hm
      rcases hm with ⟨_, -, rfl⟩ | ⟨_, -, rfl⟩ <;> cases h2
  · cases hint with
    | false => simp at hm
    | true =>
      simp only [if_true, List.mem_singleton] at hm
      subst hm; cases h2

/-- **C85**, the other direction (partial: for the texts of the grammar without an object as an item of a sequence, or
without attributes): a document that can be read is not marked as broken.  What validation against a schema finds is
not about the syntax. -/
theorem C85_accepted_partial {es : List RootEntry} {s : List Char} (h : RootText es s)
    (hp : '>' ∉ s ∨ ∀ e ∈ es, NoObjectItems e.value) (checked : Checked) (hint : Bool) (t : Value)
    (ht : parseTree s = some (.ok t)) : ∃ ms, marks s checked hint = some ms ∧ ¬ Broken ms :=
  clean_notBroken (Cst.Sound.root_clean h hp) checked hint t ht

/-- **C85**, both directions: a text of the grammar is marked as broken exactly if two of its entries conflict. -/
theorem C85_exact_partial {es : List RootEntry} {s : List Char} (h : RootText es s)
    (hp : '>' ∉ s ∨ ∀ e ∈ es, NoObjectItems e.value) (checked : Checked) (hint : Bool) :
    ∃ ms, marks s checked hint = some ms ∧ (Broken ms ↔ ¬ Consistent (callsOf es)) ∧
      (Broken ms ↔ ¬ ∃ t, parseTree s = some (.ok t)) := by
  by_cases hc : Consistent (callsOf es)
  · obtain ⟨t, ht, -⟩ := C47_document h hc
    obtain ⟨ms, h1, h2⟩ := C85_accepted_partial h hp checked hint t ht
    exact ⟨ms, h1, iff_of_false h2 (not_not_intro hc), iff_of_false h2 (not_not_intro ⟨t, ht⟩)⟩
  · obtain ⟨k, sp, hk, -⟩ := C47_conflict h hc
    obtain ⟨ms, h1, h2⟩ := C85_rejected s checked hint _ hk
    exact ⟨ms, h1, iff_of_true h2 hc, iff_of_true h2 (by rintro ⟨t, ht⟩; rw [hk] at ht; cases ht)⟩

/-- **C71**, together with this: for the texts of the grammar the parser for concrete syntax trees reports nothing, so
the warnings are those of C71. -/
theorem C71_plain_partial {es : List RootEntry} {s : List Char} (h : RootText es s)
    (hp : '>' ∉ s ∨ ∀ e ∈ es, NoObjectItems e.value) (hu : NoUnicodeEscape s) (hw : ∀ e ∈ es, WordKey e)
    (hr : ∀ e ∈ es, NoRawKeys e.value) (v : List Char) (hv : v ≠ []) :
    (∃ a b, duplicateWarning a b v ∈ Cst.validate (Cst.parse s).green) ↔
      ∃ l1 e1 l2 e2 l3, es = l1 ++ e1 :: l2 ++ e2 :: l3 ∧ e1.path = e2.path ∧ dotted e1.path = v :=
  C71_document_partial h (by simp [Cst.Parse.isOk, Cst.Sound.root_clean h hp]) hu hw hr v hv

/-- What an editor shows for a document without a schema: lines and columns, and severities. -/
def shownMarks (s : List Char) : Option (List ((Nat × Nat) × (Nat × Nat) × Cst.Severity)) :=
  (marks s .unresolved false).map (·.map fun m =>
    ((m.range.1.line, m.range.1.character), (m.range.2.line, m.range.2.character), m.severity))

/-- Whether a text can be read. -/
def readable (s : List Char) : Bool :=
  match parseTree s with
  | some (.ok _) => true
  | _ => false

/-- **C85 is false**: documents that can be read are marked as broken.  An item of a sequence written with attributes,
and a unit value at the end of a line followed by a documentation comment. -/
theorem C85_marked_false :
    (readable (chars! "x (a>1)") = true ∧ shownMarks (chars! "x (a>1)") = some [((0, 4), (0, 5), .error)]) ∧
    (readable (chars! "x @///c\n") = true ∧ ∃ m ∈ (shownMarks (chars! "x @///c\n")).getD [], m.2.2 = .error) := by
  refine ⟨⟨by decide +kernel, by decide +kernel⟩, by decide +kernel, by decide +kernel⟩

/-- **C85 is false**, the place: a document with an object behind other entries is marked at its first character. -/
theorem C85_place_false : readable (chars! "a 1\n{b 2}") = false ∧
    shownMarks (chars! "a 1\n{b 2}") = some [((0, 0), (0, 1), .error)] := by
  constructor <;> decide +kernel

/-- **C85 is false** after an extension was allowed: the errors of the parser for trees are not reported again. -/
theorem C85_allowed_false : readable (chars! "a \"\\q\"") = false ∧
    (marksAfterAllow (chars! "a \"\\q\"") .unresolved false).map (·.length) = some 0 ∧
    (marks (chars! "a \"\\q\"") .unresolved false).map (·.length) = some 1 := by
  refine ⟨?_, ?_, ?_⟩ <;> decide +kernel

/-- The sample document of C47 – comments, dotted keys, attributes, a sequence, a lone key – has no object as an item of
a sequence. -/
theorem sample_noObjects : ∀ e ∈ sampleEntries, NoObjectItems e.value := by
  intro e he
  simp only [sampleEntries, List.mem_cons, List.not_mem_nil, or_false] at he
  rcases he with rfl | rfl
  · intro t items psp sp hn es o sp'
    cases hn with
    | inside hc hn =>
      cases hc with
      | key hm =>
        simp only [List.mem_cons, Entry.mk.injEq, List.not_mem_nil, or_false] at hm
        rcases hm with ⟨rfl, -, -⟩ | ⟨rfl, -, -⟩ <;> (cases hn with | inside hc _ => cases hc)
      | value hm =>
        simp only [List.mem_cons, Entry.mk.injEq, List.not_mem_nil, or_false] at hm
        rcases hm with ⟨-, rfl, -⟩ | ⟨-, rfl, -⟩
        · cases hn with | inside hc _ => cases hc
        · cases hn with
          | self => simp [scalarValue]
          | inside hc hn =>
            cases hc with
            | item hm =>
              simp only [List.mem_singleton] at hm
              subst hm
              cases hn with | inside hc _ => cases hc
  · intro t items psp sp hn
    cases hn with | inside hc _ => cases hc

example (checked : Checked) (hint : Bool) :
    ∃ ms, marks (chars! "// hi\n/// doc\na.b x>1 y>(2) // c\n\ta.b.c\n") checked hint = some ms ∧ ¬ Broken ms := by
  obtain ⟨t, ht, -⟩ := C47_document sample_text
    ((C16_accepted_iff_partial [⟨[chars! "a", chars! "b"], .object, ⟨0, 0⟩⟩,
      ⟨[chars! "a", chars! "b", chars! "c"], .terminal, ⟨0, 0⟩⟩] (by decide)).1 ⟨_, rfl⟩)
  exact C85_accepted_partial sample_text (.inr sample_noObjects) checked hint t ht

/-- A document without attributes, with a key given twice: not marked as broken (C15), with one warning (C71). -/
example : shownMarks (chars! "\na 1\nb 2\na 3\n") = some [((3, 0), (3, 1), .warning)] := by decide +kernel

example (checked : Checked) (hint : Bool) : ∃ ms, marks (chars! "\na 1\nb 2\na 3\n") checked hint = some ms ∧
    (Broken ms ↔ ¬ ∃ t, parseTree (chars! "\na 1\nb 2\na 3\n") = some (.ok t)) := by
  obtain ⟨ms, h1, -, h2⟩ := C85_exact_partial sample_twice (.inl (by decide)) checked hint
  exact ⟨ms, h1, h2⟩

/-- Documents that cannot be read: where they are marked. -/
example : shownMarks (chars! "a 1\nb \"\\q\"") = some [((1, 3), (1, 5), .error)] ∧
    shownMarks (chars! "a 1\na 2") = some [((1, 0), (1, 1), .error), ((1, 0), (1, 1), .warning)] := by
  constructor <;> decide +kernel

end Styx.Props
