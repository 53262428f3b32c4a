import Verif.Lsp.HarnessLemmas
import Verif.Lsp.RunnerChecksSpec
import Verif.Props.Runner

/-! # Property theorem C131: a test of an extension passes exactly if its answers are as expected -/

namespace Styx.Props

open Styx Styx.Spec Styx.Lsp

theorem anyOutcome_of {α : Type} {f : α → Outcome Bool} {P : α → Prop} : ∀ {xs : List α},
    (∀ x ∈ xs, ∃ r, f x = .done r ∧ (r = true ↔ P x)) → ∃ r, anyOutcome f xs = .done r ∧ (r = true ↔ ∃ x ∈ xs, P x)
  | [], _ => ⟨false, rfl, by simp⟩
  | x :: xs, h => by
    obtain ⟨r, h1, h2⟩ := h x (by simp)
    obtain ⟨s, h3, h4⟩ := anyOutcome_of (xs := xs) fun y hy => h y (by simp [hy])
    unfold anyOutcome
    rw [h1]
    cases r with
    | true => exact ⟨true, rfl, by simp [h2.1 rfl]⟩
    | false =>
      have : ¬ P x := fun hp => by simpa using h2.2 hp
      exact ⟨s, h3, by simp [h4, this]⟩

theorem allOutcome_of {α : Type} {f : α → Outcome Bool} {P : α → Prop} : ∀ {xs : List α},
    (∀ x ∈ xs, ∃ r, f x = .done r ∧ (r = true ↔ P x)) → ∃ r, allOutcome f xs = .done r ∧ (r = true ↔ ∀ x ∈ xs, P x)
  | [], _ => ⟨true, rfl, by simp⟩
  | x :: xs, h => by
    obtain ⟨r, h1, h2⟩ := h x (by simp)
    obtain ⟨s, h3, h4⟩ := allOutcome_of (xs := xs) fun y hy => h y (by simp [hy])
    unfold allOutcome
    rw [h1, h3]
    exact ⟨r && s, rfl, by simp [h2, h4]⟩

theorem wants_agreesWith {e : Option Nat} {a : Nat} : wants e a = true ↔ AgreesWith e a := wants_iff

theorem wants_line {e : Option Nat} {a : Nat} (h : e ≠ some 0) : wants (e.map (· - 1)) a = true ↔ AgreesWith e (a + 1) := by
  rw [wants_iff]
  unfold AgreesWith
  cases e with
  | none => simp
  | some n =>
    have : n ≠ 0 := fun hn => h (by rw [hn])
    simp only [Option.map_some, Option.some.injEq, forall_eq']
    omega

/-- **C131**, completions: the check is right when no two completions have the same label and no kind is asked for. -/
theorem C131_completions_partial (cs : List TestItem) (e : WantCompletions) (hn : (cs.map (·.label)).Nodup)
    (hkind : ∀ i ∈ e.items, i.kind = none) :
    checkCompletions cs e = true ↔ CompletionsFit cs e := by
  unfold checkCompletions CompletionsFit
  simp only [Bool.and_eq_true, List.all_eq_true, and_assoc]
  refine and_congr ?_ (and_congr ?_ ?_)
  · simp
  · simp
  · refine forall_congr' fun i => forall_congr' fun hi => ?_
    have key : ∀ c, itemAsWanted i c = true ↔ (∀ t, i.detail = some t → c.detail = some t) ∧
        (∀ t, i.documentation = some t → ∃ u, c.documentation = some u ∧ t <:+: u) ∧
        ∀ k, i.kind = some k → c.kind = some k := by
      intro c
      unfold itemAsWanted
      simp only [hkind i hi, reduceCtorEq, false_implies, implies_true, and_true]
      rw [Bool.and_eq_true]
      refine and_congr ?_ ?_
      · cases i.detail <;> simp
      · cases i.documentation with
        | none => simp
        | some t =>
          cases c.documentation with
          | none => simp
          | some u => simp [hintsContains_iff]
    cases hf : cs.find? (·.label == i.label) with
    | none =>
      rw [List.find?_eq_none] at hf
      constructor
      · intro h; cases h
      · rintro ⟨c, hc, hl, -⟩
        exact absurd hl (by simpa using hf c hc)
    | some c =>
      have hc := List.mem_of_find?_eq_some hf
      have hl : c.label = i.label := by simpa using List.find?_some hf
      dsimp only
      rw [key]
      constructor
      · intro h; exact ⟨c, hc, hl, h⟩
      · rintro ⟨c', hc', hl', h⟩
        have : c = c' := by
          obtain ⟨a, ha, rfl⟩ := List.getElem_of_mem hc
          obtain ⟨b, hb, rfl⟩ := List.getElem_of_mem hc'
          have hp := List.pairwise_iff_getElem.1 (List.pairwise_map.1 hn)
          by_cases hab : a = b
          · subst hab; rfl
          · exfalso
            rcases Nat.lt_or_gt_of_ne hab with hlt | hlt
            · exact hp a b ha hb hlt (hl.trans hl'.symm)
            · exact hp b a hb ha hlt (hl'.trans hl.symm)
        exact this ▸ h

/-- **C131**, hovers. -/
theorem C131_hover (hover : Option (List Char)) (e : WantHover) : checkHover hover e = true ↔ HoverFits hover e := by
  unfold checkHover HoverFits
  cases hover with
  | none =>
    cases he : e.has with
    | nil => simp
    | cons t ts => simp; exact ⟨t, fun h => absurd rfl h⟩
  | some u => simp [hintsContains_iff, List.all_eq_true, ← Bool.not_eq_true]

/-- **C131**, hints: if no line 0 is wanted, the check does not panic and is right. -/
theorem C131_hints_partial (hs : List TestHint) (e : WantHints) (h0 : ∀ w ∈ e.has, w.line ≠ some 0) :
    ∃ r, checkHints hs e = .done r ∧ (r = true ↔ HintsFit hs e) := by
  obtain ⟨r, h1, h2⟩ := allOutcome_of (xs := e.has) (f := fun x => anyOutcome (hintMatches x) hs)
    (P := fun w => ∃ h ∈ hs, h.label = w.label ∧ AgreesWith w.line (h.line + 1) ∧ AgreesWith w.col h.character) (by
      intro w hw
      refine anyOutcome_of fun h _ => ?_
      unfold hintMatches
      by_cases hl : h.label = w.label
      · rw [if_neg (by simpa using hl), if_neg (h0 w hw)]
        refine ⟨_, rfl, ?_⟩
        rw [Bool.and_eq_true, wants_line (h0 w hw), wants_agreesWith]
        simp [hl]
      · rw [if_pos hl]
        exact ⟨false, rfl, by simp [hl]⟩)
  unfold checkHints
  rw [h1]
  refine ⟨_, rfl, ?_⟩
  rw [Bool.and_eq_true, wants_agreesWith, h2]
  rfl

theorem runnerPosition_bar {text : List Char} {off : Nat} (h : KeepsLine text off) :
    ∃ n col, runnerPosition text off = some (n, col) ∧ ∀ k, InLine (testDocument text).source off k ↔ k = n + 1 := by
  obtain ⟨p, q, u, r, rfl, hb, he, hu, hc⟩ := h
  have hsrc : (testDocument (p ++ '|' :: q)).source = u ++ r := by
    unfold testDocument; rw [splitBar_at hb]; exact he
  have huniq : ∀ k, InLine (u ++ r) off k ↔ k = u.count '\n' + 1 := by
    intro k
    constructor
    · rintro ⟨b, a, h1, h2, rfl⟩
      have e1 := takeBytes_app b a
      have e2 := takeBytes_app u r
      rw [h2, ← h1] at e1
      rw [hu, e1] at e2
      cases e2; rfl
    · rintro rfl
      exact ⟨u, r, rfl, hu, rfl⟩
  rw [hsrc]
  have hpos : ∀ v w, p ++ '|' :: q = v ++ w → utf8Len v = off →
      ∃ col, runnerPosition (p ++ '|' :: q) off = some (v.count '\n', col) := by
    intro v w h1 h2
    unfold runnerPosition
    rw [h1, if_neg (by rw [utf8Len_append]; omega), ← h2, takeBytes_app]
    exact ⟨_, rfl⟩
  rcases hc with hc | ⟨c, h1, h2, h3⟩
  · -- in front of the bar
    have hp : u <+: p := by
      rcases List.append_eq_append_iff.1 he with ⟨z, h4, h5⟩ | ⟨z, h4, h5⟩
      · rw [h4, utf8Len_append] at hc
        have : z = [] := by
          cases z with
          | nil => rfl
          | cons d ds =>
            have := Char.utf8Size_pos d
            simp only [utf8Len_cons] at hc
            omega
        subst this
        exact ⟨[], by simp [h4]⟩
      · exact ⟨z, h4.symm⟩
    obtain ⟨z, rfl⟩ := hp
    obtain ⟨col, h⟩ := hpos u (z ++ '|' :: q) (by simp) hu
    exact ⟨_, col, h, huniq⟩
  · by_cases hlt : utf8Len u ≤ utf8Len p
    · have hp : u <+: p := by
        rcases List.append_eq_append_iff.1 he with ⟨z, h4, h5⟩ | ⟨z, h4, h5⟩
        · rw [h4, utf8Len_append] at hlt
          have : z = [] := by
            cases z with
            | nil => rfl
            | cons d ds =>
              have := Char.utf8Size_pos d
              simp only [utf8Len_cons] at hlt
              omega
          subst this
          exact ⟨[], by simp [h4]⟩
        · exact ⟨z, h4.symm⟩
      obtain ⟨z, rfl⟩ := hp
      obtain ⟨col, h⟩ := hpos u (z ++ '|' :: q) (by simp) hu
      exact ⟨_, col, h, huniq⟩
    · rcases List.append_eq_append_iff.1 he with ⟨z, h4, h5⟩ | ⟨z, h4, h5⟩
      · -- behind the bar
        subst h4
        have hz : z ≠ [] := by rintro rfl; simp at hlt
        have hz' : z = z.dropLast ++ [c] := by
          rw [List.getLast?_append] at h1
          cases hq : z.getLast? with
          | none => exact absurd (List.getLast?_eq_none_iff.1 hq) hz
          | some d =>
            rw [hq] at h1
            cases h1
            exact (List.dropLast_concat_getLast hz).symm.trans (by
              rw [List.getLast?_eq_some_getLast hz] at hq; cases hq; rfl)
        obtain ⟨col, h⟩ := hpos (p ++ '|' :: z.dropLast) (c :: r) (by
            rw [h5]; conv => lhs; rw [hz']
            simp) (by
            rw [← hu, utf8Len_append, utf8Len_append, utf8Len_cons]
            conv => rhs; rw [hz']
            rw [utf8Len_append, utf8Len_cons]
            have : ('|' : Char).utf8Size = 1 := by decide
            simp [h3, this, utf8Len]
            omega)
        refine ⟨_, col, h, fun k => (huniq k).trans ?_⟩
        conv => lhs; rw [hz']
        simp [List.count_append, h2]
      · exfalso
        rw [h4, utf8Len_append] at hlt
        omega

/-- **C131**, definitions: if no line 0 is wanted and the bar of the cursor moves no location to another line, the
check does not panic and is right. -/
theorem C131_definition_partial (text : List Char) (ls : List TestLocation) (e : WantDefinition)
    (h0 : ∀ w ∈ e.has, w.line ≠ some 0) (hk : ∀ l ∈ ls, KeepsLine text l.start) :
    ∃ r, checkDefinition ls e text = .done r ∧ (r = true ↔ DefinitionFits (testDocument text).source ls e) := by
  unfold checkDefinition
  by_cases hem : e.empty = true ∧ ls ≠ []
  · refine ⟨false, ?_, ?_⟩
    · rw [if_pos]
      cases ls with
      | nil => exact absurd rfl hem.2
      | cons => simp [hem.1]
    · constructor
      · intro h; cases h
      · rintro ⟨h, -⟩; exact absurd (h hem.1) hem.2
  · obtain ⟨r, h1, h2⟩ := allOutcome_of (xs := e.has) (f := fun x => anyOutcome (locationMatches text x) ls)
      (P := fun w => ∃ l ∈ ls, (∀ n, w.line = some n → InLine (testDocument text).source l.start n) ∧
        ∀ u, w.uri = some u → u <:+: l.uri) (by
        intro w hw
        refine anyOutcome_of fun l hl => ?_
        obtain ⟨n, col, h3, h4⟩ := runnerPosition_bar (hk l hl)
        unfold locationMatches
        rw [h3]
        dsimp only
        rw [if_neg (h0 w hw)]
        refine ⟨_, rfl, ?_⟩
        rw [Bool.and_eq_true, wants_line (h0 w hw)]
        refine and_congr ?_ ?_
        · unfold AgreesWith
          simp only [h4]
          exact forall_congr' fun k => forall_congr' fun _ => eq_comm
        · cases w.uri with
          | none => simp
          | some u => simp [hintsContains_iff])
    rw [if_neg, h1]
    · refine ⟨_, rfl, ?_⟩
      rw [Bool.and_eq_true, wants_agreesWith, h2]
      unfold DefinitionFits
      constructor
      · rintro ⟨a, b⟩
        exact ⟨fun h => Classical.byContradiction fun hl => hem ⟨h, hl⟩, a, b⟩
      · rintro ⟨-, a, b⟩; exact ⟨a, b⟩
    · cases ls with
      | nil => simp
      | cons => simpa using hem

/-- **C131**, code actions. -/
theorem C131_actions (as : List TestAction) (e : WantActions) : checkActions as e = true ↔ ActionsFit as e := by
  unfold checkActions ActionsFit
  have key : ∀ w a, actionMatches w a = true ↔ w.title <:+: a.title ∧
      (∀ k, w.kind = some k → (k = chars! "quickfix" ∧ a.kind = some .quickFix) ∨
        (k = chars! "refactor" ∧ a.kind = some .refactor) ∨ (k = chars! "source" ∧ a.kind = some .source)) ∧
      ∀ p, w.preferred = some p → a.preferred = p := by
    intro w a
    unfold actionMatches
    rw [Bool.and_eq_true, Bool.and_eq_true, hintsContains_iff, and_assoc]
    refine and_congr Iff.rfl (and_congr ?_ ?_)
    · cases w.kind with
      | none => simp
      | some k =>
        cases a.kind with
        | none => simp
        | some x => cases x <;> simp [ActionKind.name]
    · cases w.preferred <;> simp
  by_cases hem : e.empty = true ∧ as ≠ []
  · rw [if_pos]
    · constructor
      · intro h; cases h
      · rintro ⟨h, -⟩; exact absurd (h hem.1) hem.2
    · cases as with
      | nil => exact absurd rfl hem.2
      | cons => simp [hem.1]
  · rw [if_neg]
    · rw [Bool.and_eq_true, Bool.and_eq_true, wants_agreesWith, and_assoc]
      have he : e.empty = true → as = [] := fun h => Classical.byContradiction fun hl => hem ⟨h, hl⟩
      simp only [List.all_eq_true, List.any_eq_true, key, Bool.not_eq_true', List.any_eq_false, hintsContains_iff]
      constructor
      · rintro ⟨a, b, c⟩; exact ⟨he, a, b, c⟩
      · rintro ⟨-, a, b, c⟩; exact ⟨a, b, c⟩
    · cases as with
      | nil => simp
      | cons => simpa using hem

/-! ## The verdict -/

theorem firstBar : ∀ {s : List Char}, '|' ∈ s → ∃ p q, s = p ++ '|' :: q ∧ '|' ∉ p
  | c :: cs, h => by
    by_cases hc : c = '|'
    · exact ⟨[], cs, by simp [hc], by simp⟩
    · obtain ⟨p, q, h1, h2⟩ := firstBar (s := cs) (by simpa [Ne.symm hc] using h)
      exact ⟨c :: p, q, by simp [h1], by simp [Ne.symm hc, h2]⟩

theorem cursor_iff {text : List Char} : (testDocument text).cursor.isNone = false ↔ '|' ∈ text := by
  unfold testDocument
  by_cases h : '|' ∈ text
  · obtain ⟨p, q, rfl, hp⟩ := firstBar h
    rw [splitBar_at hp]
    simp
  · rw [splitBar_none h]
    simp [h]

theorem checkAnswer_of {α β : Type} {e : Option α} {a : Option β} {check : β → α → Outcome Bool} {P : β → α → Prop}
    (h : ∀ x y, e = some x → a = some y → ∃ r, check y x = .done r ∧ (r = true ↔ P y x)) :
    ∃ r, checkAnswer e a check = .done r ∧ (r = true ↔ ∀ x, e = some x → ∃ y, a = some y ∧ P y x) := by
  cases e with
  | none => exact ⟨true, rfl, by simp⟩
  | some x =>
    cases a with
    | none => exact ⟨false, rfl, by simp⟩
    | some y =>
      obtain ⟨r, h1, h2⟩ := h x y rfl rfl
      exact ⟨r, h1, by simp [h2]⟩

theorem checkAtCursor_of {α β : Type} {text : List Char} {e : Option α} {a : Option β}
    {check : β → α → Outcome Bool} {P : β → α → Prop}
    (h : '|' ∈ text → ∀ x y, e = some x → a = some y → ∃ r, check y x = .done r ∧ (r = true ↔ P y x)) :
    ∃ r, checkAtCursor (testDocument text) e a check = .done r ∧
      (r = true ↔ ∀ x, e = some x → '|' ∈ text ∧ ∃ y, a = some y ∧ P y x) := by
  unfold checkAtCursor
  by_cases hb : '|' ∈ text
  · rw [cursor_iff.2 hb, Bool.and_false, if_neg (by simp)]
    simpa [hb] using checkAnswer_of (h hb)
  · have hc : (testDocument text).cursor.isNone = true := by
      cases hh : (testDocument text).cursor.isNone with
      | true => rfl
      | false => exact absurd (cursor_iff.1 hh) hb
    rw [hc, Bool.and_true]
    cases e with
    | none => exact ⟨true, rfl, by simp⟩
    | some x => exact ⟨false, rfl, by simp [hb]⟩

/-- What a test asks for about diagnostics: nothing, or an answer as in C126. -/
def DiagnosticsFit (t : TestCase) (x : TestExtension) (bs : List Block) (doc : TestDocument) : Prop :=
  (t.diagnostics = none ∧ ∀ b ∈ bs, b.marks = []) ∨ ∃ ds, x.diagnostics doc = some ds ∧ AsWanted bs t.diagnostics ds

theorem allMarkers_nil {bs : List Block} : allMarkers 0 bs = [] ↔ ∀ b ∈ bs, b.marks = [] := by
  constructor
  · intro h b hb
    obtain ⟨i, hi, rfl⟩ := List.getElem_of_mem hb
    cases hm : bs[i].marks with
    | nil => rfl
    | cons m ms =>
      have := (allMarkers_mem (bs := bs) (k := 0)).2 ⟨i, bs[i], m, List.getElem?_eq_getElem hi, by simp [hm], rfl⟩
      rw [h] at this
      cases this
  · intro h
    refine List.eq_nil_iff_forall_not_mem.2 fun x hx => ?_
    obtain ⟨i, b, m, h1, h2, -⟩ := allMarkers_mem.1 hx
    rw [h b (List.mem_of_getElem? h1)] at h2
    cases h2

theorem build_none {e : Option DiagExpectations} {bs : List Block} :
    buildExpectations e (allMarkers 0 bs) = none ↔ e = none ∧ ∀ b ∈ bs, b.marks = [] := by
  rw [← allMarkers_nil]
  unfold buildExpectations
  cases e <;> cases allMarkers 0 bs <;> simp

theorem diagnostics_of {t : TestCase} {x : TestExtension} {bs : List Block} (hok : ∀ b ∈ bs, b.Ok)
    (hdiag : (t.diagnostics = none ∧ ∀ b ∈ bs, b.marks = []) ∨
      ('|' ∉ documentOf bs ∧ (∀ b ∈ bs, OnLine b) ∧ (∀ e, t.diagnostics = some e → ∀ w ∈ e.has, w.line ≠ some 0) ∧
        ∀ ds, x.diagnostics (testDocument (documentOf bs)) = some ds →
          ∀ d ∈ ds, ∃ i f l, AtLine bs d.start d.stop i f l)) :
    ∃ r, checkAnswer (buildExpectations t.diagnostics (allMarkers 0 bs))
        (x.diagnostics (testDocument (documentOf bs))) (fun a e => checkDiagnostics a e (documentOf bs)) = .done r ∧
      (r = true ↔ DiagnosticsFit t x bs (testDocument (documentOf bs))) := by
  by_cases hn : t.diagnostics = none ∧ ∀ b ∈ bs, b.marks = []
  · rw [build_none.2 hn]
    exact ⟨true, rfl, fun _ => Or.inl hn, fun _ => rfl⟩
  · obtain ⟨hbar, hon, hline, hd⟩ := hdiag.resolve_left hn
    cases hx : x.diagnostics (testDocument (documentOf bs)) with
    | none =>
      cases hb : buildExpectations t.diagnostics (allMarkers 0 bs) with
      | none => exact absurd (build_none.1 hb) hn
      | some e =>
        refine ⟨false, rfl, ?_⟩
        constructor
        · intro h; cases h
        · rintro (h | ⟨ds, h, -⟩)
          · exact absurd h hn
          · rw [hx] at h; cases h
    | some ds =>
      obtain ⟨r, h1, h2⟩ := C126_verdict_partial bs t.diagnostics (fun _ => ds) hok hbar hon hline (hd ds hx)
      refine ⟨r, ?_, h2.trans ?_⟩
      · rw [← h1]
        simp only [runDiagnostics, parseSpanMarkers_input hok]
        cases buildExpectations t.diagnostics (allMarkers 0 bs) <;> rfl
      · constructor
        · intro h; exact Or.inr ⟨ds, hx, h⟩
        · rintro (h | ⟨ds', h, h'⟩)
          · exact absurd h hn
          · rw [hx] at h; cases h; exact h'

/-- **C131** (the verdict, partial): a test passes exactly if the answers of the extension to the document of the
test are as the test asks; a test that is expected to fail passes exactly if they are not.

Missing: no two completions with the same label; no wanted kind of a completion; no wanted line 0; locations that the bar of the cursor does not move
to another line; and diagnostics as in C126.  `C131_false_…` show that these are needed. -/
theorem C131_verdict_partial (t : TestCase) (x : TestExtension) (bs : List Block) (hin : t.input = inputOf bs)
    (hok : ∀ b ∈ bs, b.Ok)
    (hlabels : ∀ cs, x.completions (testDocument (documentOf bs)) = some cs → (cs.map (·.label)).Nodup)
    (hkinds : ∀ e, t.completions = some e → ∀ i ∈ e.items, i.kind = none)
    (hhints : ∀ e, t.hints = some e → ∀ w ∈ e.has, w.line ≠ some 0)
    (hdefs : ∀ e, t.definition = some e → ∀ w ∈ e.has, w.line ≠ some 0)
    (hplaces : ∀ ls, x.definition (testDocument (documentOf bs)) = some ls → '|' ∈ documentOf bs →
      ∀ l ∈ ls, KeepsLine (documentOf bs) l.start)
    (hdiag : (t.diagnostics = none ∧ ∀ b ∈ bs, b.marks = []) ∨
      ('|' ∉ documentOf bs ∧ (∀ b ∈ bs, OnLine b) ∧ (∀ e, t.diagnostics = some e → ∀ w ∈ e.has, w.line ≠ some 0) ∧
        ∀ ds, x.diagnostics (testDocument (documentOf bs)) = some ds →
          ∀ d ∈ ds, ∃ i f l, AtLine bs d.start d.stop i f l)) :
    ∃ r, runTest t x = .done r ∧ (r = true ↔ (t.expectFail = false ↔
      AllFit t x (documentOf bs) (testDocument (documentOf bs)) ∧
      DiagnosticsFit t x bs (testDocument (documentOf bs)))) := by
  obtain ⟨r1, a1, b1⟩ := checkAtCursor_of (text := documentOf bs) (e := t.completions)
    (a := x.completions (testDocument (documentOf bs))) (check := fun a e => .done (checkCompletions a e))
    (P := CompletionsFit) fun _ e a he ha => ⟨_, rfl, C131_completions_partial a e (hlabels a ha) (hkinds e he)⟩
  obtain ⟨r2, a2, b2⟩ := checkAtCursor_of (text := documentOf bs) (e := t.hover)
    (a := x.hover (testDocument (documentOf bs))) (check := fun a e => .done (checkHover a e))
    (P := HoverFits) fun _ e a _ ha => ⟨_, rfl, C131_hover a e⟩
  obtain ⟨r3, a3, b3⟩ := diagnostics_of (t := t) (x := x) hok hdiag
  obtain ⟨r4, a4, b4⟩ := checkAnswer_of (e := t.hints) (a := x.hints (testDocument (documentOf bs)))
    (check := checkHints) (P := HintsFit) fun e a he _ => C131_hints_partial a e (hhints e he)
  obtain ⟨r5, a5, b5⟩ := checkAtCursor_of (text := documentOf bs) (e := t.definition)
    (a := x.definition (testDocument (documentOf bs))) (check := fun a e => checkDefinition a e (documentOf bs))
    (P := DefinitionFits (testDocument (documentOf bs)).source)
    fun hb e a he ha => C131_definition_partial _ a e (hdefs e he) (hplaces a ha hb)
  obtain ⟨r6, a6, b6⟩ := checkAtCursor_of (text := documentOf bs) (e := t.actions)
    (a := x.actions (testDocument (documentOf bs))) (check := fun a e => .done (checkActions a e))
    (P := ActionsFit) fun _ e a _ ha => ⟨_, rfl, C131_actions a e⟩
  refine ⟨testPasses t.expectFail (r1 && r2 && r3 && r4 && r5 && r6), ?_, ?_⟩
  · unfold runTest
    rw [hin, parseSpanMarkers_input hok]
    dsimp only
    rw [a1, Outcome.bind, a2, Outcome.bind, a3, Outcome.bind, a4, Outcome.bind, a5, Outcome.bind, a6, Outcome.bind]
  · have hall : (r1 && r2 && r3 && r4 && r5 && r6) = true ↔
        AllFit t x (documentOf bs) (testDocument (documentOf bs)) ∧
        DiagnosticsFit t x bs (testDocument (documentOf bs)) := by
      simp only [Bool.and_eq_true, AllFit, b1, b2, b3, b4, b5, b6]
      constructor
      · rintro ⟨⟨⟨⟨⟨h1, h2⟩, h3⟩, h4⟩, h5⟩, h6⟩; exact ⟨⟨h1, h2, h4, h5, h6⟩, h3⟩
      · rintro ⟨⟨h1, h2, h4, h5, h6⟩, h3⟩; exact ⟨⟨⟨⟨⟨h1, h2⟩, h3⟩, h4⟩, h5⟩, h6⟩
    rw [← hall]
    unfold testPasses
    cases t.expectFail <;> cases (r1 && r2 && r3 && r4 && r5 && r6) <;> simp

/-! ## What a test does not see -/

section False

/-- An extension that answers only some requests. -/
def answering (completions : List TestItem := []) (definition : List TestLocation := []) (hints : List TestHint := []) :
    TestExtension :=
  ⟨fun _ => some completions, fun _ => some none, fun _ => some [], fun _ => some hints, fun _ => some definition,
    fun _ => some []⟩

/-- **C131 is false of the code**: only the first completion with a label is looked at; an extension that also offers
the one the test asks for fails the test. -/
theorem C131_false_label :
    let asked : WantCompletions := ⟨[], [], [⟨chars! "id", some (chars! "users"), none, none⟩]⟩
    let cs : List TestItem := [⟨chars! "id", some (chars! "posts"), none, none⟩, ⟨chars! "id", some (chars! "users"), none, none⟩]
    CompletionsFit cs asked ∧
    runTest { input := chars! "select |", completions := some asked } (answering (completions := cs)) = .done false := by
  refine ⟨⟨by simp, by simp, ?_⟩, by decide +kernel⟩
  intro i hi
  simp only [List.mem_singleton] at hi
  subst hi
  exact ⟨_, by simp; exact Or.inr rfl, rfl, by simp, by simp⟩

/-- **C131 is false of the code**: the kind of a completion a test file asks for is never compared. -/
theorem C131_false_kind :
    let asked : WantCompletions := ⟨[], [], [⟨chars! "id", none, none, some (chars! "field")⟩]⟩
    let cs : List TestItem := [⟨chars! "id", none, none, some (chars! "keyword")⟩]
    ¬ CompletionsFit cs asked ∧
    runTest { input := chars! "select |", completions := some asked } (answering (completions := cs)) = .done true := by
  refine ⟨?_, by decide +kernel⟩
  rintro ⟨-, -, h⟩
  obtain ⟨c, hc, -, -, -, hk⟩ := h _ (List.mem_singleton.2 rfl)
  simp only [List.mem_singleton] at hc
  subst hc
  have := hk _ rfl
  revert this
  decide

/-- **C131 is false of the code**: the extension gets the document without the bar of the cursor, but the line of a
definition is looked up in the text with the bar.  A definition at the start of the second line fails a test that asks
for the second line, and passes one that asks for the first. -/
theorem C131_false_line :
    runTest { input := chars! "|a 1\nb 2", definition := some ⟨none, false, [⟨some 2, none⟩]⟩ }
      (answering (definition := [⟨chars! "file:///t.styx", 4, 5⟩])) = .done false ∧
    runTest { input := chars! "|a 1\nb 2", definition := some ⟨none, false, [⟨some 1, none⟩]⟩ }
      (answering (definition := [⟨chars! "file:///t.styx", 4, 5⟩])) = .done true ∧
    InLine (testDocument (chars! "|a 1\nb 2")).source 4 2 ∧ ¬ InLine (testDocument (chars! "|a 1\nb 2")).source 4 1 := by
  refine ⟨by decide +kernel, by decide +kernel, ⟨chars! "a 1\n", chars! "b 2", rfl, by decide, by decide⟩, ?_⟩
  rintro ⟨b, a, h1, h2, h3⟩
  have e1 := takeBytes_app b a
  rw [h2, ← h1] at e1
  have e2 : Styx.takeBytes 4 (testDocument (chars! "|a 1\nb 2")).source = some (chars! "a 1\n") := by decide
  rw [e2] at e1
  cases e1
  revert h3
  decide

/-- **C131 is false of the code**: a definition after a character of several bytes behind the cursor stops the run of
all tests. -/
theorem C131_false_panic :
    runTest { input := chars! "|é 1", definition := some ⟨none, false, [⟨some 1, none⟩]⟩ }
      (answering (definition := [⟨chars! "file:///t.styx", 2, 3⟩])) = .panics := by decide +kernel

/-- **C131 is false of the code**: a test that asks for a hint in line 0 stops the run of all tests, as soon as a hint
has the label. -/
theorem C131_false_zero :
    runTest { input := chars! "a 1", hints := some ⟨none, [⟨chars! ": int", some 0, none⟩]⟩ }
      (answering (hints := [⟨chars! ": int", 0, 1⟩])) = .panics := by decide +kernel

end False

/-! ## A case of the hypotheses -/

section Examples

/-- A test that asks for a hint, for a completion at the cursor, and for a definition in the second line. -/
def askingTest : TestCase :=
  { input := inputOf [⟨chars! "select a", []⟩, ⟨chars! "from a|b", []⟩]
    completions := some ⟨[chars! "abc"], [chars! "x"], [⟨chars! "abc", some (chars! "table"), none, none⟩]⟩
    hints := some ⟨some 1, [⟨chars! ": int", some 1, some 8⟩]⟩
    definition := some ⟨some 1, false, [⟨some 2, none⟩]⟩ }

/-- An extension that answers like this. -/
def askedExtension : TestExtension :=
  answering [⟨chars! "abc", some (chars! "table"), none, none⟩] [⟨chars! "file:///t.styx", 14, 16⟩]
    [⟨chars! ": int", 0, 8⟩]

example : askingTest.input = chars! "select a\nfrom a|b\n" := by decide

example : AllFit askingTest askedExtension (chars! "select a\nfrom a|b")
    (testDocument (chars! "select a\nfrom a|b")) := by
  obtain ⟨r, h1, h2⟩ := C131_verdict_partial askingTest askedExtension [⟨chars! "select a", []⟩, ⟨chars! "from a|b", []⟩] rfl
    (by
      simp only [List.forall_mem_cons]
      exact ⟨⟨by decide, by decide, plain_not_mark (by decide), by simp⟩,
        ⟨by decide, by decide, plain_not_mark (by decide), by simp⟩, by simp⟩)
    (by rintro cs ⟨⟩; simp) (by rintro e ⟨⟩; simp) (by rintro e ⟨⟩; simp) (by rintro e ⟨⟩; simp)
    (by
      rintro ls ⟨⟩ - l hl
      simp only [List.mem_singleton] at hl
      subst hl
      exact ⟨chars! "select a\nfrom a", chars! "b", chars! "select a\nfrom ", chars! "ab", by decide, by decide,
        by decide, by decide, Or.inl (by decide)⟩)
    (Or.inl ⟨rfl, by simp⟩)
  have : runTest askingTest askedExtension = .done true := by decide +kernel
  rw [this] at h1
  cases h1
  exact ((h2.1 rfl).1 rfl).1

end Examples

end Styx.Props
