import Verif.Lsp.StoreLemmas

/-!
# C75: the open documents of the language server

Requests are answered from the documents the server has stored.  A stored document should be the latest text
the client sent, together with what the parsers make of it, and the diagnostics shown should be those of that
text, whatever the schedule of the handlers.
-/

namespace Styx.Props

open Styx Styx.Spec Styx.Lsp.Store

/-- The parses and the tree of a stored document are those of its text, and that text and version were sent
for that document, after every schedule. -/
theorem C75_consistent (l : List Label) (uri : List Char) (d : Doc) (h : get uri (exec l).docs = some d) :
    (d.parse = Cst.parse d.content ∧ ∀ t, d.tree = some t ↔ parseTree d.content = some (.ok t)) ∧
    ∃ m ∈ messages l, Gives uri d m :=
  (exec_sent l).docs (uri, d) (get_mem h)

/-- When the handlers of a document do not overlap, every change has one text and no text makes the parser
panic, then an idle document is stored with the latest text and version, and a closed one is not stored.
Missing: handlers that overlap (false, `C75_older_false`, `C75_closed_false`), notifications with several
changes (false, `C75_changes_false`) and texts on which the parser panics. -/
theorem C75_latest_partial (l : List Label) (uri : List Char) (ho : Orderly l)
    (hp : ∀ m ∈ messages l, ∀ text ∈ texts m, parseTree text ≠ none)
    (hc : ∀ m ∈ messages l, (texts m).length ≤ 1) (hi : Idle (exec l) uri) :
    (get uri (exec l).docs).map (fun d => (d.version, d.content)) = latest uri (messages l) := by
  cases exec_known uri ho fun m hm => ⟨hp m hm, hc m hm⟩ with
  | busy h1 h2 => exact absurd h2 (hi _ (List.mem_of_getElem? h1))
  | idle _ h2 _ =>
    have hl : ∀ p, latest uri (messages l) = some p → ∃ d, docOfText p = some d := by
      intro p hp'
      have : ∀ ms : List Notice, (∀ m ∈ ms, ∀ text ∈ texts m, parseTree text ≠ none) →
          ∀ now, (∀ p, now = some p → parseTree p.2 ≠ none) → ∀ p, ms.foldl (after uri) now = some p → parseTree p.2 ≠ none := by
        intro ms
        induction ms with
        | nil => intro _ now hn p h; exact hn p h
        | cons m ms ih =>
          intro hms now hn p h
          refine ih (fun m' hm' => hms m' (List.mem_cons_of_mem _ hm')) (after uri now m) ?_ p h
          intro q hq
          have hm := hms m (List.mem_cons_self ..)
          cases m with
          | opened u v text =>
            simp only [after] at hq
            split at hq
            · cases hq; exact hm text (by simp [texts])
            · exact hn q hq
          | changed u v changes =>
            simp only [after] at hq
            split at hq
            · split at hq
              · rename_i text ht
                cases hq; exact hm text (List.mem_of_getLast? ht)
              · exact hn q hq
            · exact hn q hq
          | closed u =>
            simp only [after] at hq
            split at hq
            · cases hq
            · exact hn q hq
          | allow => exact hn q hq
      exact mkDoc_ne (this (messages l) hp none nofun p hp')
    rw [h2]
    cases hlat : latest uri (messages l) with
    | none => rfl
    | some p =>
      obtain ⟨d, hd⟩ := hl p hlat
      obtain ⟨e1, e2, _⟩ := mkDoc_some hd
      simp [hd, e1, e2]

/-- Then, unless an extension was allowed, the diagnostics shown for an idle document are those of the latest
text.  Missing: as before, and allowed extensions (false, `C75_allow_false`). -/
theorem C75_shown_partial (l : List Label) (uri : List Char) (ho : Orderly l)
    (hp : ∀ m ∈ messages l, ∀ text ∈ texts m, parseTree text ≠ none)
    (hc : ∀ m ∈ messages l, (texts m).length ≤ 1) (ha : .allow ∉ messages l) (hi : Idle (exec l) uri) :
    get uri (exec l).shown = latestShown uri (messages l) := by
  cases exec_known uri ho fun m hm => ⟨hp m hm, hc m hm⟩ with
  | busy h1 h2 => exact absurd h2 (hi _ (List.mem_of_getElem? h1))
  | idle _ _ h3 => exact (h3 ha).symm

/-- Whatever happened, the handlers can all finish without another message. -/
theorem C75_finish (l : List Label) : ∃ is : List Nat, ∀ t ∈ (exec (l ++ is.map .run)).tasks, t = .done := by
  obtain ⟨is, his⟩ := all_finish _ (exec l) rfl
  exact ⟨is, by rw [exec_runs]; exact his⟩

/-! ## What goes wrong -/

/-- What is stored for a document: version and text. -/
def storedText (uri : List Char) (s : Server) : Option (Int × List Char) :=
  (get uri s.docs).map fun d => (d.version, d.content)

/-- Two changes: the handler of the first one stores last. -/
def olderWins : List Label :=
  [.receive (.opened (chars! "u") 1 (chars! "a 1")), .run 0, .run 0, .run 0,
   .receive (.changed (chars! "u") 2 [chars! "a 2"]), .receive (.changed (chars! "u") 3 [chars! "a 3"]),
   .run 1, .run 2, .run 1, .run 2, .run 2, .run 1]

/-- The version of an open document can go back: after all handlers are done the older text is stored, while the
diagnostics shown are those of the newer one. -/
theorem C75_older_false :
    (∀ t ∈ (exec olderWins).tasks, t = .done) ∧
    storedText (chars! "u") (exec olderWins) = some (2, (chars! "a 2")) ∧
    latest (chars! "u") (messages olderWins) = some (3, (chars! "a 3")) ∧
    get (chars! "u") (exec olderWins).shown = some (.diagnostics 3 (chars! "a 3") true) := by
  refine ⟨?_, rfl, rfl, rfl⟩
  intro t ht
  have : (exec olderWins).tasks = [.done, .done, .done] := rfl
  rw [this] at ht
  simpa using ht

/-- A document is closed while it is opened. -/
def lateOpen : List Label :=
  [.receive (.opened (chars! "u") 1 (chars! "a 1")), .receive (.closed (chars! "u")),
   .run 0, .run 1, .run 1, .run 0, .run 0]

/-- A closed document can stay stored, and diagnostics stay shown for it. -/
theorem C75_closed_false :
    (∀ t ∈ (exec lateOpen).tasks, t = .done) ∧
    storedText (chars! "u") (exec lateOpen) = some (1, (chars! "a 1")) ∧
    latest (chars! "u") (messages lateOpen) = none ∧
    get (chars! "u") (exec lateOpen).shown = some (.diagnostics 1 (chars! "a 1") true) := by
  refine ⟨?_, rfl, rfl, rfl⟩
  intro t ht
  have : (exec lateOpen).tasks = [.done, .done] := rfl
  rw [this] at ht
  simpa using ht

/-- A notification with two changes, handled alone. -/
def twoChanges : List Label :=
  [.receive (.changed (chars! "u") 2 [chars! "a 1", chars! "a 2"]), .run 0, .run 0, .run 0]

/-- Of several changes in a notification the first is kept, not the last. -/
theorem C75_changes_false :
    storedText (chars! "u") (exec twoChanges) = some (2, (chars! "a 1")) ∧
    latest (chars! "u") (messages twoChanges) = some (2, (chars! "a 2")) := ⟨rfl, rfl⟩

/-- A document with an error, then an extension is allowed. -/
def thenAllow : List Label :=
  [.receive (.opened (chars! "u") 1 (chars! "a 1\na 2")), .run 0, .run 0, .run 0,
   .receive .allow, .run 1, .run 1, .run 1]

/-- Allowing an extension shows the diagnostics again, without the error of the tree parser, although the text is
the same and still has that error. -/
theorem C75_allow_false :
    get (chars! "u") (exec thenAllow).shown = some (.diagnostics 1 (chars! "a 1\na 2") false) ∧
    latestShown (chars! "u") (messages thenAllow) = some (.diagnostics 1 (chars! "a 1\na 2") true) ∧
    (match parseTree (chars! "a 1\na 2") with | some (.error _) => true | _ => false) = true := ⟨rfl, rfl, rfl⟩

/-- The diagnostics of a text are shown before requests are answered from it. -/
theorem C75_shown_first_false :
    storedText (chars! "u") (exec (olderWins.take 8 ++ [.run 1])) = some (1, (chars! "a 1")) ∧
    get (chars! "u") (exec (olderWins.take 8 ++ [.run 1])).shown = some (.diagnostics 2 (chars! "a 2") true) := ⟨rfl, rfl⟩

/-! ## The hypotheses are met -/

/-- Two documents, whose handlers overlap with each other but not with themselves; one is closed at the end, and
an extension is allowed in between. -/
def orderlyRun : List Label :=
  [.receive (.opened (chars! "u") 1 (chars! "a 1")), .receive (.opened (chars! "v") 1 (chars! "b {c 1}")),
   .run 0, .run 1, .run 1, .run 0, .run 0,
   .receive (.changed (chars! "u") 2 [chars! "a 2"]), .run 2, .run 1, .receive .allow, .run 3, .run 2, .run 2,
   .run 3, .run 3, .run 3, .run 2,
   .receive (.closed (chars! "v")), .run 4, .run 4]

/-- A run-time check of `Orderly`. -/
def orderlyCheck (s : Server) : List Label → Bool
  | [] => true
  | .run i :: l => orderlyCheck (step s i) l
  | .receive m :: l =>
    (s.tasks.all fun t => about m == none || working t != about m) && orderlyCheck (act s (.receive m)) l

theorem orderlyCheck_sound : ∀ (l l' : List Label), orderlyCheck (exec l') l = true →
    ∀ before m rest uri, l = before ++ .receive m :: rest → about m = some uri → Idle (exec (l' ++ before)) uri
  | [], _, _, before, m, rest, uri, hl, _ => by simp at hl
  | .run i :: l, l', h, before, m, rest, uri, hl, hm => by
    cases before with
    | nil => simp at hl
    | cons b before =>
      simp only [List.cons_append, List.cons.injEq] at hl
      obtain ⟨rfl, rfl⟩ := hl
      have := orderlyCheck_sound _ (l' ++ [.run i]) (by rw [exec_snoc]; exact h) before m rest uri rfl hm
      rwa [List.append_assoc] at this
  | .receive n :: l, l', h, before, m, rest, uri, hl, hm => by
    simp only [orderlyCheck, Bool.and_eq_true] at h
    cases before with
    | nil =>
      simp only [List.nil_append, List.cons.injEq, Label.receive.injEq] at hl
      obtain ⟨rfl, rfl⟩ := hl
      intro t ht
      rw [List.append_nil] at ht
      have := List.all_eq_true.mp h.1 t ht
      rw [hm] at this
      simpa using this
    | cons b before =>
      simp only [List.cons_append, List.cons.injEq] at hl
      obtain ⟨rfl, rfl⟩ := hl
      have := orderlyCheck_sound _ (l' ++ [.receive n]) (by rw [exec_snoc]; exact h.2) before m rest uri rfl hm
      rwa [List.append_assoc] at this

theorem orderlyRun_orderly : Orderly orderlyRun :=
  fun before m rest uri hl hm => orderlyCheck_sound orderlyRun [] rfl before m rest uri hl hm

example : Orderly orderlyRun ∧
    (∀ m ∈ messages orderlyRun, ∀ text ∈ texts m, parseTree text ≠ none) ∧
    (∀ m ∈ messages orderlyRun, (texts m).length ≤ 1) ∧
    (∀ t ∈ (exec orderlyRun).tasks, t = .done) ∧
    storedText (chars! "u") (exec orderlyRun) = some (2, (chars! "a 2")) ∧
    storedText (chars! "v") (exec orderlyRun) = none := by
  refine ⟨orderlyRun_orderly, ?_, ?_, ?_, rfl, rfl⟩
  · have : messages orderlyRun = [.opened (chars! "u") 1 (chars! "a 1"), .opened (chars! "v") 1 (chars! "b {c 1}"),
      .changed (chars! "u") 2 [chars! "a 2"], .allow, .closed (chars! "v")] := rfl
    rw [this]
    intro m hm text ht
    simp only [List.mem_cons, List.not_mem_nil, or_false] at hm
    have h1 : (parseTree (chars! "a 1")).isSome = true := rfl
    have h2 : (parseTree (chars! "b {c 1}")).isSome = true := rfl
    have h3 : (parseTree (chars! "a 2")).isSome = true := rfl
    rcases hm with rfl | rfl | rfl | rfl | rfl <;> simp only [texts, List.mem_cons, List.not_mem_nil, or_false] at ht <;>
      subst ht <;> intro hn
    · rw [hn] at h1; cases h1
    · rw [hn] at h2; cases h2
    · rw [hn] at h3; cases h3
  · decide +kernel
  · have : (exec orderlyRun).tasks = [.done, .done, .done, .done, .done] := rfl
    rw [this]
    simp

end Styx.Props
