import Verif.Lsp.StoreSpec

/-!
# Lemmas about the open documents of the language server
-/

namespace Styx.Lsp.Store

open Styx Styx.Spec

theorem messages_append (l l' : List Label) : messages (l ++ l') = messages l ++ messages l' := by
  induction l with
  | nil => rfl
  | cons a l ih => cases a <;> simp [messages, ih]

theorem exec_snoc (l : List Label) (a : Label) : exec (l ++ [a]) = act (exec l) a := by
  simp [exec, List.foldl_append]

theorem snoc_induction {P : List Label → Prop} (h0 : P []) (h1 : ∀ l a, P l → P (l ++ [a])) (l : List Label) : P l := by
  have : ∀ r : List Label, P r.reverse := by
    intro r
    induction r with
    | nil => exact h0
    | cons a r ih => rw [List.reverse_cons]; exact h1 _ _ ih
  have := this l.reverse
  rwa [List.reverse_reverse] at this

theorem mkDoc_some {v : Int} {text : List Char} {d : Doc} (h : mkDoc v text = some d) :
    d.content = text ∧ d.version = v ∧ Consistent1 d := by
  unfold mkDoc at h
  split at h
  · cases h
    rename_i t ht
    exact ⟨rfl, rfl, rfl, fun t' => by simp [ht]⟩
  · cases h
    rename_i e ht
    exact ⟨rfl, rfl, rfl, fun t' => by simp [ht]⟩
  · cases h

theorem mem_remove {uri : List Char} {docs : List (List Char × Doc)} {p : List Char × Doc} (h : p ∈ remove uri docs) :
    p ∈ docs := (List.mem_filter.mp h).1

theorem get_mem {α : Type} {uri : List Char} {docs : List (List Char × α)} {d : α} (h : get uri docs = some d) : (uri, d) ∈ docs := by
  unfold get at h
  rw [Option.map_eq_some_iff] at h
  obtain ⟨p, h1, rfl⟩ := h
  have := List.find?_some h1
  have h2 := List.mem_of_find?_eq_some h1
  obtain ⟨u, d⟩ := p
  have : u = uri := by simpa using this
  subst this
  exact h2

theorem get_remove_self {uri : List Char} {docs : List (List Char × Doc)} : get uri (remove uri docs) = none := by
  cases h : get uri (remove uri docs) with
  | none => rfl
  | some d =>
    have := get_mem h
    simp [remove] at this

theorem get_remove_ne {uri u : List Char} {docs : List (List Char × Doc)} (h : u ≠ uri) :
    get uri (remove u docs) = get uri docs := by
  unfold get remove
  congr 1
  induction docs with
  | nil => rfl
  | cons p docs ih =>
    by_cases hp : p.1 = u
    · rw [List.filter_cons_of_neg (by simp [hp]), ih, List.find?_cons_of_neg (by simp [hp, h])]
    · rw [List.filter_cons_of_pos (by simp [hp])]
      by_cases hq : p.1 = uri
      · rw [List.find?_cons_of_pos (by simp [hq]), List.find?_cons_of_pos (by simp [hq])]
      · rw [List.find?_cons_of_neg (by simp [hq]), List.find?_cons_of_neg (by simp [hq]), ih]

theorem get_insert_self {uri : List Char} {d : Doc} {docs : List (List Char × Doc)} :
    get uri (insert uri d docs) = some d := by
  simp [get, insert]

theorem get_insert_ne {uri u : List Char} {d : Doc} {docs : List (List Char × Doc)} (h : u ≠ uri) :
    get uri (insert u d docs) = get uri docs := by
  rw [← get_remove_ne (docs := docs) h]
  simp [get, insert, h]

theorem get_cons_self {α : Type} {uri : List Char} {a : α} {l : List (List Char × α)} : get uri ((uri, a) :: l) = some a := by
  simp [get]

theorem get_cons_ne {α : Type} {uri u : List Char} {a : α} {l : List (List Char × α)} (h : u ≠ uri) :
    get uri ((u, a) :: l) = get uri l := by
  simp [get, h]

/-! ## What is stored was sent -/

/-- A document was sent by one of the messages. -/
def Sent (ms : List Notice) (uri : List Char) (d : Doc) : Prop := Consistent1 d ∧ ∃ m ∈ ms, Gives uri d m

/-- All documents of a handler were sent. -/
def TaskSent (ms : List Notice) : Task → Prop
  | .start m => m ∈ ms
  | .ready uri d | .published uri d => Sent ms uri d
  | .allowing rest => ∀ p ∈ rest, Sent ms p.1 p.2
  | .clearing _ | .done => True

/-- Everything the server holds was sent. -/
structure AllSent (ms : List Notice) (s : Server) : Prop where
  docs : ∀ p ∈ s.docs, Sent ms p.1 p.2
  tasks : ∀ t ∈ s.tasks, TaskSent ms t

theorem Sent.mono {ms ms' : List Notice} {uri : List Char} {d : Doc} (h : Sent ms uri d) (hs : ∀ m ∈ ms, m ∈ ms') :
    Sent ms' uri d := ⟨h.1, let ⟨m, h1, h2⟩ := h.2; ⟨m, hs m h1, h2⟩⟩

theorem TaskSent.mono {ms ms' : List Notice} {t : Task} (h : TaskSent ms t) (hs : ∀ m ∈ ms, m ∈ ms') : TaskSent ms' t := by
  cases t with
  | start m => exact hs m h
  | ready uri d => exact Sent.mono h hs
  | published uri d => exact Sent.mono h hs
  | allowing rest => exact fun p hp => (h p hp).mono hs
  | clearing _ => trivial
  | done => trivial

theorem mem_set {α : Type} {l : List α} {i : Nat} {a b : α} (h : b ∈ l.set i a) : b = a ∨ b ∈ l := by
  rcases List.mem_or_eq_of_mem_set h with h | h
  · exact .inr h
  · exact .inl h

theorem AllSent.setTask {ms : List Notice} {s : Server} (h : AllSent ms s) {t : Task} (ht : TaskSent ms t) (i : Nat) :
    ∀ u ∈ s.tasks.set i t, TaskSent ms u := by
  intro u hu
  rcases mem_set hu with rfl | hu
  · exact ht
  · exact h.tasks u hu

theorem AllSent.step {ms : List Notice} {s : Server} (h : AllSent ms s) (i : Nat) : AllSent ms (step s i) := by
  unfold Store.step
  split
  · exact h
  · exact h
  · rename_i uri version text ht
    have hm : Notice.opened uri version text ∈ ms := h.tasks _ (List.mem_of_getElem? ht)
    refine ⟨h.docs, h.setTask ?_ i⟩
    cases hd : mkDoc version text with
    | none => trivial
    | some d =>
      obtain ⟨h1, h2, h3⟩ := mkDoc_some hd
      exact ⟨h3, _, hm, rfl, h2.symm, h1.symm⟩
  · rename_i uri version changes ht
    have hm : Notice.changed uri version changes ∈ ms := h.tasks _ (List.mem_of_getElem? ht)
    split
    · rename_i text hh
      refine ⟨h.docs, h.setTask ?_ i⟩
      cases hd : mkDoc version text with
      | none => trivial
      | some d =>
        obtain ⟨h1, h2, h3⟩ := mkDoc_some hd
        exact ⟨h3, _, hm, rfl, h2.symm, h1 ▸ List.mem_of_head? hh⟩
    · exact ⟨h.docs, h.setTask (t := .done) trivial i⟩
  · split
    · exact h
    · exact ⟨fun p hp => h.docs p (mem_remove hp), h.setTask (t := .clearing _) trivial i⟩
  · exact ⟨h.docs, h.setTask (t := .allowing _) h.docs i⟩
  · rename_i uri d ht
    have hm : TaskSent ms (.ready uri d) := h.tasks _ (List.mem_of_getElem? ht)
    exact ⟨h.docs, h.setTask (t := .published uri d) hm i⟩
  · rename_i uri d ht
    split
    · exact h
    · refine ⟨fun p hp => ?_, h.setTask (t := .done) trivial i⟩
      rcases List.mem_cons.mp hp with rfl | hp
      · have hm : TaskSent ms (.published uri d) := h.tasks _ (List.mem_of_getElem? ht)
        exact hm
      · exact h.docs p (mem_remove hp)
  · exact ⟨h.docs, h.setTask (t := .done) trivial i⟩
  · exact ⟨h.docs, h.setTask (t := .done) trivial i⟩
  · rename_i uri d rest ht
    have hm : ∀ p ∈ (uri, d) :: rest, Sent ms p.1 p.2 := h.tasks _ (List.mem_of_getElem? ht)
    exact ⟨h.docs, h.setTask (t := .allowing rest) (fun p hp => hm p (List.mem_cons_of_mem _ hp)) i⟩

theorem exec_sent (l : List Label) : AllSent (messages l) (exec l) := by
  induction l using snoc_induction with
  | h0 => exact ⟨fun p hp => (nomatch hp), fun t ht => (nomatch ht)⟩
  | h1 l a ih =>
    rw [exec_snoc, messages_append]
    have hmono : AllSent (messages l ++ messages [a]) (exec l) :=
      ⟨fun p hp => (ih.docs p hp).mono fun m hm => List.mem_append_left _ hm,
       fun t ht => (ih.tasks t ht).mono fun m hm => List.mem_append_left _ hm⟩
    cases a with
    | run i => exact hmono.step i
    | receive m =>
      refine ⟨hmono.docs, fun t ht => ?_⟩
      rcases List.mem_append.mp ht with ht | ht
      · exact hmono.tasks t ht
      · rw [List.mem_singleton.mp ht]
        exact List.mem_append_right _ (by simp [messages])

/-! ## Handlers that do not overlap -/

/-- No text makes the parser panic, and no message has several changes. -/
def Tame (ms : List Notice) : Prop :=
  ∀ m ∈ ms, (∀ text ∈ texts m, parseTree text ≠ none) ∧ (texts m).length ≤ 1

/-- The document of a version and text. -/
def docOfText (p : Int × List Char) : Option Doc := mkDoc p.1 p.2

theorem mkDoc_ne {v : Int} {text : List Char} (h : parseTree text ≠ none) : ∃ d, mkDoc v text = some d := by
  unfold mkDoc
  split
  · exact ⟨_, rfl⟩
  · exact ⟨_, rfl⟩
  · rename_i h'; exact absurd h' h

/-- What is known about one document: `want` is what the messages say, `have_` what is stored; `shown` and
`shows` the same for the diagnostics, which count only if `q`. -/
inductive Pending (q : Prop) (uri : List Char) (want : Option (Int × List Char)) (have_ : Option Doc) (show_ shows : Option Shown) :
    Task → Prop
  | start {m now} : about m = some uri → (∀ text ∈ texts m, parseTree text ≠ none) → (texts m).length ≤ 1 →
      have_ = now.bind docOfText → want = after uri now m → (q → show_ = shownAfter uri shows m) →
      Pending q uri want have_ show_ shows (.start m)
  | ready {p d} : want = some p → docOfText p = some d → (q → show_ = some (.diagnostics d.version d.content true)) →
      Pending q uri want have_ show_ shows (.ready uri d)
  | published {p d} : want = some p → docOfText p = some d → (q → show_ = shows) →
      Pending q uri want have_ show_ shows (.published uri d)
  | clearing : want = none → have_ = none → (q → show_ = some .cleared) → Pending q uri want have_ show_ shows (.clearing uri)

/-- What is known about one document in a state. -/
inductive Known (q : Prop) (uri : List Char) (want : Option (Int × List Char)) (show_ : Option Shown) (s : Server) : Prop
  | idle : Idle s uri → get uri s.docs = want.bind docOfText → (q → show_ = get uri s.shown) → Known q uri want show_ s
  | busy {i : Nat} {t : Task} : s.tasks[i]? = some t → working t = some uri →
      (∀ (j : Nat) u, j ≠ i → s.tasks[j]? = some u → working u ≠ some uri) →
      Pending q uri want (get uri s.docs) show_ (get uri s.shown) t → Known q uri want show_ s

theorem idle_set {s : Server} {uri : List Char} {i : Nat} {t : Task} (h : Idle s uri) (ht : working t ≠ some uri)
    (docs shown) : Idle ⟨docs, s.tasks.set i t, shown⟩ uri := by
  intro u hu
  rcases mem_set hu with rfl | hu
  · exact ht
  · exact h u hu

/-- A step of a handler of another document, or of none, that leaves this document alone. -/
theorem Known.other {q : Prop} {uri : List Char} {want : Option (Int × List Char)} {show_ : Option Shown} {s : Server}
    (h : Known q uri want show_ s) {i : Nat} {t t' : Task} (hi : s.tasks[i]? = some t) (ht : working t ≠ some uri)
    (ht' : working t' ≠ some uri) {docs shown} (hd : get uri docs = get uri s.docs)
    (hs : q → get uri shown = get uri s.shown) : Known q uri want show_ ⟨docs, s.tasks.set i t', shown⟩ := by
  cases h with
  | idle h1 h2 h3 => exact .idle (idle_set h1 ht' _ _) (hd.trans h2) (fun hq => (h3 hq).trans (hs hq).symm)
  | @busy j u h1 h2 h3 h4 =>
    have hne : i ≠ j := by
      rintro rfl
      rw [hi] at h1
      cases h1
      exact ht h2
    refine .busy (i := j) (t := u) ?_ h2 ?_ ?_
    · simp only [List.getElem?_set_ne hne, h1]
    · intro k w hk hw
      by_cases hki : k = i
      · subst hki
        rw [List.getElem?_set] at hw
        simp only [if_true] at hw
        split at hw
        · cases hw; exact ht'
        · cases hw
      · simp only [List.getElem?_set_ne (Ne.symm hki)] at hw
        exact h3 k w hk hw
    · simp only [hd]
      cases h4 with
      | start g1 g2 g3 g4 g5 g6 => exact .start g1 g2 g3 g4 g5 fun hq => by rw [hs hq]; exact g6 hq
      | ready g1 g2 g3 => exact .ready g1 g2 g3
      | published g1 g2 g3 => exact .published g1 g2 fun hq => (g3 hq).trans (hs hq).symm
      | clearing g1 g2 g3 => exact .clearing g1 g2 g3

/-- The handler of this document is done. -/
theorem busy_done {q : Prop} {uri : List Char} {want : Option (Int × List Char)} {show_ : Option Shown} {s : Server} {i : Nat} {t t' : Task}
    (hi : s.tasks[i]? = some t) (ho : ∀ (j : Nat) u, j ≠ i → s.tasks[j]? = some u → working u ≠ some uri)
    (ht' : working t' ≠ some uri) {docs shown} (hd : get uri docs = want.bind docOfText) (hs : q → show_ = get uri shown) :
    Known q uri want show_ ⟨docs, s.tasks.set i t', shown⟩ := by
  refine .idle ?_ hd hs
  intro u hu
  obtain ⟨j, hj⟩ := List.mem_iff_getElem?.mp hu
  by_cases hji : j = i
  · subst hji
    rw [List.getElem?_set] at hj
    simp only [if_true] at hj
    split at hj
    · cases hj; exact ht'
    · cases hj
  · simp only [List.getElem?_set_ne (Ne.symm hji)] at hj
    exact ho j u hji hj

/-- The handler of this document goes on. -/
theorem busy_next {q : Prop} {uri : List Char} {want : Option (Int × List Char)} {show_ : Option Shown} {s : Server} {i : Nat} {t t' : Task}
    (hi : s.tasks[i]? = some t) (ho : ∀ (j : Nat) u, j ≠ i → s.tasks[j]? = some u → working u ≠ some uri)
    (ht' : working t' = some uri) {docs shown} (hp : Pending q uri want (get uri docs) show_ (get uri shown) t') :
    Known q uri want show_ ⟨docs, s.tasks.set i t', shown⟩ := by
  have hlt : i < s.tasks.length := by
    rcases Nat.lt_or_ge i s.tasks.length with h | h
    · exact h
    · rw [List.getElem?_eq_none h] at hi; cases hi
  refine .busy (i := i) (t := t') ?_ ht' ?_ hp
  · simp [hlt]
  · intro j u hj hu
    simp only [List.getElem?_set_ne (Ne.symm hj)] at hu
    exact ho j u hj hu

/-- No handler of `styx.allowExtension` runs or ran. -/
def NoAllow (s : Server) : Prop := ∀ t ∈ s.tasks, t ≠ .start .allow ∧ ∀ r, t ≠ .allowing r

theorem Known.step {q : Prop} {uri : List Char} {want : Option (Int × List Char)} {show_ : Option Shown} {s : Server}
    (h : Known q uri want show_ s) (hna : q → NoAllow s) (i : Nat) : Known q uri want show_ (step s i) := by
  by_cases hb : ∃ t, s.tasks[i]? = some t ∧ working t = some uri
  · obtain ⟨t, hi, hw⟩ := hb
    cases h with
    | idle h1 h2 h3 => exact absurd hw (h1 t (List.mem_of_getElem? hi))
    | @busy j u h1 h2 h3 h4 =>
      have hji : j = i := by
        rcases Nat.decEq i j with hne | heq
        · exact absurd hw (h3 i t hne hi)
        · exact heq.symm
      subst hji
      rw [hi] at h1
      cases h1
      cases h4 with
      | @start m now g1 g2 g3 g4 g5 g7 =>
        cases m with
        | opened u v text =>
          simp only [about, Option.some.injEq] at g1
          subst g1
          obtain ⟨d, hd⟩ := mkDoc_ne (v := v) (g2 text (by simp [texts]))
          obtain ⟨e1, e2, _⟩ := mkDoc_some hd
          unfold Store.step
          simp only [hi, hd]
          refine busy_next hi h3 rfl (.ready (p := (v, text)) ?_ hd ?_)
          · simpa [after] using g5
          · intro hq; simpa [shownAfter, e1, e2] using g7 hq
        | changed u v changes =>
          simp only [about, Option.some.injEq] at g1
          subst g1
          match changes, g2, g3, g5, g7 with
          | [], _, _, g5, g7 =>
            unfold Store.step
            simp only [hi, List.head?_nil]
            refine busy_done hi h3 (by simp [working]) ?_ ?_
            · rw [g4, g5]; simp [after]
            · intro hq; rw [g7 hq]; simp [shownAfter]
          | [text], g2, _, g5, g7 =>
            obtain ⟨d, hd⟩ := mkDoc_ne (v := v) (g2 text (by simp [texts]))
            obtain ⟨e1, e2, _⟩ := mkDoc_some hd
            unfold Store.step
            simp only [hi, List.head?_cons, hd]
            refine busy_next hi h3 rfl (.ready (p := (v, text)) ?_ hd ?_)
            · simpa [after] using g5
            · intro hq; simpa [shownAfter, e1, e2] using g7 hq
          | _ :: _ :: _, _, g3, _, _ => simp [texts] at g3
        | closed u =>
          simp only [about, Option.some.injEq] at g1
          subst g1
          unfold Store.step
          simp only [hi]
          split
          · exact .busy hi hw h3 (.start rfl g2 g3 g4 g5 g7)
          refine busy_next hi h3 rfl (.clearing ?_ get_remove_self ?_)
          · simpa [after] using g5
          · intro hq; simpa [shownAfter] using g7 hq
        | allow => simp [about] at g1
      | @ready p d g1 g2 g3 =>
        unfold Store.step
        simp only [hi]
        refine busy_next hi h3 rfl (.published g1 g2 ?_)
        intro hq
        rw [g3 hq, get_cons_self]
      | @published p d g1 g2 g3 =>
        unfold Store.step
        simp only [hi]
        split
        · exact .busy hi hw h3 (.published g1 g2 g3)
        refine busy_done hi h3 (by simp [working]) ?_ g3
        rw [get_insert_self, g1]
        exact g2.symm
      | clearing g1 g2 g3 =>
        unfold Store.step
        simp only [hi]
        refine busy_done hi h3 (by simp [working]) ?_ ?_
        · rw [g2, g1]; rfl
        · intro hq; rw [g3 hq, get_cons_self]
  · unfold Store.step
    split
    · exact h
    · exact h
    · rename_i u v text ht
      have hw : u ≠ uri := fun he => hb ⟨_, ht, by simp [working, about, he]⟩
      refine h.other ht (by simpa [working, about] using hw) ?_ rfl (fun _ => rfl)
      cases mkDoc v text <;> simp [working, hw]
    · rename_i u v changes ht
      have hw : u ≠ uri := fun he => hb ⟨_, ht, by simp [working, about, he]⟩
      split
      · rename_i text _
        refine h.other ht (by simpa [working, about] using hw) ?_ rfl (fun _ => rfl)
        cases mkDoc v text <;> simp [working, hw]
      · exact h.other ht (by simpa [working, about] using hw) (by simp [working]) rfl (fun _ => rfl)
    · rename_i u ht
      have hw : u ≠ uri := fun he => hb ⟨_, ht, by simp [working, about, he]⟩
      split
      · exact h
      · exact h.other ht (by simpa [working, about] using hw) (by simpa [working] using hw) (get_remove_ne hw) (fun _ => rfl)
    · rename_i ht
      exact h.other ht (by simp [working, about]) (by simp [working]) rfl (fun _ => rfl)
    · rename_i u d ht
      have hw : u ≠ uri := fun he => hb ⟨_, ht, by simp [working, he]⟩
      exact h.other ht (by simpa [working] using hw) (by simpa [working] using hw) rfl (fun _ => get_cons_ne hw)
    · rename_i u d ht
      have hw : u ≠ uri := fun he => hb ⟨_, ht, by simp [working, he]⟩
      split
      · exact h
      · exact h.other ht (by simpa [working] using hw) (by simp [working]) (get_insert_ne hw) (fun _ => rfl)
    · rename_i u ht
      have hw : u ≠ uri := fun he => hb ⟨_, ht, by simp [working, he]⟩
      exact h.other ht (by simpa [working] using hw) (by simp [working]) rfl (fun _ => get_cons_ne hw)
    · rename_i ht
      exact h.other ht (by simp [working]) (by simp [working]) rfl (fun _ => rfl)
    · rename_i ht
      exact h.other ht (by simp [working]) (by simp [working]) rfl
        (fun hq => absurd rfl ((hna hq _ (List.mem_of_getElem? ht)).2 _))

theorem NoAllow.set {s : Server} (h : NoAllow s) {t : Task} (h1 : t ≠ .start .allow) (h2 : ∀ r, t ≠ .allowing r) (i : Nat)
    (docs shown) : NoAllow ⟨docs, s.tasks.set i t, shown⟩ := by
  intro u hu
  rcases mem_set hu with rfl | hu
  · exact ⟨h1, h2⟩
  · exact h u hu

theorem NoAllow.step {s : Server} (h : NoAllow s) (i : Nat) : NoAllow (step s i) := by
  unfold Store.step
  split
  · exact h
  · exact h
  · rename_i v text _
    cases mkDoc v text <;> exact h.set (by simp) (by simp) i _ _
  · rename_i v _ _
    split
    · rename_i text _
      cases mkDoc v text <;> exact h.set (by simp) (by simp) i _ _
    · exact h.set (by simp) (by simp) i _ _
  · split
    · exact h
    · exact h.set (by simp) (by simp) i _ _
  · rename_i ht
    exact absurd rfl (h _ (List.mem_of_getElem? ht)).1
  · exact h.set (by simp) (by simp) i _ _
  · split
    · exact h
    · exact h.set (by simp) (by simp) i _ _
  · exact h.set (by simp) (by simp) i _ _
  · rename_i ht
    exact absurd rfl ((h _ (List.mem_of_getElem? ht)).2 _)
  · rename_i ht
    exact absurd rfl ((h _ (List.mem_of_getElem? ht)).2 _)

theorem exec_noAllow {l : List Label} (h : Notice.allow ∉ messages l) : NoAllow (exec l) := by
  induction l using snoc_induction with
  | h0 => intro t ht; cases ht
  | h1 l a ih =>
    rw [messages_append, List.mem_append] at h
    have ih := ih fun h' => h (.inl h')
    rw [exec_snoc]
    cases a with
    | run i => exact ih.step i
    | receive m =>
      intro t ht
      rcases List.mem_append.mp ht with ht | ht
      · exact ih t ht
      · rw [List.mem_singleton.mp ht]
        refine ⟨?_, by simp⟩
        intro hm
        cases hm
        exact h (.inr (by simp [messages]))

theorem Known.weaken {q q' : Prop} {uri : List Char} {want : Option (Int × List Char)} {show_ : Option Shown} {s : Server}
    (h : Known q uri want show_ s) (hq : q' → q) : Known q' uri want show_ s := by
  cases h with
  | idle h1 h2 h3 => exact .idle h1 h2 fun h => h3 (hq h)
  | busy h1 h2 h3 h4 =>
    refine .busy h1 h2 h3 ?_
    cases h4 with
    | start g1 g2 g3 g4 g5 g6 => exact .start g1 g2 g3 g4 g5 fun h => g6 (hq h)
    | ready g1 g2 g3 => exact .ready g1 g2 fun h => g3 (hq h)
    | published g1 g2 g3 => exact .published g1 g2 fun h => g3 (hq h)
    | clearing g1 g2 g3 => exact .clearing g1 g2 fun h => g3 (hq h)

theorem known_receive {q : Prop} {uri : List Char} {want : Option (Int × List Char)} {show_ : Option Shown} {s : Server} {m : Notice}
    (h : Known q uri want show_ s) (hidle : about m = some uri → Idle s uri)
    (h1 : ∀ text ∈ texts m, parseTree text ≠ none) (h2 : (texts m).length ≤ 1) :
    Known q uri (after uri want m) (shownAfter uri show_ m) { s with tasks := s.tasks ++ [.start m] } := by
  by_cases hm : about m = some uri
  · have hi := hidle hm
    cases h with
    | busy g1 g2 => exact absurd g2 (hi _ (List.mem_of_getElem? g1))
    | idle g1 g2 g3 =>
      refine .busy (i := s.tasks.length) (t := .start m) (by simp) hm ?_ (.start hm h1 h2 g2 rfl fun hq => by rw [g3 hq])
      intro j u hj hu
      have hmem := List.mem_of_getElem? hu
      rcases Nat.lt_or_ge j s.tasks.length with hlt | hge
      · rw [List.getElem?_append_left hlt] at hu
        exact hi u (List.mem_of_getElem? hu)
      · rw [List.getElem?_append_right hge, List.getElem?_eq_none (by simp; omega)] at hu
        cases hu
  · have ha : after uri want m = want := by
      cases m <;> simp_all [about, after]
    have hs : shownAfter uri show_ m = show_ := by
      cases m <;> simp_all [about, shownAfter]
    rw [ha, hs]
    cases h with
    | idle g1 g2 g3 =>
      refine .idle ?_ g2 g3
      intro t ht
      rcases List.mem_append.mp ht with ht | ht
      · exact g1 t ht
      · rw [List.mem_singleton.mp ht]; exact hm
    | @busy i t g1 g2 g3 g4 =>
      refine .busy (i := i) (t := t) ?_ g2 ?_ g4
      · have hlt : i < s.tasks.length := by
          rcases Nat.lt_or_ge i s.tasks.length with h | h
          · exact h
          · rw [List.getElem?_eq_none h] at g1; cases g1
        rw [List.getElem?_append_left hlt]; exact g1
      · intro j u hj hu
        rcases Nat.lt_or_ge j s.tasks.length with hlt | hge
        · rw [List.getElem?_append_left hlt] at hu
          exact g3 j u hj hu
        · rw [List.getElem?_append_right hge] at hu
          have : u = .start m := by
            match hk : j - s.tasks.length, hu with
            | 0, hu => simpa using hu.symm
            | k + 1, hu => simp at hu
          rw [this]
          exact hm

theorem exec_known {l : List Label} (uri : List Char) (hord : Orderly l) (ht : Tame (messages l)) :
    Known (Notice.allow ∉ messages l) uri (latest uri (messages l)) (latestShown uri (messages l)) (exec l) := by
  induction l using snoc_induction with
  | h0 => exact .idle (fun t ht => (nomatch ht)) rfl (fun _ => rfl)
  | h1 l a ih =>
    have hord' : Orderly l := by
      intro before m rest u hl hm
      exact hord before m (rest ++ [a]) u (by rw [hl]; simp) hm
    rw [messages_append] at ht ⊢
    have ih := (ih hord' fun m hm => ht m (List.mem_append_left _ hm)).weaken
      (q' := Notice.allow ∉ messages l ++ messages [a]) fun h h' => h (List.mem_append_left _ h')
    rw [exec_snoc]
    cases a with
    | run i =>
      simp only [messages, List.append_nil] at ih ⊢
      exact ih.step exec_noAllow i
    | receive m =>
      have htm := ht m (List.mem_append_right _ (by simp [messages]))
      simp only [messages, latest, latestShown, List.foldl_append, List.foldl_cons, List.foldl_nil] at ih ⊢
      exact known_receive ih (fun hm => hord l m [] uri rfl hm) htm.1 htm.2

/-! ## Handlers finish -/

theorem finish_allowing : ∀ (rest : List (List Char × Doc)) (s : Server) (i : Nat),
    s.tasks[i]? = some (.allowing rest) → ∃ is : List Nat, (is.foldl step s).tasks = s.tasks.set i .done
  | [], s, i, h => ⟨[i], by simp [step, h]⟩
  | (uri, d) :: rest, s, i, h => by
    have hlt : i < s.tasks.length := by
      rcases Nat.lt_or_ge i s.tasks.length with hl | hl
      · exact hl
      · rw [List.getElem?_eq_none hl] at h; cases h
    have h' : (step s i).tasks = s.tasks.set i (.allowing rest) := by simp [step, h]
    obtain ⟨is, his⟩ := finish_allowing rest (step s i) i (by rw [h']; simp [hlt])
    exact ⟨i :: is, by rw [List.foldl_cons, his, h', List.set_set]⟩

theorem finish_published {s : Server} (hl : locked s = false) {i : Nat} {uri : List Char} {d : Doc}
    (h : s.tasks[i]? = some (.published uri d)) : ∃ is : List Nat, (is.foldl step s).tasks = s.tasks.set i .done :=
  ⟨[i], by simp [step, h, hl]⟩

theorem locked_set {s : Server} (hl : locked s = false) {i : Nat} {t : Task} (ht : ∀ r, t ≠ .allowing r) {docs shown} :
    locked ⟨docs, s.tasks.set i t, shown⟩ = false := by
  rw [locked, List.any_eq_false] at hl ⊢
  intro u hu
  rcases mem_set hu with rfl | hu
  · cases u <;> simp_all
  · exact hl u hu

theorem finish_ready {s : Server} (hl : locked s = false) {i : Nat} {uri : List Char} {d : Doc}
    (h : s.tasks[i]? = some (.ready uri d)) : ∃ is : List Nat, (is.foldl step s).tasks = s.tasks.set i .done := by
  have hlt : i < s.tasks.length := by
    rcases Nat.lt_or_ge i s.tasks.length with hl | hl
    · exact hl
    · rw [List.getElem?_eq_none hl] at h; cases h
  have e : step s i = ⟨s.docs, s.tasks.set i (.published uri d), (uri, .diagnostics d.version d.content true) :: s.shown⟩ := by
    simp [step, h]
  have hl' : locked (step s i) = false := by rw [e]; exact locked_set hl (by simp)
  obtain ⟨is, his⟩ := finish_published (s := step s i) hl' (i := i) (uri := uri) (d := d) (by rw [e]; simp [hlt])
  exact ⟨i :: is, by rw [List.foldl_cons, his, e, List.set_set]⟩

theorem finish {s : Server} (hl : locked s = false) {i : Nat} {t : Task} (h : s.tasks[i]? = some t) :
    ∃ is : List Nat, (is.foldl step s).tasks = s.tasks.set i .done := by
  have hlt : i < s.tasks.length := by
    rcases Nat.lt_or_ge i s.tasks.length with hl | hl
    · exact hl
    · rw [List.getElem?_eq_none hl] at h; cases h
  have hgo : ∀ (uri : List Char) (o : Option Doc),
      step s i = { s with tasks := s.tasks.set i (match o with | some d => .ready uri d | none => .done) } →
      ∃ is : List Nat, (is.foldl step s).tasks = s.tasks.set i .done := by
    intro uri o e
    cases o with
    | none => exact ⟨[i], by rw [List.foldl_cons, List.foldl_nil, e]⟩
    | some d =>
      have hl' : locked (step s i) = false := by rw [e]; exact locked_set hl (by simp)
      obtain ⟨is, his⟩ := finish_ready (s := step s i) hl' (i := i) (uri := uri) (d := d) (by rw [e]; simp [hlt])
      exact ⟨i :: is, by rw [List.foldl_cons, his, e, List.set_set]⟩
  cases t with
  | start m =>
    cases m with
    | opened uri v text => exact hgo uri (mkDoc v text) (by unfold step; simp only [h]; cases mkDoc v text <;> rfl)
    | changed uri v changes =>
      cases hc : changes.head? with
      | none => exact ⟨[i], by simp [step, h, hc]⟩
      | some text => exact hgo uri (mkDoc v text) (by unfold step; simp only [h, hc]; cases mkDoc v text <;> rfl)
    | closed uri =>
      have e : step s i = ⟨remove uri s.docs, s.tasks.set i (.clearing uri), s.shown⟩ := by simp [step, h, hl]
      refine ⟨[i, i], ?_⟩
      rw [List.foldl_cons, List.foldl_cons, List.foldl_nil, e]
      simp [step, hlt]
    | allow =>
      have e : step s i = ⟨s.docs, s.tasks.set i (.allowing s.docs), s.shown⟩ := by simp [step, h]
      obtain ⟨is, his⟩ := finish_allowing s.docs (step s i) i (by rw [e]; simp [hlt])
      exact ⟨i :: is, by rw [List.foldl_cons, his, e, List.set_set]⟩
  | ready uri d => exact finish_ready hl h
  | published uri d => exact finish_published hl h
  | clearing uri => exact ⟨[i], by simp [step, h]⟩
  | allowing rest => exact finish_allowing rest s i h
  | done =>
    refine ⟨[], ?_⟩
    rw [List.foldl_nil]
    refine List.ext_getElem? fun j => ?_
    rw [List.getElem?_set]
    split
    · rename_i hj; subst hj; exact h
    · rfl

/-- The handler has not finished. -/
def undone : Task → Bool
  | .done => false
  | _ => true

theorem count_set : ∀ {l : List Task} {i : Nat} {t : Task}, l[i]? = some t → undone t = true →
    (l.set i .done).countP undone < l.countP undone
  | [], _, _, h, _ => by simp at h
  | a :: l, 0, t, h, ht => by
    simp only [List.getElem?_cons_zero, Option.some.injEq] at h
    subst h
    have hd : undone .done = false := rfl
    simp [ht, hd]
  | a :: l, i + 1, t, h, ht => by
    have := count_set (l := l) (i := i) (by simpa using h) ht
    simp only [List.set_cons_succ, List.countP_cons]
    omega

theorem all_finish : ∀ (n : Nat) (s : Server), s.tasks.countP undone = n →
    ∃ is : List Nat, ∀ t ∈ (is.foldl step s).tasks, t = .done := by
  intro n
  induction n using Nat.strongRecOn with
  | ind n ih =>
    intro s hs
    by_cases h : ∃ t ∈ s.tasks, undone t = true
    · have hf : ∃ (i : Nat) (t : Task), s.tasks[i]? = some t ∧ undone t = true ∧
          ∃ is : List Nat, (is.foldl step s).tasks = s.tasks.set i .done := by
        cases hl : locked s with
        | false =>
          obtain ⟨t, ht, hu⟩ := h
          obtain ⟨i, hi⟩ := List.mem_iff_getElem?.mp ht
          exact ⟨i, t, hi, hu, finish hl hi⟩
        | true =>
          rw [locked, List.any_eq_true] at hl
          obtain ⟨t, ht, hu⟩ := hl
          obtain ⟨i, hi⟩ := List.mem_iff_getElem?.mp ht
          cases t with
          | allowing rest => exact ⟨i, _, hi, rfl, finish_allowing rest s i hi⟩
          | _ => simp at hu
      obtain ⟨i, t, hi, hu, is, his⟩ := hf
      obtain ⟨js, hjs⟩ := ih _ (by rw [← hs, his]; exact count_set hi hu) (is.foldl step s) rfl
      exact ⟨is ++ js, by rw [List.foldl_append]; exact hjs⟩
    · refine ⟨[], fun t ht => ?_⟩
      rw [List.foldl_nil] at ht
      cases hu : undone t with
      | true => exact absurd ⟨t, ht, hu⟩ h
      | false => cases t <;> simp_all [undone]

theorem exec_runs (l : List Label) (is : List Nat) : exec (l ++ is.map .run) = is.foldl step (exec l) := by
  rw [exec, List.foldl_append]
  show (is.map Label.run).foldl act (exec l) = _
  generalize exec l = s
  induction is generalizing s with
  | nil => rfl
  | cons i is ih => simp only [List.map_cons, List.foldl_cons]; exact ih _

end Styx.Lsp.Store
