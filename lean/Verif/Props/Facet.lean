import Verif.Facet.Docs
import Verif.Facet.Ops
import Verif.Props.Tree
import Verif.Props.Events
import Verif.Props.Nesting

/-! # Property theorems C57–C62: the events that `facet_styx` reads

`Verif.Facet.Spec` says when events describe a value, `Verif.Facet.Ops` what the events of one value
are. -/

namespace Styx.Props

open Styx Styx.Spec Styx.Facet

/-! ## C57 -/

theorem spansOK_parse {S : Src} {evs : List Event} (h : parseEvents S.input = some evs ∨ parseExprEvents S.input = some evs)
    (hn : NoError evs) : SpansOK S evs := by
  intro e he hs
  obtain ⟨_, _, t, ht⟩ := C11_spans_partial S.input evs h e he (.inl fun seq hk => (hn e he).1 _ hk)
  rw [← sliceBytes_eq, hs] at ht
  cases ht

theorem drain_steps {S : Src} {st st1 st2 : Core} {es : List FEvent} (h : Steps S st es st1)
    (he : next S st1 = .ok none st2) : ∀ n, es.length < n → drain S n st = some (.ok es) := by
  induction h with
  | nil => intro n hn; cases n with
    | zero => cases hn
    | succ n => rw [drain, he]
  | cons h1 _ ih => intro n hn; cases n with
    | zero => cases hn
    | succ n =>
      rw [drain, h1]
      simp only
      rw [ih he n (by simpa using hn)]

theorem drain_reads {S : Src} {st st1 st2 : Core} {fs : List FKind} (h : Reads S st fs st1)
    (he : next S st1 = .ok none st2) : ∃ es, fkinds es = fs ∧ drain S (fuel st) st = some (.ok es) := by
  obtain ⟨es, s1, h1, h2, h3⟩ := h
  refine ⟨es, h1, drain_steps h2 (h3.trans he) _ ?_⟩
  have := h2.fuel
  unfold fuel at this ⊢
  omega

theorem reads_comments {S : Src} : ∀ (cs r : List Event) (st : Core), Ready st → (∀ e ∈ cs, ∃ t, e.kind = .comment t) →
    st.rest = cs ++ r → Reads S st [] { st with rest := r }
  | [], r, st, h, hc, hr => by
    have : st = { st with rest := r } := by rw [← (show st.rest = r by simpa using hr)]
    rw [← this]
    exact .refl _ _
  | ⟨sp, k⟩ :: cs, r, st, h, hc, hr => by
    obtain ⟨t, ht⟩ := hc _ (List.mem_cons_self ..)
    cases ht
    exact Reads.trans (fs := []) (st1 := { st with rest := cs ++ r })
      (reads_none h hr gives rfl ⟨h.1, h.2⟩)
      (reads_comments cs r { st with rest := cs ++ r } ⟨h.1, h.2⟩ (fun e he => hc e (by simp [he])) rfl)

theorem comments_noDoc {cs r : List EventKind} (hc : IsComments cs) (hd : DocOK (cs ++ r))
    (hr : ∀ post, r ≠ .entryStart :: post) (hr' : ∀ k post, r = k :: post → (∀ t, k ≠ .comment t) ∧ ∀ l, k ≠ .docComment l) :
    ∀ k ∈ cs, ∃ t, k = .comment t := by
  intro k hk
  rcases hc k hk with h | ⟨ls, rfl⟩
  · exact h
  · exfalso
    obtain ⟨a, b, rfl⟩ := List.append_of_mem hk
    obtain ⟨_, cs', post, h1, h2⟩ := hd a ls (b ++ r) (by simp)
    clear hk hd
    induction b generalizing cs' with
    | nil =>
      cases cs' with
      | nil => exact hr _ h1
      | cons c cs' =>
        obtain ⟨g1, g2⟩ := hr' c _ h1
        rcases h2 c (by simp) with ⟨t, rfl⟩ | ⟨t, rfl⟩
        · exact g1 t rfl
        · exact g2 t rfl
    | cons x b ih =>
      cases cs' with
      | nil =>
        simp only [List.cons_append, List.nil_append, List.cons.injEq] at h1
        rcases hc x (by simp) with ⟨t, rfl⟩ | ⟨t, rfl⟩ <;> cases h1.1
      | cons c cs' =>
        simp only [List.cons_append, List.cons.injEq] at h1
        refine ih ?_ cs' h1.2 (fun y hy => h2 y (by simp [hy]))
        intro y hy
        exact hc y (by simp at hy ⊢; grind)

/-- **C57**.  Full statement: for every source the events that `facet_styx` reads describe the tree that
`styx_tree` builds, without the `@schema` entries of the root.  Where there is no tree for a source without
error the statement is false (`C57_false`).  Proved: whenever there is a tree (whatever its
positions), reading the events to the end gives no error and no panic, and they are the events of the root
object with the entries other than `@schema`, in the same order, keys with their tags, texts and doc
comments; or the document is empty and there are no events. -/
theorem C57_tree_partial (S : Src) (es : List Entry) (sp sp' : Option Span)
    (h : parseTree S.input = some (.ok (.mk none (some (.object es sp)) sp'))) :
    ∃ fs, facetEvents S = some (.ok fs) ∧
      (Describes (fkinds fs) (.mk none (some (.object ((eraseEntries es).filter fun e => !isSchema e) none)) none) ∨
        fs = [] ∧ es = []) := by
  obtain ⟨evs, hp, hr⟩ := parseEvents_run S.input
  have hn := C20_parse S.input evs hp _ h
  have hspan := spansOK_parse (S := S) (.inl hp) hn
  have hnest : nest [] evs = some [] := by
    rcases C12_nested_partial S.input evs hp with h1 | ⟨h1, _⟩
    · exact h1
    · have := (C21_unclosed_partial evs _ h1 (fun e he => (hn e he).1)).1 ⟨.object, by simp, by simp⟩
      rw [parseTree_ok hp hn, this] at h
      cases h
  have hdocs := (run_docs hr trivial hn hnest).1
  have hf : facetEvents S = drain S (fuel (newCore evs)) (newCore evs) := by rw [facetEvents, hp]
  rw [hf]
  rcases C19_parse S.input evs hp hn with ⟨cs, ks, es', hc, he, hk, ht⟩ | ⟨cs, hc, hk, ht⟩ | ⟨_, ht⟩
  · rw [h] at ht
    cases ht
    have hk' : kinds evs = .documentStart :: (cs ++ (.objectStart :: (ks ++ [.objectEnd, .documentEnd]))) := by
      rw [hk]; simp
    rw [hk'] at hdocs
    obtain ⟨sp1, e1, rfl, k1⟩ := kinds_uncons hk'
    obtain ⟨e2, e3, rfl, k2, k3⟩ := kinds_split k1
    obtain ⟨sp4, e4, rfl, k4⟩ := kinds_uncons k3
    obtain ⟨e5, e6, rfl, k5, k6⟩ := kinds_split k4
    obtain ⟨sp7, e7, rfl, k7⟩ := kinds_uncons k6
    obtain ⟨sp8, e8, rfl, k8⟩ := kinds_uncons k7
    rw [kinds_empty k8] at hspan ⊢
    have hcs := comments_noDoc hc hdocs.tail (by simp) (by intro k post e; cases e; simp)
    have r1 := reads_none (S := S)
      (st := newCore (⟨sp1, .documentStart⟩ :: (e2 ++ ⟨sp4, .objectStart⟩ :: (e5 ++ [⟨sp7, .objectEnd⟩, ⟨sp8, .documentEnd⟩]))))
      (st' := newCore (e2 ++ ⟨sp4, .objectStart⟩ :: (e5 ++ [⟨sp7, .objectEnd⟩, ⟨sp8, .documentEnd⟩])))
      ⟨rfl, rfl⟩ rfl gives rfl ⟨rfl, rfl⟩
    have r2 := reads_comments (S := S) e2 (⟨sp4, .objectStart⟩ :: (e5 ++ [⟨sp7, .objectEnd⟩, ⟨sp8, .documentEnd⟩]))
      (newCore (e2 ++ ⟨sp4, .objectStart⟩ :: (e5 ++ [⟨sp7, .objectEnd⟩, ⟨sp8, .documentEnd⟩]))) ⟨rfl, rfl⟩
      (by
        intro e he
        exact hcs e.kind (by rw [← k2]; exact List.mem_map.2 ⟨e, he, rfl⟩)) rfl
    have r3 := reads_some (S := S)
      (st := newCore (⟨sp4, .objectStart⟩ :: (e5 ++ [⟨sp7, .objectEnd⟩, ⟨sp8, .documentEnd⟩]))) ⟨rfl, rfl⟩ rfl
      (gives) (by simp only [convert]; rfl)
    rw [event_kind] at r3
    have hd5 : DocOK (kinds (e5 ++ [⟨sp7, .objectEnd⟩, ⟨sp8, .documentEnd⟩])) := by
      have := hdocs.tail.right.tail
      rw [kinds_append, k5]
      exact this
    obtain ⟨fs, sp9, g1, g2⟩ := read_entries S he e5 sp7 [⟨sp8, .documentEnd⟩]
      { rest := e5 ++ [⟨sp7, .objectEnd⟩, ⟨sp8, .documentEnd⟩], span := some sp4, depth := 1 } k5
      (fun e he => hspan e (by simp [he])) rfl ⟨⟨rfl, rfl⟩, rfl, fun _ => Nat.le_refl _, hd5⟩ rfl (fun h => absurd rfl h) rfl
      (fun _ _ => rfl)
    have r4 := reads_some (S := S)
      (st := { rest := [⟨sp7, .objectEnd⟩, ⟨sp8, .documentEnd⟩], span := sp9, depth := 1 }) ⟨rfl, rfl⟩ rfl
      (gives) (by simp only [convert]; rfl)
    rw [event_kind] at r4
    obtain ⟨out, o1, o2⟩ := drain_reads (S := S) (((r1.trans r2).trans r3).trans (g2.trans r4)) rfl
    refine ⟨out, o2, .inl ?_⟩
    rw [o1]
    have g1' : DescribesEntries fs ((eraseEntries es).filter fun e => !isSchema e) := by simpa using g1
    exact Describes.object g1'
  · rw [h] at ht
    cases ht
    have hk' : kinds evs = .documentStart :: (cs ++ [.documentEnd]) := by rw [hk]; simp
    rw [hk'] at hdocs
    obtain ⟨sp1, e1, rfl, k1⟩ := kinds_uncons hk'
    obtain ⟨e2, e3, rfl, k2, k3⟩ := kinds_split k1
    obtain ⟨sp4, e4, rfl, k4⟩ := kinds_uncons k3
    rw [kinds_empty k4]
    have hcs := comments_noDoc hc hdocs.tail (by simp) (by intro k post e; cases e; simp)
    have r1 := reads_none (S := S)
      (st := newCore (⟨sp1, .documentStart⟩ :: (e2 ++ [⟨sp4, .documentEnd⟩])))
      (st' := newCore (e2 ++ [⟨sp4, .documentEnd⟩]))
      ⟨rfl, rfl⟩ rfl gives rfl ⟨rfl, rfl⟩
    have r2 := reads_comments (S := S) e2 [⟨sp4, .documentEnd⟩] (newCore (e2 ++ [⟨sp4, .documentEnd⟩])) ⟨rfl, rfl⟩
      (by
        intro e he
        exact hcs e.kind (by rw [← k2]; exact List.mem_map.2 ⟨e, he, rfl⟩)) rfl
    obtain ⟨out, o1, o2⟩ := drain_reads (S := S) (r1.trans r2) rfl
    exact ⟨out, o2, .inr ⟨fkinds_nil o1, rfl⟩⟩
  · rw [h] at ht
    cases ht

/-- A document with a schema declaration, doc comments, tags, attributes and nested values, and what is
read. -/
example : ∃ es sp sp', parseTree (chars! "@schema {id x}\n/// the port\nport 80\nhost @tag{a.b (1 @)} ") =
    some (.ok (.mk none (some (.object es sp)) sp')) := ⟨_, _, _, by rfl⟩

example : (facetEvents ⟨chars! "@schema {id x}\n/// the port\nport 80\nhost @tag{a.b (1 @)} ", fun _ => false⟩).map
      (fun r => match r with | .ok fs => fkinds fs | .error _ => []) =
    some [.structStart, .key none (some (chars! "port")) [chars! "the port"], .scalar (.str (chars! "80")),
      .key none (some (chars! "host")) [], .variantTag (some (chars! "tag")), .structStart,
      .key none (some (chars! "a.b")) [], .seqStart, .scalar (.str (chars! "1")), .scalar .unit, .seqEnd,
      .structEnd, .structEnd] := by
  decide +kernel

mutual
theorem one_count : ∀ {fs : List FKind}, OneValue fs → fs.count .structStart = fs.count .structEnd
  | _, .scalar v => by simp
  | _, .tag n h => by simp [one_count h]
  | _, .sequence h => by simp [values_count h]
  | _, .struct h => by simp [keyValues_count h]
theorem values_count : ∀ {fs : List FKind}, Values fs → fs.count .structStart = fs.count .structEnd
  | _, .nil => rfl
  | _, .cons h h' => by simp [one_count h, values_count h']
theorem keyValues_count : ∀ {fs : List FKind}, KeyValues fs → fs.count .structStart = fs.count .structEnd
  | _, .nil => rfl
  | _, .cons t p doc h h' => by simp [one_count h, keyValues_count h']
end

/-- The full statement of C57 is false: a source without any error event whose events are the events of no
value at all; there is no tree for it. -/
theorem C57_false : ∃ S fs evs, parseEvents S.input = some evs ∧ NoError evs ∧ facetEvents S = some (.ok fs) ∧
    ¬ OneValue (fkinds fs) ∧ parseTree S.input = some (.error .unclosedStructure) := by
  refine ⟨⟨chars! "a 1\n{b 2}", fun _ => false⟩, _, _, rfl, by decide +kernel, rfl, ?_, rfl⟩
  intro h
  have := one_count h
  revert this
  decide +kernel

/-- The events of a unit depend on where it stands: after a key `@` is a variant tag without name and a unit,
inside the payload of a tag it is a unit only. -/
theorem C57_unit : (facetEvents ⟨chars! "a @", fun _ => false⟩).map
      (fun r => match r with | .ok fs => fkinds fs | .error _ => []) =
      some [.structStart, .key none (some ['a']) [], .variantTag none, .scalar .unit, .structEnd] ∧
    (facetEvents ⟨chars! "t @t{a @}", fun _ => false⟩).map
      (fun r => match r with | .ok fs => fkinds fs | .error _ => []) =
      some [.structStart, .key none (some ['t']) [], .variantTag (some ['t']), .structStart,
        .key none (some ['a']) [], .scalar .unit, .structEnd, .structEnd] := by
  constructor <;> decide +kernel

/-! ## C58 -/

/-- The state before the first call. -/
theorem inv_start {S : Src} {pre post : List Event} (root : Bool)
    (h : parseEvents S.input = some (pre ++ post) ∨ parseExprEvents S.input = some (pre ++ post))
    (hn : NoError pre) (hp : ErrOrEnd post) : Inv S { rest := pre ++ post, atRoot := root } pre post := by
  have hnest : ∃ out, nest [] pre = some out := by
    have : ∃ out, nest [] (pre ++ post) = some out := by
      rcases h with h | h
      · rcases C12_nested_partial S.input _ h with h1 | ⟨h1, _⟩ <;> exact ⟨_, h1⟩
      · obtain ⟨evs', h', hr⟩ := parseExprEvents_run S.input
        rw [h] at h'
        cases h'
        rcases run_nested hr with h1 | ⟨h1, _⟩ <;> exact ⟨_, h1⟩
    obtain ⟨out, ho⟩ := this
    rw [nest_append] at ho
    cases h1 : nest [] pre with
    | none => rw [h1] at ho; cases ho
    | some o => exact ⟨o, rfl⟩
  obtain ⟨out, ho⟩ := hnest
  refine ⟨rfl, rfl, hn, ?_, ⟨[], out, ho, by simp [levels]⟩, hp⟩
  intro e he hs
  obtain ⟨_, _, t, ht⟩ := C11_spans_partial S.input _ h e (by simp [he]) (.inl fun seq hk => (hn e he).1 _ hk)
  rw [← sliceBytes_eq, hs] at ht
  cases ht

/-- **C58**: for every source, reading the events to the end gives the first error event of the parser as the
error, with its position — in documents … -/
theorem C58_first_error (S : Src) (pre post : List Event) (k : ParseErrorKind) (sp : Span)
    (h : parseEvents S.input = some (pre ++ ⟨sp, .error k⟩ :: post)) (hn : NoError pre) :
    facetEvents S = some (.error (k, sp)) := by
  rw [facetEvents, h]
  rcases drain_inv (S := S) _ pre _ (inv_start true (.inl h) hn (.inr ⟨sp, k, post, rfl⟩)) (Nat.le_refl _) with
    ⟨h1, _⟩ | ⟨k', sp', h1, post', h2⟩
  · cases h1
  · cases h2
    exact h1

/-- … and, if there is none, gives events and neither an error nor a panic. -/
theorem C58_no_error (S : Src) (evs : List Event) (h : parseEvents S.input = some evs) (hn : NoError evs) :
    ∃ fs, facetEvents S = some (.ok fs) := by
  rw [facetEvents, h]
  have := inv_start (S := S) (pre := evs) (post := []) true (.inl (by simpa using h)) hn (.inl rfl)
  simp only [List.append_nil] at this
  rcases drain_inv (S := S) _ evs _ this (Nat.le_refl _) with ⟨_, h1⟩ | ⟨k', sp', h1, post', h2⟩
  · exact h1
  · cases h2

/-- The same for the parser of single values. -/
theorem C58_expr (S : Src) (pre post : List Event) (h : parseExprEvents S.input = some (pre ++ post))
    (hn : NoError pre) (hp : ErrOrEnd post) :
    (post = [] ∧ ∃ fs, drain S (fuel (newExprCore (pre ++ post))) (newExprCore (pre ++ post)) = some (.ok fs)) ∨
    ∃ k sp, drain S (fuel (newExprCore (pre ++ post))) (newExprCore (pre ++ post)) = some (.error (k, sp)) ∧
      IsErr post k sp :=
  drain_inv (S := S) _ pre _ (inv_start false (.inr h) hn hp) (Nat.le_refl _)

example : ∃ pre post, parseEvents (chars! "a 1\n@schema {b 1, b 2}") =
    some (pre ++ ⟨⟨18, 19⟩, .error (.duplicateKey ⟨13, 14⟩)⟩ :: post) ∧ NoError pre :=
  ⟨((parseEvents (chars! "a 1\n@schema {b 1, b 2}")).getD []).take 9, _, rfl, by decide +kernel⟩

/-- After an error inside a skipped schema declaration the parser is not usable: reading on panics. -/
theorem C58_after_error : ∃ S evs st k sp, parseEvents S.input = some evs ∧
    Steps S (newCore evs) [⟨.structStart, 0, 0⟩] st ∧ (∃ st', next S st = .err k sp st' ∧
      ∃ es st'', Steps S st' es st'' ∧ next S st'' = .panic) :=
  ⟨⟨chars! "@schema {b 1, b 2}", fun _ => false⟩, _, _, _, _, rfl, .cons rfl (.nil _), _, rfl, _, _,
    .cons rfl (.cons rfl (.cons rfl (.cons rfl (.cons rfl (.nil _))))), rfl⟩

/-! ## C59 -/

/-- **C59**: in every state, what `peek` shows is what `next` would give, and after the peek `next` behaves
as if there had been none: same event, same state after it. -/
theorem C59_peek (S : Src) (st st' : Core) (r : Option FEvent) (h : peek S st = .ok r st') :
    (∃ st2, next S st = .ok r st2) ∧ next S st' = next S st := peek_ok h

/-- **C59**: when the next call fails, `peek` fails in the same way. -/
theorem C59_peek_error (S : Src) (st : Core) (h : ∀ o st', next S st ≠ .ok o st') : peek S st = next S st := peek_err h

/-- Peeking twice shows the same. -/
theorem C59_twice (S : Src) (st st' : Core) (r : Option FEvent) (h : peek S st = .ok r st') :
    ∃ st2, peek S st' = .ok r st2 := by
  obtain ⟨⟨st2, h1⟩, h2⟩ := peek_ok h
  rw [h1] at h2
  cases hp : peek S st' with
  | ok r' st3 =>
    obtain ⟨⟨st4, h3⟩, _⟩ := peek_ok hp
    rw [h2] at h3
    cases h3
    exact ⟨_, rfl⟩
  | _ =>
    have := peek_err (S := S) (st := st')
    unfold peek at hp
    split at hp
    · cases hp
    · rw [h2] at hp
      cases r <;> cases hp

example : ∃ evs r st', parseEvents (chars! "a @") = some evs ∧
    peek ⟨chars! "a @", fun _ => false⟩ (newCore evs) = .ok r st' ∧ r = some ⟨.structStart, 0, 0⟩ :=
  ⟨_, _, _, rfl, rfl, rfl⟩

/-! ## C60 -/

/-- **C60**: in every state, if the next events are the events of one value, skipping a value consumes exactly
these: it ends in the state in which they have been read, whatever follows. -/
theorem C60_skip (S : Src) (st st' : Core) (es : List FEvent) (h : OneValue (fkinds es)) (hs : Steps S st es st') :
    skipValue S st = .ok () st' := skipValue_one h hs

/-- The events that describe a value of a tree (C57) are the events of one value. -/
theorem C60_describes (fs : List FKind) (v : Value) (h : Describes fs v) : OneValue fs := h.one

/-- **C60**: skipping a value terminates in every state (the bound in its model is never reached). -/
theorem C60_terminates (S : Src) (st : Core) : skipValue S st ≠ .stuck := skipLoop_not_stuck S _ _ _ (Nat.le_refl _)

example : ∃ evs es st1 st2, parseEvents (chars! "a @t{b (1 {c 2})} d 3") = some evs ∧
    Steps ⟨chars! "a @t{b (1 {c 2})} d 3", fun _ => false⟩ (newCore evs) [⟨.structStart, 0, 0⟩, ⟨.key none (some ['a']) [], 0, 1⟩] st1 ∧
    Steps ⟨chars! "a @t{b (1 {c 2})} d 3", fun _ => false⟩ st1 es st2 ∧ OneValue (fkinds es) ∧ es.length = 11 :=
  ⟨_, _, _, _, rfl, .cons rfl (.cons rfl (.nil _)),
    .cons rfl (.cons rfl (.cons rfl (.cons rfl (.cons rfl (.cons rfl (.cons rfl (.cons rfl (.cons rfl (.cons rfl (.cons rfl (.nil _))))))))))),
    .tag _ (.struct (.cons _ _ _ (.sequence (.cons (.scalar _) (.cons (.struct (.cons _ _ _ (.scalar _) .nil)) .nil))) .nil)), rfl⟩

/-! ## C61 -/

/-- **C61**, what a hint does.  Full statement: a hint given before a value affects that value and nothing
else.  This is false (`C61_false_later`, `C61_false_peeked`).  Proved: in a state with nothing peeked and no
hint pending, giving a hint and reading an event gives the same outcome as reading without hint, except that
a scalar is read according to the hint; and the hint stays pending until the next scalar. -/
theorem C61_hint_partial (S : Src) (h : Hint) (st : Core) (hn : st.hint = none) (hq : st.queue = []) :
    (∀ t start len st', next S st = .ok (some ⟨.scalar (.str t), start, len⟩) st' →
      next S (setHint h st) = .ok (some ⟨.scalar (parseScalar S (some h) t), start, len⟩) st') ∧
    (∀ e st', (∀ t, e.kind ≠ .scalar (.str t)) → next S st = .ok (some e) st' →
      next S (setHint h st) = .ok (some e) (setHint h st')) ∧
    (∀ st', next S st = .ok none st' → ∃ st2, next S (setHint h st) = .ok none st2) ∧
    (∀ k sp st', next S st = .err k sp st' → ∃ st2, next S (setHint h st) = .err k sp st2) := by
  refine ⟨?_, ?_, ?_, ?_⟩
  · intro t start len st' h1
    rw [next_hint h hn hq, h1]
    rfl
  · intro e st' he h1
    rw [next_hint h hn hq, h1]
    unfold Hinted
    simp only
  · intro st' h1
    exact ⟨_, by rw [next_hint h hn hq, h1]; rfl⟩
  · intro k sp st' h1
    exact ⟨_, by rw [next_hint h hn hq, h1]; rfl⟩

/-- **C61**, what a scalar is read as: a number exactly when the text is one in the range of 64 bits, a boolean
exactly for `true` and `false`, a character exactly when there is one, and otherwise the text itself. -/
theorem C61_scalar (S : Src) (t : List Char) :
    (∀ n, parseScalar S (some .signed) t = .i64 n ↔ Schema.IsInt t n ∧ -(2 ^ 63) ≤ n ∧ n < 2 ^ 63) ∧
    (∀ n, parseScalar S (some .unsigned) t = .u64 n ↔ IsNat t n ∧ n < 2 ^ 64) ∧
    (∀ b, parseScalar S (some .bool) t = .bool b ↔ t = if b then chars! "true" else chars! "false") ∧
    (∀ c, parseScalar S (some .char) t = .char c ↔ t = [c]) ∧
    (∀ h u, parseScalar S h t = .str u → u = t) ∧
    (parseScalar S none t = .str t ∧ parseScalar S (some .string) t = .str t ∧ parseScalar S (some .bytes) t = .str t) ∧
    (parseScalar S (some .signed) t = .str t ∨ ∃ n, parseScalar S (some .signed) t = .i64 n) ∧
    (parseScalar S (some .unsigned) t = .str t ∨ ∃ n, parseScalar S (some .unsigned) t = .u64 n) ∧
    (parseScalar S (some .bool) t = .str t ∨ ∃ b, parseScalar S (some .bool) t = .bool b) ∧
    (parseScalar S (some .char) t = .str t ∨ ∃ c, parseScalar S (some .char) t = .char c) := by
  have hi : ∀ n, Schema.parseI64 t = some n ↔ Schema.IsInt t n ∧ -(2 ^ 63) ≤ n ∧ n < 2 ^ 63 := by
    intro n
    rw [Schema.parseI64, Schema.parseInt_iff]
    constructor
    · rintro ⟨h1, h2, h3⟩; exact ⟨h1, h2, by omega⟩
    · rintro ⟨h1, h2, h3⟩; exact ⟨h1, h2, by omega⟩
  refine ⟨?_, ?_, ?_, ?_, ?_, ⟨rfl, rfl, rfl⟩, ?_, ?_, ?_, ?_⟩
  · intro n
    rw [← hi, parseScalar]
    cases Schema.parseI64 t <;> simp
  · intro n
    rw [← parseU64_iff, parseScalar]
    cases parseU64 t <;> simp
  · intro b
    rw [parseScalar]
    split
    · rename_i h; subst h; cases b <;> simp
    · split
      · rename_i h; subst h; cases b <;> simp
      · cases b <;> simp_all
  · intro c
    unfold parseScalar
    simp only
    split <;> simp_all
  · intro h u
    unfold parseScalar
    split
    all_goals first | (intro e; cases e; rfl) | skip
    all_goals (split <;> first | (intro e; cases e; rfl) | (intro e; cases e; done) | skip)
    split <;> (intro e; cases e; try rfl)
  · rw [parseScalar]; cases Schema.parseI64 t <;> simp
  · rw [parseScalar]; cases parseU64 t <;> simp
  · rw [parseScalar]; split
    · simp
    · split <;> simp
  · unfold parseScalar; simp only; split <;> simp

example : Schema.IsInt (chars! "-12") (-12) ∧ IsNat (chars! "+7") 7 :=
  ⟨⟨chars! "12", by simp, by decide, .inr (.inr ⟨rfl, rfl⟩)⟩, ⟨chars! "7", by simp, by decide, .inr rfl, rfl⟩⟩

/-- The full statement of C61 is false: a hint given before a value that is no scalar is used for a later one … -/
theorem C61_false_later : ∃ S evs st st1 st2 e, parseEvents S.input = some evs ∧
    Steps S (newCore evs) [⟨.structStart, 0, 0⟩, ⟨.key none (some ['a']) [], 0, 1⟩] st ∧
    Steps S (setHint .signed st) [⟨.seqStart, 2, 2⟩, ⟨.seqEnd, 2, 2⟩, ⟨.key none (some ['b']) [], 5, 1⟩] st1 ∧
    next S st1 = .ok (some e) st2 ∧ e.kind = .scalar (.i64 7) :=
  ⟨⟨chars! "a ()\nb 7", fun _ => false⟩, _, _, _, _, _, rfl, .cons rfl (.cons rfl (.nil _)),
    .cons rfl (.cons rfl (.cons rfl (.nil _))), rfl, by decide +kernel⟩

/-- … and a hint given after a peek does not affect the scalar that was peeked. -/
theorem C61_false_peeked : ∃ S evs st st1 st2 e, parseEvents S.input = some evs ∧
    Steps S (newCore evs) [⟨.structStart, 0, 0⟩, ⟨.key none (some ['a']) [], 0, 1⟩] st ∧
    peek S st = .ok (some e) st1 ∧ next S (setHint .signed st1) = .ok (some e) st2 ∧ e.kind = .scalar (.str ['7']) :=
  ⟨⟨chars! "a 7", fun _ => false⟩, _, _, _, _, _, rfl, .cons rfl (.cons rfl (.nil _)), rfl, rfl, by decide +kernel⟩

/-! ## C62 -/

/-- **C62**.  Full statement: `restore` brings back the state of the `save` it belongs to.  For saves inside a
save this is false (`C62_false`).  Proved: after `save` and any calls other than `save` and `restore`, `restore`
gives the state at the save, and so everything read afterwards is what would have been read then. -/
theorem C62_restore_partial (S : Src) (p p' : Parser) (ops : List Op) (h : runOps S ops p.save = some p') :
    p'.restore.core = p.core := by
  have := runOps_saved h
  unfold Parser.restore
  rw [this]
  rfl

/-- The full statement of C62 is false: after two saves the second `restore` does nothing. -/
theorem C62_false : ∃ S p p1 p2 p3, runOps S [.next] (Parser.save p) = some p1 ∧ runOps S [.next] p1.save = some p2 ∧
    p2.restore.core = p1.core ∧ runOps S [.next] p2.restore = some p3 ∧ p3.restore = p3 ∧ p3.core ≠ p.core := by
  refine ⟨⟨chars! "a 7", fun _ => false⟩, ⟨newCore ((parseEvents (chars! "a 7")).getD []), none⟩, _, _, _, rfl, rfl, rfl, rfl, rfl, ?_⟩
  decide +kernel

example : ∃ p', runOps ⟨chars! "a 7", fun _ => false⟩ [.next, .peek, .hint .signed, .skip]
    (Parser.save ⟨newCore ((parseEvents (chars! "a 7")).getD []), none⟩) = some p' := ⟨_, rfl⟩

end Styx.Props
