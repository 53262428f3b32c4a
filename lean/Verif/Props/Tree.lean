import Verif.Tree.BuilderLemmas
import Verif.Tree.ValueLemmas
import Verif.Props.Nesting

/-! # Property theorems C19–C23: the value tree

`Verif.Tree.TreeSpec` (events of a tree, trees of event streams) and `Verif.Tree.PathSpec` (following a
path) are the specifications. -/

namespace Styx.Props

open Styx Styx.Spec

/-! ## C19 -/

/-- Events that are not comments. -/
def dropComments (evs : List Event) : List Event :=
  evs.filter fun e => match e.kind with | .comment _ => false | _ => true

theorem run_dropComments (b : Builder) (evs : List Event) : b.run evs = b.run (dropComments evs) := by
  induction evs generalizing b with
  | nil => rfl
  | cons e es ih =>
    obtain ⟨sp, k⟩ := e
    cases k
    case comment => exact ih b
    all_goals exact ih _

/-- **C19**: feeding the events of a tree — whatever their spans, and with comments anywhere between
them — to the builder gives that tree back, spans aside.  The root may be any object; its entries and
everything below are arbitrary, except that the keys are such that a key event exists for them (a key
event has a tag and a text, but no sequence or object). -/
theorem C19_build (root : List Entry) (hk : EntriesExpressible root) (evs : List Event)
    (h : kinds (dropComments evs) = documentEvents root) :
    ∃ v, buildTree evs = .ok v ∧ erase v = erase (.mk none (some (.object root none)) none) := by
  obtain ⟨sp1, e1, h1, k1⟩ := kinds_uncons (b := .objectStart :: entriesEvents root ++ [.objectEnd, .documentEnd]) h
  obtain ⟨sp2, e2, rfl, k2⟩ := kinds_uncons (b := entriesEvents root ++ [.objectEnd, .documentEnd]) k1
  obtain ⟨e3, e4, rfl, k3, k4⟩ := kinds_split k2
  obtain ⟨sp5, e5, rfl, k5⟩ := kinds_uncons k4
  obtain ⟨sp6, e6, rfl, k6⟩ := kinds_uncons k5
  rw [kinds_empty k6] at h1
  obtain ⟨es', d', g1, g2⟩ := feed_entries (entriesOf_events root hk) e3 k3
    { ({} : Builder) with stack := [.object [] sp2 none] } [] sp2 [] rfl
  refine ⟨.mk none (some (.object es' none)) none, ?_, ?_⟩
  · unfold buildTree
    rw [run_dropComments, h1, Builder.run_cons, Builder.run_cons]
    have : (({} : Builder).event ⟨sp1, .documentStart⟩).event ⟨sp2, .objectStart⟩ =
      { ({} : Builder) with stack := [.object [] sp2 none] } := rfl
    rw [this, Builder.run_append, g2]
    rfl
  · simp only [erase, erasePayload, g1]

/-- A tree with nested objects, sequences, tags, units and doc comments. -/
def sampleRoot : List Entry :=
  [.mk (Value.scalar (chars! "a")) (.mk (some ⟨chars! "t", none⟩) (some (.sequence
      [Value.unit, Value.ofTag (chars! "u"), Value.scalar (chars! "x"),
       .mk none (some (.object [.mk Value.unit (Value.seq []) (some (chars! "deep"))] none)) none] none)) none)
      (some (chars! "doc")),
   .mk (.mk (some ⟨chars! "k", none⟩) none none) Value.unit none]

/-- Its events exist, and are as one would write them down. -/
example : EntriesExpressible sampleRoot ∧ documentEvents sampleRoot =
    [.documentStart, .objectStart,
     .docComment [chars! "doc"], .entryStart, .key none (some (chars! "a")) .bare, .tagStart (chars! "t"),
       .sequenceStart, .unit, .tagStart (chars! "u"), .tagEnd, .scalar (chars! "x") .bare,
       .objectStart, .docComment [chars! "deep"], .entryStart, .key none none .bare, .sequenceStart, .sequenceEnd,
       .entryEnd, .objectEnd,
       .sequenceEnd, .tagEnd, .entryEnd,
     .entryStart, .key (some (chars! "k")) none .bare, .unit, .entryEnd,
     .objectEnd, .documentEnd] :=
  ⟨by simp [EntriesExpressible, sampleRoot, KeyForm, KeysExpressible, AllExpressible, Value.scalar, Value.unit,
    Value.ofTag, Value.seq], rfl⟩

/-- Every value in the grammar has a tree. -/
theorem value_tree {ks : List EventKind} (h : IsValue ks) : ∃ v, ValueOf ks v := by
  refine IsValue.rec (motive_1 := fun ks _ => ∃ v, ValueOf ks v) (motive_2 := fun ks _ => ∃ vs, ValuesOf ks vs)
    (motive_3 := fun ks _ => ∀ d, ∃ es, EntriesOf d ks es) ?_ ?_ ?_ ?_ ?_ ?_ ?_ ?_ ?_ ?_ ?_ ?_ h
  · intro v k; exact ⟨_, .scalar v k⟩
  · exact ⟨_, .unit⟩
  · intro n; exact ⟨_, .bareTag n⟩
  · intro n v _ ⟨w, hw⟩; exact ⟨_, .tag n hw⟩
  · intro vs _ ⟨w, hw⟩; exact ⟨_, .sequence hw⟩
  · intro es _ ih; obtain ⟨w, hw⟩ := ih none; exact ⟨_, .object hw⟩
  · exact ⟨_, .nil⟩
  · intro v vs _ _ ⟨w, hw⟩ ⟨ws, hws⟩; exact ⟨_, .cons hw hws⟩
  · intro d; exact ⟨_, .nil d⟩
  · intro t es _ ih d; obtain ⟨w, hw⟩ := ih d; exact ⟨_, .comment t hw⟩
  · intro ls es _ ih d; obtain ⟨w, hw⟩ := ih _; exact ⟨_, .doc ls hw⟩
  · intro t p k v es _ _ ⟨w, hw⟩ ih d; obtain ⟨ws, hws⟩ := ih none; exact ⟨_, .entry t p k hw hws⟩

theorem entries_tree {ks : List EventKind} (h : IsEntries ks) : ∀ d, ∃ es, EntriesOf d ks es := by
  refine IsEntries.rec (motive_1 := fun _ _ => True) (motive_2 := fun _ _ => True)
    (motive_3 := fun ks _ => ∀ d, ∃ es, EntriesOf d ks es) ?_ ?_ ?_ ?_ ?_ ?_ ?_ ?_ ?_ ?_ ?_ ?_ h
  case refine_9 => intro d; exact ⟨_, .nil d⟩
  case refine_10 => intro t es _ ih d; obtain ⟨w, hw⟩ := ih d; exact ⟨_, .comment t hw⟩
  case refine_11 => intro ls es _ ih d; obtain ⟨w, hw⟩ := ih _; exact ⟨_, .doc ls hw⟩
  case refine_12 =>
    intro t p k v es hv _ _ ih d
    obtain ⟨w, hw⟩ := value_tree hv
    obtain ⟨ws, hws⟩ := ih none
    exact ⟨_, .entry t p k hw hws⟩
  all_goals (intros; trivial)

/-- Comments before the root object leave the builder as it is, up to a pending doc comment. -/
theorem run_comments (evs : List Event) (hc : IsComments (kinds evs)) (d : Option (List Char)) :
    ∃ d', ({ ({} : Builder) with pendingDoc := d }).run evs = { ({} : Builder) with pendingDoc := d' } := by
  induction evs generalizing d with
  | nil => exact ⟨d, rfl⟩
  | cons e es ih =>
    have h1 := hc e.kind (by simp [kinds])
    have h2 : IsComments (kinds es) := fun c hcc => hc c (by
      simp only [kinds, List.map_cons, List.mem_cons] at hcc ⊢; exact .inr hcc)
    obtain ⟨sp, k⟩ := e
    rcases h1 with ⟨t, rfl⟩ | ⟨ls, rfl⟩
    · exact ih h2 d
    · exact ih h2 _

/-- Parsing an error-free document is building the tree of its events. -/
theorem parseTree_ok {source : List Char} {evs : List Event} (h : parseEvents source = some evs)
    (hn : NoError evs) : parseTree source = some (buildTree evs) := by
  unfold parseTree
  rw [h]
  simp only
  rw [if_neg]
  simp only [List.any_eq_true, not_exists]
  intro e ⟨he, hp⟩
  have := (hn e he).2
  simp only [beq_iff_eq] at hp
  exact this hp

theorem finish_of_noError {evs : List Event} (hn : NoError evs) : errorsOf evs = [] := by
  induction evs with
  | nil => rfl
  | cons e es ih =>
    have h1 := (hn e (by simp)).1
    have h2 := ih (fun x hx => hn x (by simp [hx]))
    obtain ⟨sp, k⟩ := e
    cases k <;> first | exact h2 | exact absurd rfl (h1 _)

/-- **C19**, end to end: every source whose event stream has no error gives the tree that its stream
describes: root entries `es` standing for the events between the root object's start and end — or, when
there is no root object at all, no entries; or it is the case of `C12_false`, and the root object is
never closed. -/
theorem C19_parse (source : List Char) (evs : List Event) (h : parseEvents source = some evs)
    (hn : NoError evs) :
    (∃ cs ks es, IsComments cs ∧ EntriesOf none ks (eraseEntries es) ∧
      kinds evs = .documentStart :: cs ++ .objectStart :: ks ++ [.objectEnd, .documentEnd] ∧
      parseTree source = some (.ok (.mk none (some (.object es none)) none))) ∨
    (∃ cs, IsComments cs ∧ kinds evs = .documentStart :: cs ++ [.documentEnd] ∧
      parseTree source = some (.ok (.mk none (some (.object [] none)) none))) ∨
    (nest [] evs = some [.object] ∧ parseTree source = some (.error .unclosedStructure)) := by
  rw [parseTree_ok h hn]
  have hfin := finish_of_noError hn
  rcases C13_document source evs h hn with hd | ⟨cs, es, es', hc, h1, h2, hk⟩
  · generalize hks : kinds evs = ks at hd
    cases hd with
    | empty hc =>
      rename_i cs
      refine .inr (.inl ⟨cs, hc, rfl, ?_⟩)
      obtain ⟨sp1, e1, rfl, k1⟩ := kinds_uncons (b := cs ++ [.documentEnd]) hks
      obtain ⟨e2, e3, rfl, k2, k3⟩ := kinds_split k1
      obtain ⟨sp4, e4, rfl, k4⟩ := kinds_uncons k3
      rw [kinds_empty k4]
      obtain ⟨d, hd⟩ := run_comments e2 (by rw [k2]; exact hc) none
      unfold buildTree
      rw [Builder.run_cons, Builder.run_append]
      have : ({} : Builder).event ⟨sp1, .documentStart⟩ = { ({} : Builder) with pendingDoc := none } := rfl
      rw [this, hd]
      rfl
    | root hc he =>
      rename_i cs es
      left
      obtain ⟨ws, hws⟩ := entries_tree he none
      obtain ⟨sp1, e1, rfl, k1⟩ := kinds_uncons (b := cs ++ .objectStart :: es ++ [.objectEnd, .documentEnd]) hks
      rw [List.append_assoc] at k1
      obtain ⟨e2, e3, rfl, k2, k3⟩ := kinds_split k1
      obtain ⟨sp4, e4, rfl, k4⟩ := kinds_uncons (b := es ++ [.objectEnd, .documentEnd]) k3
      obtain ⟨e5, e6, rfl, k5, k6⟩ := kinds_split k4
      obtain ⟨sp7, e7, rfl, k7⟩ := kinds_uncons k6
      obtain ⟨sp8, e8, rfl, k8⟩ := kinds_uncons k7
      rw [kinds_empty k8]
      obtain ⟨d, hd⟩ := run_comments e2 (by rw [k2]; exact hc) none
      obtain ⟨es', d', g1, g2⟩ := feed_entries hws e5 k5
        { ({} : Builder) with pendingDoc := d, stack := [.object [] sp4 none] } [] sp4 [] rfl
      refine ⟨cs, es, es', hc, by rw [g1]; exact hws, rfl, ?_⟩
      unfold buildTree
      rw [Builder.run_cons, Builder.run_append]
      have : ({} : Builder).event ⟨sp1, .documentStart⟩ = { ({} : Builder) with pendingDoc := none } := rfl
      rw [this, hd, Builder.run_cons]
      have : ({ ({} : Builder) with pendingDoc := d }).event ⟨sp4, .objectStart⟩ =
        { ({} : Builder) with pendingDoc := d, stack := [.object [] sp4 none] } := rfl
      rw [this, Builder.run_append, g2]
      rfl
  · have hnest : nest [] evs = some [.object] ∨ nest [] evs = some [] := by
      rcases C12_nested_partial source evs h with h | ⟨h, -⟩
      · exact .inr h
      · exact .inl h
    -- the stream opens one object more than it closes
    have hrun : (Builder.run {} evs).stack ≠ [] := by
      obtain ⟨ws, hws⟩ := entries_tree h1 none
      obtain ⟨ws', hws'⟩ := entries_tree h2 none
      obtain ⟨sp1, e1, rfl, k1⟩ := kinds_uncons
        (b := cs ++ .objectStart :: es ++ .objectStart :: es' ++ [.objectEnd, .documentEnd]) hk
      rw [List.append_assoc, List.append_assoc] at k1
      obtain ⟨e2, e3, rfl, k2, k3⟩ := kinds_split k1
      obtain ⟨sp4, e4, rfl, k4⟩ := kinds_uncons (b := es ++ (.objectStart :: es' ++ [.objectEnd, .documentEnd])) k3
      obtain ⟨e5, e6, rfl, k5, k6⟩ := kinds_split k4
      obtain ⟨sp7, e7, rfl, k7⟩ := kinds_uncons (b := es' ++ [.objectEnd, .documentEnd]) k6
      obtain ⟨e8, e9, rfl, k8, k9⟩ := kinds_split k7
      obtain ⟨sp10, e10, rfl, k10⟩ := kinds_uncons k9
      obtain ⟨sp11, e11, rfl, k11⟩ := kinds_uncons k10
      rw [kinds_empty k11]
      obtain ⟨d, hd⟩ := run_comments e2 (by rw [k2]; exact hc) none
      obtain ⟨w1, d1, g1, g2⟩ := feed_entries hws e5 k5
        { ({} : Builder) with pendingDoc := d, stack := [.object [] sp4 none] } [] sp4 [] rfl
      obtain ⟨w2, d2, g3, g4⟩ := feed_entries hws' e8 k8
        { ({} : Builder) with pendingDoc := d, stack := [.object [] sp7 none, .object ([] ++ w1) sp4 d1] }
          [] sp7 [.object ([] ++ w1) sp4 d1] rfl
      rw [Builder.run_cons, Builder.run_append]
      have : ({} : Builder).event ⟨sp1, .documentStart⟩ = { ({} : Builder) with pendingDoc := none } := rfl
      rw [this, hd, Builder.run_cons]
      have : ({ ({} : Builder) with pendingDoc := d }).event ⟨sp4, .objectStart⟩ =
        { ({} : Builder) with pendingDoc := d, stack := [.object [] sp4 none] } := rfl
      rw [this, Builder.run_append, g2, Builder.run_cons]
      have : ({ ({} : Builder) with pendingDoc := d, stack := [.object ([] ++ w1) sp4 d1] }).event ⟨sp7, .objectStart⟩ =
        { ({} : Builder) with pendingDoc := d, stack := [.object [] sp7 none, .object ([] ++ w1) sp4 d1] } := rfl
      rw [this, Builder.run_append, g4]
      simp [Builder.run_cons, Builder.run_nil, Builder.event, Builder.push, pushOn]
    refine .inr (.inr ⟨?_, ?_⟩)
    · rcases hnest with h | h
      · exact h
      · exact absurd (frames_nil (FrameShape.run (b := {}) .nil h)) hrun
    · unfold buildTree Builder.finish
      rw [run_errors, hfin]
      simp [hrun]

/-- Both outcomes with a tree, and the one without. -/
example : (∃ evs, parseEvents (chars! "// c\na {b (1 @x @y{z 2})}\n/// d\ne f") = some evs ∧ NoError evs) ∧
    (∃ evs, parseEvents (chars! "// c\n") = some evs ∧ NoError evs) ∧
    (∃ evs, parseEvents (chars! "a 1\n{b 2}") = some evs ∧ NoError evs) :=
  ⟨⟨_, rfl, by decide +kernel⟩, ⟨_, rfl, by decide +kernel⟩, ⟨_, rfl, by decide +kernel⟩⟩

/-! ## C20 -/

/-- **C20**: if the stream has an error event, building fails with the first one. -/
theorem C20_first_error (pre post : List Event) (kind : ParseErrorKind) (span : Span)
    (hpre : ∀ e ∈ pre, ∀ k, e.kind ≠ .error k) :
    buildTree (pre ++ ⟨span, .error kind⟩ :: post) = .error (.parse kind span) := by
  have happ : ∀ a b, errorsOf (a ++ b) = errorsOf a ++ errorsOf b := by
    intro a b
    induction a with
    | nil => rfl
    | cons e a ih => rw [List.cons_append, errorsOf_cons, ih, errorsOf_cons e a, List.append_assoc]
  have hp : errorsOf pre = [] := by
    induction pre with
    | nil => rfl
    | cons e es ih =>
      have h1 := hpre e (by simp)
      have h2 := ih (fun x hx => hpre x (by simp [hx]))
      obtain ⟨sp, k⟩ := e
      cases k <;> first | exact h2 | exact absurd rfl (h1 _)
  unfold buildTree Builder.finish
  rw [run_errors, happ, hp]
  rfl

/-- **C20**: if building succeeds there was no error event. -/
theorem C20_success (evs : List Event) (v : Value) (h : buildTree evs = .ok v) :
    ∀ e ∈ evs, ∀ k, e.kind ≠ .error k := by
  intro e he k hk
  have hne : errorsOf evs ≠ [] := by
    clear h
    induction evs with
    | nil => cases he
    | cons x xs ih =>
      rw [errorsOf_cons]
      rcases List.mem_cons.1 he with rfl | he
      · obtain ⟨sp, k'⟩ := e
        cases hk
        simp [errorsOf]
      · simp [ih he]
  unfold buildTree Builder.finish at h
  rw [run_errors] at h
  cases hx : errorsOf evs with
  | nil => exact hne hx
  | cons x xs => rw [hx] at h; cases h

/-- **C20** for sources: a tree only comes out of a stream without error events, and a stream with an
error gives that error. -/
theorem C20_parse (source : List Char) (evs : List Event) (h : parseEvents source = some evs)
    (v : Value) (hv : parseTree source = some (.ok v)) : NoError evs := by
  unfold parseTree at hv
  rw [h] at hv
  simp only at hv
  split at hv
  · cases hv
  · rename_i hp
    intro e he
    refine ⟨C20_success evs v (by injection hv) e he, ?_⟩
    intro hc
    refine hp ?_
    rw [List.any_eq_true]
    exact ⟨e, he, by rw [hc]; rfl⟩

/-- A document with two errors yields the first. -/
example : parseTree (chars! "a {b 1 b}\nc {d 1\nd 2}") = some (.error (.parse .tooManyAtoms ⟨7, 8⟩)) := by rfl

/-! ## C21 -/

/-- **C21**.  Full statement: the builder returns the unclosed-structure error whenever a start event
is left open at the end.  This is false (`C21_false`).  Proved: when every end event matches the most
recent open start, and there is no error event, the builder fails with the unclosed-structure error if
an object, sequence or entry is left open, and succeeds if nothing is.  (`buildTree` is a total
function without panic outcome: the `unwrap`s of the code are pattern matches here.) -/
theorem C21_unclosed_partial (evs : List Event) (open_ : List Opened) (h : nest [] evs = some open_)
    (hn : ∀ e ∈ evs, ∀ k, e.kind ≠ .error k) :
    ((∃ o ∈ open_, o ≠ .tag) → buildTree evs = .error .unclosedStructure) ∧
    (open_ = [] → ∃ v, buildTree evs = .ok v) := by
  have hs : FrameShape open_ (Builder.run {} evs).stack := FrameShape.run (b := {}) .nil h
  have hfin : errorsOf evs = [] := by
    clear h hs
    induction evs with
    | nil => rfl
    | cons e es ih =>
      have h1 := hn e (by simp)
      have h2 := ih (fun x hx => hn x (by simp [hx]))
      obtain ⟨sp, k⟩ := e
      cases k <;> first | exact h2 | exact absurd rfl (h1 _)
  have he : (Builder.run {} evs).errors = [] := by rw [run_errors, hfin]; rfl
  unfold buildTree Builder.finish
  rw [he]
  constructor
  · rintro ⟨o, ho, hne⟩
    have : (Builder.run {} evs).stack ≠ [] := by
      intro hc
      rw [hc] at hs
      exact hne (frames_tags hs o ho)
    simp [this]
  · rintro rfl
    rw [frames_nil hs]
    exact ⟨_, rfl⟩

/-- Streams as in the theorem, one of each sort. -/
example : nest [] [⟨⟨0, 1⟩, .objectStart⟩, ⟨⟨1, 2⟩, .entryStart⟩, ⟨⟨1, 2⟩, .key none (some ['a']) .bare⟩,
      ⟨⟨3, 4⟩, .tagStart ['t']⟩] = some [.tag, .entry, .object] ∧
    nest [] [⟨⟨0, 1⟩, .sequenceStart⟩, ⟨⟨1, 2⟩, .tagStart ['t']⟩, ⟨⟨1, 2⟩, .tagEnd⟩, ⟨⟨2, 3⟩, .sequenceEnd⟩] = some [] :=
  ⟨by rfl, by rfl⟩

/-- **C21** is false: an open tag that already has its value is not noticed, and neither is an object
closed by the end of a sequence. -/
theorem C21_false (s : Span) :
    (∃ v, buildTree [⟨s, .tagStart ['t']⟩, ⟨s, .scalar ['x'] .bare⟩] = .ok v) ∧
    (∃ v, buildTree [⟨s, .objectStart⟩, ⟨s, .sequenceEnd⟩] = .ok v) := ⟨⟨_, rfl⟩, ⟨_, rfl⟩⟩

/-! ## C22 -/

/-- **C22**: after an insert, the key gives the inserted value. -/
theorem C22_get_same (es : List Entry) (k : List Char) (v : Value) : objGet (objInsert es k v) k = some v :=
  insert_find_same _ (fun _ _ _ _ _ => rfl) v _ none (by simp [Entry.key, Value.scalar, Value.asStr]) es

/-- **C22**: all other keys, and the unit key, are unchanged. -/
theorem C22_get_other (es : List Entry) (k k' : List Char) (v : Value) (hne : k' ≠ k) :
    objGet (objInsert es k v) k' = objGet es k' ∧ objGetUnit (objInsert es k v) = objGetUnit es := by
  unfold objGet objGetUnit
  rw [objInsert_eq]
  refine ⟨congrArg _ (insert_find_other _ _ (fun _ _ _ _ _ => rfl) ?_ v _ none ?_ es),
    congrArg _ (insert_find_other _ _ (fun _ _ _ _ _ => rfl) ?_ v _ none ?_ es)⟩
  · intro e he
    simp only [beq_iff_eq] at he
    rw [he]
    simp [Ne.symm hne]
  · simp [Entry.key, Value.scalar, Value.asStr]
  · intro e he
    simp only [beq_iff_eq] at he
    generalize e.key = key at he
    unfold Value.asStr at he
    split at he
    · rfl
    · cases he
  · simp [Entry.key, Value.scalar, Value.asStr]

/-- **C22**: keys and doc comments of the existing entries stay, in order; an entry is added at the end
exactly if the key was not there. -/
theorem C22_order (es : List Entry) (k : List Char) (v : Value) :
    (objInsert es k v).map (fun e => (e.key, e.doc)) = es.map (fun e => (e.key, e.doc)) ++
      if (objGet es k).isSome then [] else [(Value.scalar k, none)] := by
  rw [objInsert_eq, insert_keys]
  congr 2
  simp [objGet, List.any_eq_true]

/-- **C22**: the number of entries. -/
theorem C22_length (es : List Entry) (k : List Char) (v : Value) :
    (objInsert es k v).length = if (objGet es k).isSome then es.length else es.length + 1 := by
  have := congrArg List.length (C22_order es k v)
  simp only [List.length_map, List.length_append] at this
  rw [this]
  split <;> simp

/-- **C22**, the unit key: the same laws. -/
theorem C22_unit (es : List Entry) (k : List Char) (v : Value) :
    objGetUnit (objInsertUnit es v) = some v ∧ objGet (objInsertUnit es v) k = objGet es k ∧
    (objInsertUnit es v).map (fun e => (e.key, e.doc)) = es.map (fun e => (e.key, e.doc)) ++
      (if (objGetUnit es).isSome then [] else [(Value.unit, none)]) := by
  refine ⟨insert_find_same _ (fun _ _ _ _ _ => rfl) v _ none rfl es, ?_, ?_⟩
  · unfold objGet
    rw [objInsertUnit_eq]
    refine congrArg _ (insert_find_other _ _ (fun _ _ _ _ _ => rfl) ?_ v _ none rfl es)
    intro e he
    generalize e.key = key at he
    unfold Value.isUnit at he
    unfold Value.asStr
    split
    · cases he
    · rfl
  · rw [objInsertUnit_eq, insert_keys]
    congr 2
    simp [objGetUnit, List.any_eq_true]

/-- The last value given to the key in a history of inserts. -/
def lastInsert (k : List Char) (ops : List (List Char × Value)) : Option Value :=
  ((ops.filter fun op => op.1 = k).getLast?).map (·.2)

/-- **C22**, any history of inserts: a key gives the value of the last insert of that key, and the
original value if there was none. -/
theorem C22_history (es : List Entry) (ops : List (List Char × Value)) (k : List Char) :
    objGet (ops.foldl (fun es op => objInsert es op.1 op.2) es) k =
      match lastInsert k ops with
      | some v => some v
      | none => objGet es k := by
  induction ops generalizing es with
  | nil => rfl
  | cons op ops ih =>
    rw [List.foldl_cons, ih]
    unfold lastInsert
    by_cases h : op.1 = k
    · simp only [List.filter_cons, h, decide_true, ↓reduceIte, List.getLast?_cons]
      subst h
      cases (ops.filter fun x => x.1 = op.1).getLast? with
      | none => simp [C22_get_same]
      | some x => simp
    · simp only [List.filter_cons, h, decide_false]
      rw [(C22_get_other es op.1 k op.2 (Ne.symm h)).1]
      simp

/-- A history on an object that has the key twice, tagged once, and a unit key. -/
example : (let es := [.mk (.mk (some ⟨['t'], none⟩) (some (.scalar ['a'] .bare none)) none) Value.unit none,
      .mk Value.unit Value.unit none, .mk (Value.scalar ['a']) Value.unit none,
      .mk (Value.scalar ['a']) (Value.seq []) none]
    let es' := objInsert (objInsert (objInsert es ['a'] (Value.scalar ['1'])) ['b'] (Value.scalar ['2']))
      ['a'] (Value.scalar ['3'])
    es'.length = 5 ∧ (objGet es' ['a']).bind Value.asStr = some ['3']) := ⟨by rfl, by rfl⟩

/-! ## C23 -/

/-- **C23**: the empty path gives the value itself. -/
theorem C23_empty (v : Value) : v.get [] = some v := by
  obtain ⟨t, p, s⟩ := v
  simp [Value.get]

/-- **C23**.  Full statement: looking up the text of a path gives exactly what following its steps
gives.  This is false (`C23_false`): an index into an object finds a key spelled `[n]`.  Proved: what
following the steps reaches is found, for all values and paths; … -/
theorem C23_follow_partial (steps : List PathStep) (hok : ∀ s ∈ steps, StepOK s) (v w : Value)
    (h : follow steps v = some w) : v.get (render steps) = some w := by
  rw [get_follow steps hok]
  exact follow_loose h

/-- … and if no key of the value starts with `[`, the two are the same; … -/
theorem C23_exact_partial (steps : List PathStep) (hok : ∀ s ∈ steps, StepOK s) (v : Value)
    (hv : NoBracketKeys v) : v.get (render steps) = follow steps v := by
  rw [get_follow steps hok]
  exact follow_strict hv

/-- … and the only difference, for all values, is the index step into objects. -/
theorem C23_loose (steps : List PathStep) (hok : ∀ s ∈ steps, StepOK s) (v : Value) :
    v.get (render steps) = followLoose steps v := get_follow steps hok v

/-- **C23** for documents: the root is an object, and the empty path finds nothing. -/
theorem C23_document (root : List Entry) (path : List Char) (s : Option Span) :
    docGet root path = if path = [] then none else (Value.mk none (some (.object root s)) none).get path := by
  unfold docGet
  by_cases h : path = []
  · simp [h]
  · rw [if_neg h, if_neg h, Value.get, if_neg h]
    simp only [getInEntries_eq]
    cases objGet root (splitPath path).1 <;> rfl

/-- The path `a.b[2].c` in a value that has it. -/
example : (let steps := [PathStep.key ['a'], .key ['b'], .idx 2, .key ['c']]
    render steps = chars! "a.b[2].c" ∧ (∀ s ∈ steps, StepOK s) ∧
    (follow steps (.mk none (some (.object [.mk (Value.scalar ['a']) (.mk none (some (.object [.mk (Value.scalar ['b'])
      (Value.seq [Value.unit, Value.unit, .mk none (some (.object [.mk (Value.scalar ['c']) (Value.scalar ['x'])
        none] none)) none]) none] none)) none) none] none)) none)).bind Value.asStr = some ['x']) :=
  ⟨by decide +kernel, by simp [StepOK, usizeMax], by rfl⟩

/-- **C23** is false: `[0]` in an object finds the key `[0]`. -/
theorem C23_false : ∃ v : Value, follow [.idx 0] v = none ∧
    (v.get (render [.idx 0])).bind Value.asStr = some ['x'] :=
  ⟨.mk none (some (.object [.mk (Value.scalar (chars! "[0]")) (Value.scalar ['x']) none] none)) none,
    rfl, by decide +kernel⟩

end Styx.Props
