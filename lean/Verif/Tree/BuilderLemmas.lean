import Verif.Tree.Builder
import Verif.Tree.TreeSpec

/-! # The tree builder against the tree specification -/

namespace Styx

open Spec

theorem kinds_split {evs : List Event} {a b : List EventKind} (h : kinds evs = a ++ b) :
    ∃ e1 e2, evs = e1 ++ e2 ∧ kinds e1 = a ∧ kinds e2 = b := by
  unfold kinds at *
  obtain ⟨e1, e2, h1, h2, h3⟩ := List.map_eq_append_iff.1 h
  exact ⟨e1, e2, h1, h2, h3⟩

theorem kinds_uncons {evs : List Event} {k : EventKind} {b : List EventKind} (h : kinds evs = k :: b) :
    ∃ sp e2, evs = ⟨sp, k⟩ :: e2 ∧ kinds e2 = b := by
  unfold kinds at *
  obtain ⟨e1, e2, h1, h2, h3⟩ := List.map_eq_cons_iff.1 h
  obtain ⟨sp, k'⟩ := e1
  simp only at h2
  subst h2
  exact ⟨sp, e2, h1, h3⟩

theorem kinds_empty {evs : List Event} (h : kinds evs = []) : evs = [] := by
  unfold kinds at h
  exact List.map_eq_nil_iff.1 h

theorem Builder.run_append (b : Builder) (x y : List Event) : b.run (x ++ y) = (b.run x).run y := by
  unfold Builder.run
  exact List.foldl_append ..

theorem Builder.run_cons (b : Builder) (x : Event) (y : List Event) : b.run (x :: y) = (b.event x).run y := rfl

theorem Builder.run_nil (b : Builder) : b.run [] = b := rfl

theorem pushOn_irrel (st : List Frame) (v : Value) (b : Builder) (st' : List Frame) :
    pushOn st v { b with stack := st' } = pushOn st v b := by
  fun_induction pushOn st v b <;> first | rfl | (rw [pushOn]; assumption)

theorem pushOn_top (st : List Frame) (v : Value) (b : Builder) (name : List Char) (sp : Span) (rest : List Frame) :
    (pushOn st v b).stack ≠ .tag name sp :: rest := by
  fun_induction pushOn st v b <;> simp_all

theorem push_tag (b : Builder) (name : List Char) (sp : Span) (v : Value) :
    Builder.push { b with stack := .tag name sp :: b.stack } v =
      b.push (.mk (some ⟨name, some sp⟩) v.payload v.span) := by
  unfold Builder.push
  simp only
  rw [pushOn, pushOn_irrel]

theorem tagEnd_pushed (b : Builder) (v : Value) (sp : Span) :
    (b.push v).event ⟨sp, .tagEnd⟩ = b.push v := by
  have h := pushOn_top b.stack v b
  unfold Builder.event Builder.push
  simp only

theorem erase_payload (v : Value) : (erase v).payload = erasePayload v.payload := by
  cases v; rfl

theorem eraseEntries_append (a b : List Entry) : eraseEntries (a ++ b) = eraseEntries a ++ eraseEntries b := by
  induction a with
  | nil => rfl
  | cons x a ih => cases x; simp [eraseEntries, ih]

theorem joinLines_eq (ls : List (List Char)) : joinLines ls = joined ls := by
  fun_induction joinLines ls <;> simp_all [joined]

theorem appendDoc_eq (d : Option (List Char)) (t : List Char) : some (appendDoc d t) = continued d t := by
  cases d <;> rfl

theorem push_entry (b : Builder) (k : Value) (doc d : Option (List Char)) (acc : List Entry) (sp : Span)
    (rest : List Frame) (v : Value) (h : b.stack = .entry (some k) doc :: .object acc sp d :: rest) :
    b.push v = { b with stack := .entry none none :: .object (acc ++ [.mk k v doc]) sp d :: rest } := by
  unfold Builder.push
  rw [h]
  rfl

/-- Feeding events with these kinds pushes this value (with some spans). -/
def FeedValue (ks : List EventKind) (v : Value) : Prop :=
  ∀ evs, kinds evs = ks → ∀ b : Builder, b.stack ≠ [] → ∃ v', erase v' = v ∧ b.run evs = b.push v'

/-- Feeding events with these kinds into an open object adds these entries (with some spans). -/
def FeedEntries (d : Option (List Char)) (ks : List EventKind) (es : List Entry) : Prop :=
  ∀ evs, kinds evs = ks → ∀ (b : Builder) acc sp rest, b.stack = .object acc sp d :: rest →
    ∃ es' d', eraseEntries es' = es ∧ b.run evs = { b with stack := .object (acc ++ es') sp d' :: rest }

theorem FeedEntries.nil (d : Option (List Char)) : FeedEntries d [] [] := by
  intro evs hk b acc sp rest hb
  rw [kinds_empty hk]
  exact ⟨[], d, rfl, by rw [Builder.run_nil, List.append_nil, ← hb]⟩

theorem FeedEntries.comment (t : List Char) {d : Option (List Char)} {ks : List EventKind} {es : List Entry}
    (ih : FeedEntries d ks es) : FeedEntries d (.comment t :: ks) es := by
  intro evs hk b acc sp rest hb
  obtain ⟨sp', e2, rfl, h2⟩ := kinds_uncons hk
  exact ih e2 h2 b acc sp rest hb

theorem FeedEntries.doc (ls : List (List Char)) {d : Option (List Char)} {ks : List EventKind} {es : List Entry}
    (ih : FeedEntries (continued d (joined ls)) ks es) : FeedEntries d (.docComment ls :: ks) es := by
  intro evs hk b acc sp rest hb
  obtain ⟨sp', e2, rfl, h2⟩ := kinds_uncons hk
  have he : b.event ⟨sp', .docComment ls⟩ =
      { b with stack := .object acc sp (continued d (joined ls)) :: rest } := by
    simp only [Builder.event, hb]
    rw [← appendDoc_eq, joinLines_eq]
  obtain ⟨es', d', g1, g2⟩ := ih e2 h2 { b with stack := .object acc sp (continued d (joined ls)) :: rest } acc sp rest rfl
  exact ⟨es', d', g1, by rw [Builder.run_cons, he, g2]⟩

theorem FeedEntries.entry (t p : Option (List Char)) (k : ScalarKind) {d : Option (List Char)}
    {kv ks : List EventKind} {v : Value} {es : List Entry} (ih1 : FeedValue kv v) (ih2 : FeedEntries none ks es) :
    FeedEntries d (.entryStart :: .key t p k :: kv ++ .entryEnd :: ks)
      (.mk (.mk (t.map fun n => ⟨n, none⟩) (p.map fun text => .scalar text k none) none) v d :: es) := by
  intro evs hk b acc sp rest hb
  obtain ⟨sp1, e2, rfl, h2⟩ := kinds_uncons (b := .key t p k :: kv ++ .entryEnd :: ks) hk
  obtain ⟨sp2, e3, rfl, h3⟩ := kinds_uncons (b := kv ++ .entryEnd :: ks) h2
  obtain ⟨e4, e5, rfl, h4, h5⟩ := kinds_split h3
  obtain ⟨sp3, e6, rfl, h6⟩ := kinds_uncons h5
  rw [Builder.run_cons, Builder.run_cons]
  have he : (b.event ⟨sp1, .entryStart⟩).event ⟨sp2, .key t p k⟩ = { b with
      stack := .entry (some (.mk (t.map fun n => ⟨n, some sp2⟩)
        (p.map fun text => .scalar text k (some sp2)) (some sp2))) d :: .object acc sp none :: rest } := by
    simp only [Builder.event, hb]
  rw [he]
  generalize hkey : Value.mk (t.map fun n => (⟨n, some sp2⟩ : Tag)) (p.map fun text => Payload.scalar text k (some sp2)) (some sp2) = key
  obtain ⟨v', g1, g2⟩ := ih1 e4 h4 { b with stack := .entry (some key) d :: .object acc sp none :: rest } (by simp)
  rw [push_entry _ key d none acc sp rest v' rfl] at g2
  rw [Builder.run_append, g2, Builder.run_cons]
  simp only [Builder.event, List.drop_succ_cons, List.drop_zero]
  obtain ⟨es', d', g3, g4⟩ := ih2 e6 h6
    { b with stack := .object (acc ++ [.mk key v' d]) sp none :: rest } _ sp rest rfl
  rw [g4]
  refine ⟨.mk key v' d :: es', d', ?_, by simp⟩
  rw [eraseEntries, g1, g3, ← hkey]
  cases t <;> cases p <;> rfl

/-- Feeding the events of a value, of values, and of entries. -/
theorem feed_value {ks : List EventKind} {v : Value} (h : ValueOf ks v) :
    FeedValue ks v := by
  refine ValueOf.rec
    (motive_1 := fun ks v _ => FeedValue ks v)
    (motive_2 := fun ks vs _ => ∀ evs, kinds evs = ks → ∀ (b : Builder) acc sp rest,
      b.stack = .sequence acc sp :: rest →
      ∃ vs', eraseAll vs' = vs ∧ b.run evs = { b with stack := .sequence (acc ++ vs') sp :: rest })
    (motive_3 := fun d ks es _ => FeedEntries d ks es)
    ?_ ?_ ?_ ?_ ?_ ?_ ?_ ?_ ?_ ?_ ?_ ?_ h
  · intro v k evs hk b hb
    obtain ⟨sp, e2, rfl, h2⟩ := kinds_uncons hk
    rw [kinds_empty h2]
    exact ⟨_, rfl, rfl⟩
  · intro evs hk b hb
    obtain ⟨sp, e2, rfl, h2⟩ := kinds_uncons hk
    rw [kinds_empty h2]
    exact ⟨_, rfl, rfl⟩
  · intro n evs hk b hb
    obtain ⟨sp, e2, rfl, h2⟩ := kinds_uncons hk
    obtain ⟨sp', e3, rfl, h3⟩ := kinds_uncons h2
    rw [kinds_empty h3]
    refine ⟨.mk (some ⟨n, some sp⟩) none (some sp), rfl, ?_⟩
    simp only [Builder.run_cons, Builder.run_nil, Builder.event]
  · intro n ks v _ ih evs hk b hb
    obtain ⟨sp, e2, rfl, h2⟩ := kinds_uncons (b := ks ++ [.tagEnd]) hk
    obtain ⟨e3, e4, rfl, h3, h4⟩ := kinds_split h2
    obtain ⟨sp', e5, rfl, h5⟩ := kinds_uncons h4
    rw [kinds_empty h5]
    obtain ⟨v', g1, g2⟩ := ih e3 h3 { b with stack := .tag n sp :: b.stack } (by simp)
    refine ⟨.mk (some ⟨n, some sp⟩) v'.payload v'.span, ?_, ?_⟩
    · rw [← g1, erase_payload]; rfl
    · rw [Builder.run_cons, Builder.run_append]
      have : b.event ⟨sp, .tagStart n⟩ = { b with stack := .tag n sp :: b.stack } := rfl
      rw [this, g2, push_tag, Builder.run_cons, Builder.run_nil, tagEnd_pushed]
  · intro ks vs _ ih evs hk b hb
    obtain ⟨sp, e2, rfl, h2⟩ := kinds_uncons (b := ks ++ [.sequenceEnd]) hk
    obtain ⟨e3, e4, rfl, h3, h4⟩ := kinds_split h2
    obtain ⟨sp', e5, rfl, h5⟩ := kinds_uncons h4
    rw [kinds_empty h5]
    obtain ⟨vs', g1, g2⟩ := ih e3 h3 { b with stack := .sequence [] sp :: b.stack } [] sp b.stack rfl
    refine ⟨.mk none (some (.sequence vs' (some ⟨sp.start, sp'.stop⟩))) (some ⟨sp.start, sp'.stop⟩), ?_, ?_⟩
    · rw [← g1]; rfl
    · rw [Builder.run_cons, Builder.run_append]
      have : b.event ⟨sp, .sequenceStart⟩ = { b with stack := .sequence [] sp :: b.stack } := rfl
      rw [this, g2]
      rfl
  · intro ks es _ ih evs hk b hb
    obtain ⟨sp, e2, rfl, h2⟩ := kinds_uncons (b := ks ++ [.objectEnd]) hk
    obtain ⟨e3, e4, rfl, h3, h4⟩ := kinds_split h2
    obtain ⟨sp', e5, rfl, h5⟩ := kinds_uncons h4
    rw [kinds_empty h5]
    obtain ⟨es', d', g1, g2⟩ := ih e3 h3 { b with stack := .object [] sp none :: b.stack } [] sp b.stack rfl
    refine ⟨.mk none (some (.object es' (some ⟨sp.start, sp'.stop⟩))) (some ⟨sp.start, sp'.stop⟩), ?_, ?_⟩
    · rw [← g1]; rfl
    · rw [Builder.run_cons, Builder.run_append]
      have : b.event ⟨sp, .objectStart⟩ = { b with stack := .object [] sp none :: b.stack } := rfl
      rw [this, g2, Builder.run_cons, Builder.run_nil]
      simp only [Builder.event, List.nil_append]
      rw [if_neg]
      simpa using hb
  · intro evs hk b acc sp rest hb
    rw [kinds_empty hk]
    exact ⟨[], rfl, by rw [Builder.run_nil, List.append_nil, ← hb]⟩
  · intro ks ks' v vs _ _ ih1 ih2 evs hk b acc sp rest hb
    obtain ⟨e3, e4, rfl, h3, h4⟩ := kinds_split hk
    obtain ⟨v', g1, g2⟩ := ih1 e3 h3 b (by simp [hb])
    have hp : b.push v' = { b with stack := .sequence (acc ++ [v']) sp :: rest } := by
      unfold Builder.push; rw [hb]; rfl
    obtain ⟨vs', g3, g4⟩ := ih2 e4 h4 { b with stack := .sequence (acc ++ [v']) sp :: rest } _ sp rest rfl
    refine ⟨v' :: vs', by rw [eraseAll, g1, g3], ?_⟩
    rw [Builder.run_append, g2, hp, g4]
    simp
  · exact FeedEntries.nil
  · intro t d ks es _ ih; exact ih.comment t
  · intro ls d ks es _ ih; exact ih.doc ls
  · intro t p k d kv ks v es _ _ ih1 ih2; exact FeedEntries.entry t p k ih1 ih2

theorem feed_entries {d : Option (List Char)} {ks : List EventKind} {es : List Entry} (h : EntriesOf d ks es) :
    FeedEntries d ks es := by
  refine EntriesOf.rec (motive_1 := fun _ _ _ => True) (motive_2 := fun _ _ _ => True)
    (motive_3 := fun d ks es _ => FeedEntries d ks es) ?_ ?_ ?_ ?_ ?_ ?_ ?_ ?_ ?_ ?_ ?_ ?_ h
  case refine_9 => exact FeedEntries.nil
  case refine_10 => intro t d ks es _ ih; exact ih.comment t
  case refine_11 => intro ls d ks es _ ih; exact ih.doc ls
  case refine_12 => intro t p k d kv ks v es hv _ _ ih2; exact FeedEntries.entry t p k (feed_value hv) ih2
  all_goals (intros; trivial)

/-! ## Reading the expected events of a tree -/

mutual
theorem valueOf_events : ∀ v : Value, KeysExpressible v → ValueOf (valueEvents v) (erase v)
  | .mk none none _, _ => .unit
  | .mk none (some (.scalar t k _)) _, _ => .scalar t k
  | .mk none (some (.sequence items _)) _, h => .sequence (valuesOf_events items h)
  | .mk none (some (.object es _)) _, h => .object (entriesOf_events es h)
  | .mk (some t) none _, _ => .bareTag t.name
  | .mk (some t) (some (.scalar x k _)) _, _ => .tag t.name (.scalar x k)
  | .mk (some t) (some (.sequence items _)) _, h => .tag t.name (.sequence (valuesOf_events items h))
  | .mk (some t) (some (.object es _)) _, h => .tag t.name (.object (entriesOf_events es h))
theorem valuesOf_events : ∀ vs : List Value, AllExpressible vs → ValuesOf (itemsEvents vs) (eraseAll vs)
  | [], _ => .nil
  | v :: vs, h => .cons (valueOf_events v h.1) (valuesOf_events vs h.2)
theorem entriesOf_events : ∀ es : List Entry, EntriesExpressible es → EntriesOf none (entriesEvents es) (eraseEntries es)
  | [], _ => .nil none
  | .mk k v d :: es, h => by
    have hv := valueOf_events v h.2.1
    have hes := entriesOf_events es h.2.2
    have key : ∀ d, EntriesOf d (.entryStart :: keyEventOf k :: valueEvents v ++ .entryEnd :: entriesEvents es)
        (.mk (erase k) (erase v) d :: eraseEntries es) := by
      intro d
      match k, h.1 with
      | .mk t none _, _ =>
        have x := EntriesOf.entry (d := d) (t.map (·.name)) none .bare hv hes
        cases t <;> exact x
      | .mk t (some (.scalar text sk _)) _, _ =>
        have x := EntriesOf.entry (d := d) (t.map (·.name)) (some text) sk hv hes
        cases t <;> exact x
    cases d with
    | none => simpa [entriesEvents, eraseEntries] using key none
    | some text => simpa [entriesEvents, eraseEntries] using EntriesOf.doc (d := none) [text] (key (some text))
end

/-! ## Errors -/

/-- The error events of a list. -/
def errorsOf : List Event → List (ParseErrorKind × Span)
  | [] => []
  | ⟨sp, .error k⟩ :: es => (k, sp) :: errorsOf es
  | _ :: es => errorsOf es

theorem pushOn_errors (st : List Frame) (v : Value) (b : Builder) : (pushOn st v b).errors = b.errors := by
  fun_induction pushOn st v b with
  | case1 _ _ _ _ _ ih => exact ih
  | case2 =>
    show (addEntry _ _).errors = _
    unfold addEntry
    split <;> rfl
  | _ => rfl

theorem event_errors (b : Builder) (e : Event) : (b.event e).errors = b.errors ++ errorsOf [e] := by
  obtain ⟨sp, k⟩ := e
  cases k <;> simp only [Builder.event, errorsOf, List.append_nil, Builder.push, pushOn_errors] <;>
    (repeat' split) <;> simp only [pushOn_errors]

theorem errorsOf_cons (e : Event) (es : List Event) : errorsOf (e :: es) = errorsOf [e] ++ errorsOf es := by
  obtain ⟨sp, k⟩ := e
  cases k <;> rfl

theorem run_errors (b : Builder) (evs : List Event) : (b.run evs).errors = b.errors ++ errorsOf evs := by
  induction evs generalizing b with
  | nil => simp [Builder.run_nil, errorsOf]
  | cons e es ih => rw [Builder.run_cons, ih, event_errors, errorsOf_cons e es, List.append_assoc]

/-! ## What is open -/

/-- The builder's frames against the starts that are open: a tag whose payload has arrived has no
frame. -/
inductive FrameShape : List Opened → List Frame → Prop
  | nil : FrameShape [] []
  | object {os fs es sp d} : FrameShape os fs → FrameShape (.object :: os) (.object es sp d :: fs)
  | sequence {os fs es sp} : FrameShape os fs → FrameShape (.sequence :: os) (.sequence es sp :: fs)
  | entry {os fs k d} : FrameShape os fs → FrameShape (.entry :: os) (.entry k d :: fs)
  | tag {os fs n sp} : FrameShape os fs → FrameShape (.tag :: os) (.tag n sp :: fs)
  | done {os fs} : FrameShape os fs → (∀ n sp r, fs ≠ .tag n sp :: r) → FrameShape (.tag :: os) fs

theorem FrameShape.addEntry {os : List Opened} {e : Entry} {b : Builder} (h : FrameShape os b.stack) :
    FrameShape os (addEntry e b).stack := by
  unfold Styx.addEntry
  split
  · rename_i es sp d rest heq
    rw [heq] at h
    generalize hfs : Frame.object es sp d :: rest = fs at h
    induction h with
    | nil => cases hfs
    | object h => cases hfs; exact .object h
    | sequence => cases hfs
    | entry => cases hfs
    | tag => cases hfs
    | done h _ ih => exact .done (ih hfs) (by simp)
  · exact h

theorem FrameShape.push {os : List Opened} {st : List Frame} {v : Value} {b : Builder} (h : FrameShape os st) :
    FrameShape os (pushOn st v b).stack := by
  induction h generalizing v b with
  | nil => exact .nil
  | object h => exact .object h
  | sequence h => exact .sequence h
  | entry h =>
    rename_i os fs k d _
    cases k with
    | none => exact .entry h
    | some k =>
      rw [pushOn]
      exact .entry (FrameShape.addEntry h)
  | tag h ih =>
    rw [pushOn]
    exact .done ih (fun n sp r => pushOn_top _ _ _ n sp r)
  | done h hn ih => exact .done ih (fun n sp r => pushOn_top _ _ _ n sp r)

theorem frames_close {os os' : List Opened} {o : Opened} (h : Spec.close o os = some os') : os = o :: os' := by
  cases os with
  | nil => cases h
  | cons x xs =>
    rw [Spec.close] at h
    split at h
    · cases h; rename_i hx; rw [hx]
    · cases h

/-- The innermost non-tag frame under finished tags. -/
theorem FrameShape.event {os os' : List Opened} {b : Builder} {e : Event} (h : FrameShape os b.stack)
    (hs : nestStep os e.kind = some os') : FrameShape os' (b.event e).stack := by
  obtain ⟨sp, k⟩ := e
  have same : ∀ {fs : List Frame} {k k' : Option Value} {d d' : Option (List Char)} {os : List Opened},
      FrameShape os (.entry k d :: fs) → FrameShape os (.entry k' d' :: fs) := by
    intro fs k k' d d' os h
    generalize hfs : Frame.entry k d :: fs = fs' at h
    induction h with
    | entry h => cases hfs; exact .entry h
    | done h _ ih => exact .done (ih hfs) (by simp)
    | _ => cases hfs
  have sameO : ∀ {fs : List Frame} {es es' : List Entry} {sp : Span} {d d' : Option (List Char)} {os : List Opened},
      FrameShape os (.object es sp d :: fs) → FrameShape os (.object es' sp d' :: fs) := by
    intro fs es es' sp d d' os h
    generalize hfs : Frame.object es sp d :: fs = fs' at h
    induction h with
    | object h => cases hfs; exact .object h
    | done h _ ih => exact .done (ih hfs) (by simp)
    | _ => cases hfs
  cases k <;> simp only [nestStep, Option.some.injEq] at hs
  case documentStart => subst hs; exact h
  case documentEnd => subst hs; exact h
  case comment => subst hs; exact h
  case panic => subst hs; exact h
  case error => subst hs; exact h
  case objectStart => subst hs; exact .object h
  case sequenceStart => subst hs; exact .sequence h
  case tagStart => subst hs; exact .tag h
  case scalar => subst hs; exact h.push
  case unit => subst hs; exact h.push
  case objectEnd =>
    have := frames_close hs
    subst this
    generalize hst : b.stack = st at h
    cases h with
    | object h =>
      simp only [Builder.event, hst]
      split
      · rename_i hr
        rw [List.isEmpty_iff] at hr
        rw [hr] at h; exact h
      · exact h.push
  case sequenceEnd =>
    have := frames_close hs
    subst this
    generalize hst : b.stack = st at h
    cases h with
    | sequence h =>
      simp only [Builder.event, hst]
      exact h.push
  case entryEnd =>
    have := frames_close hs
    subst this
    generalize hst : b.stack = st at h
    cases h with
    | entry h =>
      rename_i fs k d
      simp only [Builder.event, hst]
      cases k with
      | none => exact h
      | some k =>
        simp only
        split
        · exact sameO h
        · exact h
  case tagEnd =>
    have := frames_close hs
    subst this
    simp only [Builder.event]
    split
    · rename_i name sp' rest heq
      rw [heq] at h
      cases h with
      | tag h => exact h.push
      | done h hn => exact absurd rfl (hn name sp' rest)
    · rename_i hn
      generalize hst : b.stack = st at h hn
      cases h with
      | tag h => exact absurd rfl (hn _ _ _)
      | done h _ => exact h
  case entryStart =>
    subst hs
    simp only [Builder.event]
    split
    · rename_i heq
      rw [heq] at h
      exact .entry (sameO h)
    · exact .entry h
  case key =>
    subst hs
    simp only [Builder.event]
    split
    · rename_i heq
      rw [heq] at h
      exact same h
    · exact h
  case docComment =>
    subst hs
    simp only [Builder.event]
    split
    · rename_i heq
      rw [heq] at h
      exact sameO h
    · exact h

theorem FrameShape.run {os os' : List Opened} {b : Builder} {evs : List Event} (h : FrameShape os b.stack)
    (hs : nest os evs = some os') : FrameShape os' (b.run evs).stack := by
  induction evs generalizing os b with
  | nil => cases hs; exact h
  | cons e es ih =>
    rw [nest] at hs
    cases h1 : nestStep os e.kind with
    | none => rw [h1] at hs; cases hs
    | some os1 =>
      rw [h1] at hs
      exact ih (h.event h1) hs

theorem frames_nil {fs : List Frame} (h : FrameShape [] fs) : fs = [] := by
  cases h; rfl

theorem frames_tags {os : List Opened} (h : FrameShape os []) : ∀ o ∈ os, o = .tag := by
  generalize hfs : ([] : List Frame) = fs at h
  induction h with
  | nil => simp
  | done h _ ih =>
    intro o ho
    rcases List.mem_cons.1 ho with rfl | ho
    · rfl
    · exact ih hfs o ho
  | _ => cases hfs

end Styx
