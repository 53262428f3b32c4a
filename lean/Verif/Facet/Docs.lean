import Verif.Facet.Read

/-! # Doc comments in the events of the parser: each is followed by the entry it belongs to -/

namespace Styx.Facet

open Styx Styx.Spec

theorem AfterDoc.append {a b : List EventKind} (h : AfterDoc a) : AfterDoc (a ++ b) := by
  obtain ⟨cs, post, rfl, h2⟩ := h
  exact ⟨cs, post ++ b, by simp, h2⟩

theorem AfterDoc.prepend {a b : List EventKind} (ha : IsComments a) (h : AfterDoc b) : AfterDoc (a ++ b) := by
  obtain ⟨cs, post, rfl, h2⟩ := h
  refine ⟨a ++ cs, post, by simp, ?_⟩
  intro c hc
  rcases List.mem_append.1 hc with hc | hc
  · exact ha c hc
  · exact h2 c hc

theorem docOK_none {ks : List EventKind} (h : ∀ ls, .docComment ls ∉ ks) : DocOK ks := by
  intro pre ls post e
  exact absurd (by rw [e]; simp) (h ls)

theorem DocOK.append {a b : List EventKind} (ha : DocOK a) (hb : DocOK b) : DocOK (a ++ b) := by
  intro pre ls post h
  rcases List.append_eq_append_iff.mp h with ⟨c, h1, h2⟩ | ⟨c, h1, h2⟩
  · exact hb _ _ _ h2
  · cases c with
    | nil => exact hb [] ls post (by simpa using h2.symm)
    | cons x c =>
      simp only [List.cons_append, List.cons.injEq] at h2
      obtain ⟨rfl, rfl⟩ := h2
      obtain ⟨h3, h4⟩ := ha pre ls c h1
      exact ⟨h3, h4.append⟩

theorem DocOK.cons {k : EventKind} {ks : List EventKind} (hk : ∀ ls, k ≠ .docComment ls) (h : DocOK ks) :
    DocOK (k :: ks) :=
  DocOK.append (a := [k]) (docOK_none (by intro ls; simpa using Ne.symm (hk ls))) h

/-- Comments before something that starts with an entry after comments. -/
theorem docOK_comments {cs ks : List EventKind} (hc : IsComments cs)
    (hl : ∀ ls, .docComment ls ∈ cs → ls ≠ []) (ha : AfterDoc ks) (h : DocOK ks) : DocOK (cs ++ ks) := by
  induction cs with
  | nil => exact h
  | cons c cs ih =>
    have ih' := ih (fun x hx => hc x (by simp [hx])) (fun ls hx => hl ls (by simp [hx]))
    rcases hc c (by simp) with ⟨t, rfl⟩ | ⟨ls, rfl⟩
    · exact DocOK.cons (by simp) ih'
    · intro pre ls' post e
      cases pre with
      | nil =>
        simp only [List.nil_append, List.cons_append, List.cons.injEq, EventKind.docComment.injEq] at e
        obtain ⟨rfl, rfl⟩ := e
        exact ⟨hl ls (by simp), AfterDoc.prepend (fun x hx => hc x (by simp [hx])) ha⟩
      | cons x pre =>
        simp only [List.cons_append, List.cons.injEq] at e
        exact ih' pre ls' post e.2

/-- No doc comment among the events. -/
def NoDoc (evs : List Event) : Prop := ∀ e ∈ evs, ∀ ls, e.kind ≠ .docComment ls

theorem NoDoc.ok {evs : List Event} (h : NoDoc evs) : DocOK (kinds evs) := by
  refine docOK_none fun ls hm => ?_
  obtain ⟨e, he, hk⟩ := List.mem_map.1 hm
  exact h e he ls hk

theorem noDoc_nil : NoDoc [] := by intro e he; cases he
theorem NoDoc.append {a b : List Event} (ha : NoDoc a) (hb : NoDoc b) : NoDoc (a ++ b) := by
  intro e he
  rcases List.mem_append.1 he with h | h
  · exact ha e h
  · exact hb e h
theorem noDoc_one {e : Event} (h : ∀ ls, e.kind ≠ .docComment ls) : NoDoc [e] := by
  intro x hx; simp only [List.mem_singleton] at hx; subst hx; exact h

theorem escErr_noDoc (base : Nat) (text : List Char) : NoDoc (escErrEvents base text) := by
  intro e he ls hk
  obtain ⟨x, hx, rfl⟩ := List.mem_map.1 he
  cases x <;> cases hk

theorem emitKey_noDoc (a : Atom) : NoDoc (emitKey a) := by
  cases a with
  | tag sp name payload invalid errSpan =>
    unfold emitKey
    refine NoDoc.append ?_ ?_
    · split
      · exact noDoc_one (by simp [errEv])
      · exact noDoc_nil
    · split
      · exact noDoc_one (by simp)
      · refine NoDoc.append ?_ (noDoc_one (by simp))
        split
        · exact escErr_noDoc _ _
        · exact noDoc_nil
      · exact noDoc_one (by simp)
      · exact noDoc_one (by simp)
      · exact noDoc_one (by simp [errEv])
  | invalidEscapeScalar sp raw => exact (escErr_noDoc _ _).append (noDoc_one (by simp))
  | _ => exact noDoc_one (by simp [errEv])

theorem map_noDoc {α : Type} (l : List α) (f : α → Span) (k : α → ParseErrorKind) :
    NoDoc (l.map fun d => errEv (f d) (k d)) := by
  intro e he ls hk
  obtain ⟨x, hx, rfl⟩ := List.mem_map.1 he
  cases hk

theorem ite_noDoc {c : Prop} [Decidable c] {a : List Event} (h : NoDoc a) : NoDoc (if c then a else []) := by
  split
  · exact h
  · exact noDoc_nil

theorem kdoc_append {a b : List Event} (ha : DocOK (kinds a)) (hb : DocOK (kinds b)) : DocOK (kinds (a ++ b)) := by
  rw [kinds_append]; exact ha.append hb

theorem kdoc_cons {e : Event} {b : List Event} (hk : ∀ ls, e.kind ≠ .docComment ls) (hb : DocOK (kinds b)) :
    DocOK (kinds (e :: b)) := DocOK.cons hk hb

theorem objIte_noDoc (b : Bool) (sp : Span) (k : ParseErrorKind) :
    NoDoc (if b = true then [errEv sp k] else []) := ite_noDoc (noDoc_one (by simp [errEv]))

/-- The value's events are fine. -/
def GoodAtom (a : Atom) : Prop := DocOK (kinds (emitValue a))
/-- The entry's events are fine. -/
def GoodEntry (e : ObjEntry) : Prop := DocOK (kinds (emitEntries [e]))

theorem emitEntries_cons (e : ObjEntry) (es : List ObjEntry) : emitEntries (e :: es) = emitEntries [e] ++ emitEntries es := by
  obtain ⟨k, v, d, t⟩ := e
  simp [emitEntries]

theorem goodEntries {es : List ObjEntry} (h : ∀ e ∈ es, GoodEntry e) : DocOK (kinds (emitEntries es)) := by
  induction es with
  | nil => exact NoDoc.ok noDoc_nil
  | cons e es ih =>
    rw [emitEntries_cons]
    exact kdoc_append (h e (by simp)) (ih fun x hx => h x (by simp [hx]))

theorem goodElems {es : List Atom} (h : ∀ e ∈ es, GoodAtom e) : DocOK (kinds (emitElems es)) := by
  induction es with
  | nil => exact NoDoc.ok noDoc_nil
  | cons e es ih =>
    rw [emitElems]
    exact kdoc_append (h e (by simp)) (ih fun x hx => h x (by simp [hx]))

theorem goodObject {sp : Span} {entries : List ObjEntry} {dups : List (Span × Span)} {dangling : List Span}
    {u : Bool} (h : ∀ e ∈ entries, GoodEntry e) : GoodAtom (.object sp entries dups dangling u) := by
  unfold GoodAtom
  simp only [emitValue]
  refine kdoc_append (kdoc_append (NoDoc.ok ?_) (goodEntries h)) (NoDoc.ok (noDoc_one (by simp)))
  refine NoDoc.append (NoDoc.append (NoDoc.append (a := [_]) (noDoc_one (by simp)) ?_) ?_) ?_
  · exact objIte_noDoc _ _ _
  · exact map_noDoc _ (fun d : Span × Span => d.2) (fun d => .duplicateKey d.1)
  · exact map_noDoc _ (fun d : Span => d) (fun _ => .danglingDocComment)

theorem goodSequence {sp : Span} {elems : List Atom} {u : Bool} {commas : List Span}
    (h : ∀ e ∈ elems, GoodAtom e) : GoodAtom (.sequence sp elems u commas) := by
  unfold GoodAtom
  simp only [emitValue]
  refine kdoc_append (kdoc_append (NoDoc.ok ?_) (goodElems h)) (NoDoc.ok (noDoc_one (by simp)))
  refine NoDoc.append (NoDoc.append (a := [_]) (noDoc_one (by simp)) ?_) ?_
  · exact objIte_noDoc _ _ _
  · exact map_noDoc _ (fun d : Span => d) (fun _ => .commaInSequence)

theorem goodEntry {key value : Atom} {docs : List (Span × List Char)} {t : Option Span} (hv : GoodAtom value) :
    GoodEntry (.mk key value (combineDocs docs) t) := by
  unfold GoodEntry
  simp only [emitEntries, List.append_nil]
  have hrest : DocOK (kinds (⟨key.span, .entryStart⟩ :: emitKey key ++ emitValue value ++
      (match t with
        | some sp => [errEv sp .tooManyAtoms, ⟨sp, .entryEnd⟩]
        | none => [⟨value.span, .entryEnd⟩]))) := by
    refine kdoc_append (kdoc_append (kdoc_cons (by simp) (emitKey_noDoc key).ok) hv) (NoDoc.ok ?_)
    split
    · exact NoDoc.append (a := [_]) (noDoc_one (by simp [errEv])) (noDoc_one (by simp))
    · exact noDoc_one (by simp)
  cases docs with
  | nil => exact hrest
  | cons d ds =>
    simp only [combineDocs]
    refine docOK_comments (cs := [.docComment _]) ?_ ?_ ?_ hrest
    · intro c hc; simp only [List.mem_singleton] at hc; subst hc; exact .inr ⟨_, rfl⟩
    · intro ls hl
      simp only [List.mem_singleton, EventKind.docComment.injEq] at hl
      subst hl; simp
    · exact ⟨[], _, rfl, isComments_nil⟩

theorem goodTag {sp : Span} {n : List Char} {p : Option Atom} {i : Bool} {e : Option Span}
    (h : ∀ a, p = some a → GoodAtom a) : GoodAtom (.tag sp n p i e) := by
  unfold GoodAtom
  simp only [emitValue]
  refine kdoc_append (kdoc_append (NoDoc.ok (ite_noDoc (noDoc_one (by simp [errEv])))) (kdoc_cons (by simp) ?_))
    (NoDoc.ok (noDoc_one (by simp)))
  cases p with
  | none => exact NoDoc.ok noDoc_nil
  | some a => exact h a rfl

theorem goodChain (c : List (List Char × Span)) (t : Option Atom) (h : ∀ a, t = some a → GoodAtom a) :
    GoodAtom (buildTagChain c t) := by
  induction c with
  | nil => exact NoDoc.ok (noDoc_one (by simp))
  | cons x c ih =>
    obtain ⟨n, sp⟩ := x
    cases c with
    | nil => exact goodTag h
    | cons y c =>
      rw [buildTagChain]
      · exact goodTag (by intro a ha; cases ha; exact ih)
      · simp

theorem goodAttrs {as : List AttrEntry} (h : ∀ a ∈ as, ∀ k sp v, a = .mk k sp v → GoodAtom v) :
    DocOK (kinds (emitAttrs as)) := by
  induction as with
  | nil => exact NoDoc.ok noDoc_nil
  | cons a as ih =>
    obtain ⟨k, sp, v⟩ := a
    rw [emitAttrs]
    refine kdoc_append (kdoc_cons (by simp) (kdoc_cons (by simp) (h _ (by simp) k sp v rfl))) (kdoc_cons (by simp) ?_)
    exact ih fun x hx => h x (by simp [hx])

/-- Doc comments have lines. -/
def DocLinesNe (evs : List Event) : Prop := ∀ e ∈ evs, ∀ ls, e.kind = .docComment ls → ls ≠ []

theorem NoDoc.lines {evs : List Event} (h : NoDoc evs) : DocLinesNe evs := fun e he ls hk => absurd hk (h e he ls)

theorem DocLinesNe.append {a b : List Event} (ha : DocLinesNe a) (hb : DocLinesNe b) : DocLinesNe (a ++ b) := by
  intro e he
  rcases List.mem_append.1 he with h | h
  · exact ha e h
  · exact hb e h

theorem missingSpace_noDoc (first : Atom) (only : Bool) (l : Lexeme) : NoDoc (missingSpace first only l) := by
  unfold missingSpace
  split
  · exact ite_noDoc (noDoc_one (by simp))
  · exact ite_noDoc (noDoc_one (by simp))
  · exact noDoc_nil

theorem entryValue_good {key : Atom} {rest : List Atom} (h : ∀ a ∈ rest, GoodAtom a) :
    GoodAtom (entryValue key rest).1 := by
  match rest with
  | [] => exact NoDoc.ok (noDoc_one (by simp))
  | [v] => exact h v (by simp)
  | v :: x :: _ => exact h v (by simp)

theorem atom_docs {s : List Char} {l : Lexeme} {ls : List Lexeme} {key : Atom} {rest : List Atom}
    {evs : List Event} {ls' : List Lexeme} (h : CollectR s l ls key rest evs ls') :
    GoodAtom key ∧ (∀ a ∈ rest, GoodAtom a) ∧ DocLinesNe evs := by
  refine CollectR.rec
    (motive_1 := fun _ _ a evs _ _ => GoodAtom a ∧ DocLinesNe evs)
    (motive_2 := fun _ entries _ _ _ _ a evs _ _ => (∀ e ∈ entries, GoodEntry e) → GoodAtom a ∧ DocLinesNe evs)
    (motive_3 := fun _ elems _ _ a evs _ _ => (∀ e ∈ elems, GoodAtom e) → GoodAtom a ∧ DocLinesNe evs)
    (motive_4 := fun _ as evs _ _ => (∀ a ∈ as, ∀ k sp v, a = AttrEntry.mk k sp v → GoodAtom v) ∧ DocLinesNe evs)
    (motive_5 := fun _ _ key rest evs _ _ => GoodAtom key ∧ (∀ a ∈ rest, GoodAtom a) ∧ DocLinesNe evs)
    (motive_6 := fun _ _ _ rest evs _ _ => (∀ a ∈ rest, GoodAtom a) ∧ DocLinesNe evs)
    ?leaf ?unit ?unitBare ?tag ?tagPayload ?tagDot ?object ?sequence ?attrs
    ?oeof ?oclose ?oskip ?odoc ?oentry ?seof ?sclose ?sskip ?scomma ?selem ?astop ?aattr ?cmk
    ?rstop ?rcomment ?rdoc ?rmore h
  case leaf =>
    intro l ls a hl
    refine ⟨?_, noDoc_nil.lines⟩
    cases l <;> simp only [leafAtom, reduceCtorEq, Option.some.injEq] at hl
    all_goals try (subst hl; exact NoDoc.ok (noDoc_one (by simp [errEv])))
    split at hl
    · split at hl
      · cases hl
        exact NoDoc.ok ((escErr_noDoc _ _).append (noDoc_one (by simp)))
      · cases hl; exact NoDoc.ok (noDoc_one (by simp))
    · cases hl; exact NoDoc.ok (noDoc_one (by simp [errEv]))
  case unit => intros; exact ⟨NoDoc.ok (noDoc_one (by simp)), noDoc_nil.lines⟩
  case unitBare =>
    intros
    exact ⟨goodTag (by intro a ha; cases ha; exact NoDoc.ok (noDoc_one (by simp))), noDoc_nil.lines⟩
  case tag => intros; exact ⟨goodChain _ _ (by simp), noDoc_nil.lines⟩
  case tagPayload =>
    intros
    rename_i ih
    exact ⟨goodChain _ _ (by intro a ha; cases ha; exact ih.1), ih.2⟩
  case tagDot => intros; exact ⟨goodTag (by simp), noDoc_nil.lines⟩
  case object => intro sp ls a evs ls' _ ih; exact ih (by simp)
  case sequence => intro sp ls a evs ls' _ ih; exact ih (by simp)
  case attrs =>
    intro sp ks key ls nxt ls' v evs ls'' attrs evs' ls''' _ _ _ ih1 ih2
    refine ⟨?_, ih1.2.append ih2.2⟩
    unfold GoodAtom
    simp only [emitValue]
    refine kdoc_append (kdoc_cons (by simp) (goodAttrs ?_)) (NoDoc.ok (noDoc_one (by simp)))
    intro a ha k sp v' hv
    rcases List.mem_cons.1 ha with rfl | ha
    · cases hv; exact ih1.1
    · exact ih2.1 a ha k sp v' hv
  case oeof =>
    intro start entries seen dups docs he
    refine ⟨?_, noDoc_nil.lines⟩
    exact goodObject (by intro e h; exact he e (by simpa using h))
  case oclose =>
    intro start entries seen dups docs sp ls he
    refine ⟨?_, noDoc_nil.lines⟩
    exact goodObject (by intro e h; exact he e (by simpa using h))
  case oskip => intros; rename_i ih he; exact ih he
  case odoc => intros; rename_i ih he; exact ih he
  case oentry =>
    intro start entries seen dups docs l ls key rest evs ls' a evs' ls'' _ _ _ ih1 ih2 he
    have := ih2 (by
      intro e h
      rcases List.mem_cons.1 h with rfl | h
      · exact goodEntry (entryValue_good ih1.2.1)
      · exact he e h)
    exact ⟨this.1, ih1.2.2.append this.2⟩
  case seof =>
    intro start elems commas he
    refine ⟨?_, noDoc_nil.lines⟩
    exact goodSequence (by intro e h; exact he e (by simpa using h))
  case sclose =>
    intro start elems commas sp ls he
    refine ⟨?_, noDoc_nil.lines⟩
    exact goodSequence (by intro e h; exact he e (by simpa using h))
  case sskip => intros; rename_i ih he; exact ih he
  case scomma => intros; rename_i ih he; exact ih he
  case selem =>
    intro start elems commas l ls e evs ls' a evs' ls'' _ _ _ ih1 ih2 he
    have := ih2 (by
      intro x h
      rcases List.mem_cons.1 h with rfl | h
      · exact ih1.1
      · exact he x h)
    exact ⟨this.1, ih1.2.append this.2⟩
  case astop => intros; exact ⟨by simp, noDoc_nil.lines⟩
  case aattr =>
    intro sp ks key ls nxt ls' v evs ls'' attrs evs' ls''' _ _ _ ih1 ih2
    refine ⟨?_, ih1.2.append ih2.2⟩
    intro a ha k sp v' hv
    rcases List.mem_cons.1 ha with rfl | ha
    · cases hv; exact ih1.1
    · exact ih2.1 a ha k sp v' hv
  case cmk =>
    intro l ls a evs ls' rest evs' ls'' _ _ ih1 ih2
    exact ⟨ih1.1, ih2.1, ih1.2.append ih2.2⟩
  case rstop => intros; exact ⟨by simp, noDoc_nil.lines⟩
  case rcomment => intros; exact ⟨by simp, (noDoc_one (by simp)).lines⟩
  case rdoc =>
    intros
    refine ⟨by simp, ?_⟩
    intro e he ls hk
    simp only [List.mem_singleton] at he
    subst he
    simp only [EventKind.docComment.injEq] at hk
    subst hk
    simp
  case rmore =>
    intro first only l ls a evs ls' rest evs' ls'' _ _ _ ih1 ih2
    refine ⟨?_, ((missingSpace_noDoc _ _ _).lines.append ih1.2).append ih2.2⟩
    intro x hx
    rcases List.mem_cons.1 hx with rfl | hx
    · exact ih1.1
    · exact ih2.1 x hx

theorem entryValueEvents_docs {sp : Span} {rest : List Atom} (h : ∀ a ∈ rest, GoodAtom a) :
    DocOK (kinds (entryValueEvents sp rest)) := by
  cases rest with
  | nil => exact NoDoc.ok (noDoc_one (by simp))
  | cons a rest => exact h a (by simp)

theorem tooMany_noDoc (rest : List Atom) : NoDoc (tooManyEvents rest) := by
  unfold tooManyEvents
  split
  · exact noDoc_one (by simp [errEv])
  · exact noDoc_nil

theorem simple_docs {key : Atom} {rest : List Atom} (h : ∀ a ∈ rest, GoodAtom a) :
    DocOK (kinds (emitSimpleEntry key rest)) := by
  unfold emitSimpleEntry
  exact kdoc_append (kdoc_append (kdoc_append (kdoc_cons (by simp) (emitKey_noDoc key).ok)
    (entryValueEvents_docs h)) (tooMany_noDoc rest).ok) (NoDoc.ok (noDoc_one (by simp)))

theorem dottedOpen_noDoc (off : Nat) (segs : List (List Char)) : NoDoc (dottedOpen off segs) := by
  induction segs generalizing off with
  | nil => exact noDoc_nil
  | cons s segs ih =>
    have hi : NoDoc (if segs = [] then [] else [⟨⟨off, off + utf8Len s⟩, .objectStart⟩]) := by
      split
      · exact noDoc_nil
      · exact noDoc_one (by simp)
    unfold dottedOpen
    exact NoDoc.append (NoDoc.append (a := [_]) (noDoc_one (by simp))
      (NoDoc.append (a := [_]) (noDoc_one (by simp)) hi)) (ih _)

theorem dottedClose_noDoc (sp : Span) (n : Nat) : NoDoc (dottedClose sp n) := by
  induction n using dottedClose.induct with
  | case1 => exact noDoc_nil
  | case2 => exact noDoc_one (by simp)
  | case3 n ih =>
    exact NoDoc.append (a := [_]) (noDoc_one (by simp)) (NoDoc.append (a := [_]) (noDoc_one (by simp)) ih)

theorem pathErr_noDoc (sp : Span) (e : Option PathError) : NoDoc (pathErrEvents sp e) := by
  unfold pathErrEvents
  split
  · exact noDoc_nil
  all_goals exact noDoc_one (by simp [errEv])

theorem dotted_docs {text : List Char} {sp : Span} {rest : List Atom} {path : Option PathState}
    (h : ∀ a ∈ rest, GoodAtom a) : DocOK (kinds (emitDotted text sp rest path).1) := by
  unfold emitDotted
  simp only
  split
  · exact kdoc_cons (by simp [errEv]) (kdoc_cons (by simp) (kdoc_cons (by simp) (NoDoc.ok noDoc_nil)))
  · refine kdoc_append (kdoc_append (kdoc_append (kdoc_append ?_ (dottedOpen_noDoc _ _).ok)
      (entryValueEvents_docs h)) (tooMany_noDoc rest).ok) (dottedClose_noDoc _ _).ok
    cases path with
    | none => exact NoDoc.ok noDoc_nil
    | some st => exact (pathErr_noDoc _ _).ok

theorem root_docs {input : List Char} {key : Atom} {rest : List Atom} {path : PathState}
    (h : ∀ a ∈ rest, GoodAtom a) : DocOK (kinds (emitEntryAtRoot input key rest path).1) := by
  unfold emitEntryAtRoot
  simp only
  split
  · split
    · exact dotted_docs h
    · exact kdoc_append (pathErr_noDoc _ _).ok (simple_docs h)
  · refine kdoc_append (kdoc_append (NoDoc.ok ?_) (pathErr_noDoc _ _).ok) (simple_docs h)
    split
    · split
      · exact noDoc_one (by simp [errEv])
      · exact noDoc_one (by simp)
    · exact noDoc_nil

theorem inner_docs {key : Atom} {rest : List Atom} {seen : List (KeyValue × Span)}
    (h : ∀ a ∈ rest, GoodAtom a) : DocOK (kinds (emitEntryInObject key rest seen).1) := by
  have hs : ∀ pre : List Event, NoDoc pre →
      DocOK (kinds (match lookupKey (KeyValue.fromAtom key) seen with
        | some original => (pre ++ errEv key.span (.duplicateKey original) :: emitSimpleEntry key rest, seen)
        | none => (pre ++ emitSimpleEntry key rest, (KeyValue.fromAtom key, key.span) :: seen)).1) := by
    intro pre hp
    split
    · exact kdoc_append hp.ok (kdoc_cons (by simp [errEv]) (simple_docs h))
    · exact kdoc_append hp.ok (simple_docs h)
  unfold emitEntryInObject
  simp only
  split
  · split
    · exact dotted_docs h
    · exact hs [] noDoc_nil
  · refine hs _ ?_
    split
    · exact noDoc_one (by simp [errEv])
    · exact noDoc_nil

theorem entries_after {es : List EventKind} (h : IsEntries es) : IsComments es ∨ AfterDoc es := by
  match h with
  | .nil => exact .inl isComments_nil
  | .comment c h =>
    rcases entries_after h with ih | ih
    · left
      intro x hx
      rcases List.mem_cons.1 hx with rfl | hx
      · exact .inl ⟨_, rfl⟩
      · exact ih x hx
    · right
      exact AfterDoc.prepend (a := [_]) (by intro x hx; simp only [List.mem_singleton] at hx; subst hx; exact .inl ⟨_, rfl⟩) ih
  | .doc c h =>
    rcases entries_after h with ih | ih
    · left
      intro x hx
      rcases List.mem_cons.1 hx with rfl | hx
      · exact .inr ⟨_, rfl⟩
      · exact ih x hx
    · right
      exact AfterDoc.prepend (a := [_]) (by intro x hx; simp only [List.mem_singleton] at hx; subst hx; exact .inr ⟨_, rfl⟩) ih
  | .entry .. => exact .inr ⟨[], _, rfl, isComments_nil⟩

theorem entries_after' {es : List EventKind} (h : IsEntries es) (hm : .entryStart ∈ es) : AfterDoc es := by
  rcases entries_after h with h | h
  · rcases h _ hm with ⟨_, h⟩ | ⟨_, h⟩ <;> cases h
  · exact h

theorem simple_start (key : Atom) (rest : List Atom) : .entryStart ∈ kinds (emitSimpleEntry key rest) := by
  simp [emitSimpleEntry, kinds]

theorem dotted_start (text : List Char) (sp : Span) (rest : List Atom) (path : Option PathState) :
    .entryStart ∈ kinds (emitDotted text sp rest path).1 := by
  unfold emitDotted
  simp only
  split
  · simp [kinds]
  · have : .entryStart ∈ kinds (dottedOpen sp.start (splitDots text)) := by
      cases h : splitDots text with
      | nil => exact absurd h (splitDots_ne text)
      | cons a as => simp [dottedOpen, kinds]
    simp only [kinds_append, List.mem_append]
    exact .inl (.inl (.inl (.inr this)))

theorem root_start (input : List Char) (key : Atom) (rest : List Atom) (path : PathState) :
    .entryStart ∈ kinds (emitEntryAtRoot input key rest path).1 := by
  unfold emitEntryAtRoot
  simp only
  split
  · split
    · exact dotted_start _ _ _ _
    · rw [kinds_append]; exact List.mem_append_right _ (simple_start _ _)
  · rw [kinds_append]; exact List.mem_append_right _ (simple_start _ _)

theorem inner_start (key : Atom) (rest : List Atom) (seen : List (KeyValue × Span)) :
    .entryStart ∈ kinds (emitEntryInObject key rest seen).1 := by
  have hs : ∀ pre : List Event,
      .entryStart ∈ (kinds (match lookupKey (KeyValue.fromAtom key) seen with
        | some original => (pre ++ errEv key.span (.duplicateKey original) :: emitSimpleEntry key rest, seen)
        | none => (pre ++ emitSimpleEntry key rest, (KeyValue.fromAtom key, key.span) :: seen)).1) := by
    intro pre
    split
    · rw [kinds_append]; exact List.mem_append_right _ (List.mem_cons_of_mem _ (simple_start _ _))
    · rw [kinds_append]; exact List.mem_append_right _ (simple_start _ _)
  unfold emitEntryInObject
  simp only
  split
  · split
    · exact dotted_start _ _ _ _
    · exact hs []
  · exact hs _

/-- The doc comment the parser is holding, and whether it has opened the root object. -/
def pending : PState → Bool
  | .documentRoot (some _) _ _ => true
  | .inObject _ _ (some _) => true
  | _ => false

/-- A pending doc comment at the root means the root object has been opened. -/
def Held : PState → Prop
  | .documentRoot (some _) _ started => started = true
  | .beforeExpression => False
  | _ => True

theorem entry_docs {evs es : List Event} {more : List EventKind} (hq : Quiet evs) (hl : DocLinesNe evs)
    (hn : NoError evs) (h1 : IsEntries (kinds es)) (h2 : .entryStart ∈ kinds es) (h3 : DocOK (kinds es))
    (h4 : DocOK more) :
    DocOK (kinds evs ++ (kinds es ++ more)) ∧ AfterDoc (kinds evs ++ (kinds es ++ more)) := by
  have hc := quiet_clean hq hn
  have ha : AfterDoc (kinds es ++ more) := (entries_after' h1 h2).append
  refine ⟨docOK_comments hc ?_ ha (h3.append h4), AfterDoc.prepend hc ha⟩
  intro ls hm
  obtain ⟨e, he, hk⟩ := List.mem_map.1 hm
  exact hl e he ls hk

theorem doc_docs {l : List Char} {ks : List EventKind} (h : DocOK ks) (ha : AfterDoc ks) :
    DocOK (.docComment [l] :: ks) ∧ AfterDoc (.docComment [l] :: ks) := by
  have hc : IsComments [EventKind.docComment [l]] := by
    intro x hx; simp only [List.mem_singleton] at hx; subst hx; exact .inr ⟨_, rfl⟩
  refine ⟨docOK_comments (cs := [_]) hc ?_ ha h, AfterDoc.prepend (a := [_]) hc ha⟩
  intro ls hl
  simp only [List.mem_singleton, EventKind.docComment.injEq] at hl
  subst hl; simp

theorem comment_docs {l : List Char} {ks : List EventKind} {b : Prop} (h : DocOK ks ∧ (b → AfterDoc ks)) :
    DocOK (.comment l :: ks) ∧ (b → AfterDoc (.comment l :: ks)) := by
  refine ⟨DocOK.cons (by simp) h.1, fun hb => AfterDoc.prepend (a := [_]) ?_ (h.2 hb)⟩
  intro x hx; simp only [List.mem_singleton] at hx; subst hx; exact .inl ⟨_, rfl⟩

theorem run_docs {s : List Char} {st : PState} {ls : List Lexeme} {evs : List Event}
    (h : RunR s st ls evs) : Held st → NoError evs → nest (st.openIn []) evs = some [] →
    DocOK (kinds evs) ∧ (pending st = true → AfterDoc (kinds evs)) := by
  induction h with
  | start _ ih =>
    intro _ hn hb
    exact ⟨DocOK.cons (by simp) (ih trivial hn.tail hb).1, by simp [pending]⟩
  | rootEof =>
    intro hh hn hb
    rename_i doc path started
    cases doc with
    | some d => exact absurd (danglingEv_clean hn.left.left) (by simp [danglingEv])
    | none =>
      refine ⟨NoDoc.ok ?_, by simp [pending]⟩
      exact ((noDoc_nil).append (ite_noDoc (noDoc_one (by simp)))).append (noDoc_one (by simp))
  | rootSkip _ _ ih => exact ih
  | rootComment _ ih => intro hh hn hb; exact comment_docs (ih hh hn.tail hb)
  | rootDoc hr ih =>
    intro hh hn hb
    rename_i doc path started sp text ls more
    rw [nest_implicit] at hb
    have := ih rfl hn.right.tail hb
    obtain ⟨h1, h2⟩ := doc_docs (l := stripDoc text) this.1 (this.2 rfl)
    cases started with
    | true => exact ⟨h1, fun _ => h2⟩
    | false =>
      cases doc with
      | some d => cases hh
      | none => exact ⟨DocOK.cons (by simp) h1, by simp [pending]⟩
  | rootBrace hr ih =>
    intro hh hn hb
    rename_i doc path started sp ls more
    cases started with
    | true =>
      have := run_inObject hr [.object] (by simp) (by simp)
      have h3 : nest ((PState.documentRoot doc path true).openIn []) (⟨sp, .objectStart⟩ :: more)
        = nest ((PState.inObject sp [] none).openIn [.object]) more := rfl
      rw [h3, this] at hb
      cases hb
    | false =>
      cases doc with
      | some d => cases hh
      | none => exact ⟨DocOK.cons (by simp) (ih trivial hn.tail hb).1, by simp [pending]⟩
  | rootEntry _ hc hr ih =>
    intro hh hn hb
    rename_i doc path started l ls key rest evs ls' more _
    have hd := atom_docs hc
    rw [List.append_assoc, List.append_assoc, nest_implicit, nest_append,
      quiet_balanced (collect_quiet hc), Option.bind_some, nest_append, emitEntryAtRoot_balanced, Option.bind_some] at hb
    have := ih trivial hn.right hb
    have key := entry_docs (collect_quiet hc) hd.2.2 hn.left.left.right (emitEntryAtRoot_clean hn.left.right)
      (root_start _ _ _ _) (root_docs hd.2.1) this.1
    rw [List.append_assoc, List.append_assoc, kinds_append, kinds_append, kinds_append]
    cases started with
    | true => exact ⟨key.1, fun _ => key.2⟩
    | false =>
      cases doc with
      | some d => cases hh
      | none => exact ⟨DocOK.cons (by simp) key.1, by simp [pending]⟩
  | objEof => intro _ hn; exact (noErr_err hn.right).elim
  | objClose hr ih =>
    intro hh hn hb
    rename_i start seen doc sp ls more
    cases doc with
    | some d => exact absurd (danglingEv_clean hn.left.left.tail) (by simp [danglingEv])
    | none =>
      refine ⟨?_, by simp [pending]⟩
      have h1 : kinds more = [] := run_shape hr hn.right
      rw [kinds_append, h1]
      exact docOK_none (by simp [kinds, danglingEv])
  | objSkip _ _ ih => exact ih
  | objComment _ ih => intro hh hn hb; exact comment_docs (ih trivial hn.tail hb)
  | objDoc hr ih =>
    intro hh hn hb
    rename_i start seen doc sp text ls more
    have := ih trivial hn.tail hb
    obtain ⟨h1, h2⟩ := doc_docs (l := stripDoc text) this.1 (this.2 rfl)
    exact ⟨h1, fun _ => h2⟩
  | objEntry _ hc hr ih =>
    intro hh hn hb
    rename_i start seen doc l ls key rest evs ls' more _
    have hd := atom_docs hc
    rw [List.append_assoc, nest_append, quiet_balanced (collect_quiet hc), Option.bind_some, nest_append,
      emitEntryInObject_balanced, Option.bind_some] at hb
    have := ih trivial hn.right hb
    have key := entry_docs (collect_quiet hc) hd.2.2 hn.left.left (emitEntryInObject_clean hn.left.right)
      (inner_start _ _ _) (inner_docs hd.2.1) this.1
    rw [List.append_assoc, kinds_append, kinds_append]
    exact ⟨key.1, fun _ => key.2⟩
  | after h =>
    intro _ hn _
    rw [trailing_clean h hn]
    exact ⟨NoDoc.ok noDoc_nil, by simp [pending]⟩
  | exprEnd => intro hh; cases hh
  | exprSkip => intro hh; cases hh
  | expr => intro hh; cases hh

end Styx.Facet
