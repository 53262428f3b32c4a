import Verif.Parse.AtomInv
import Verif.Parse.EscOffsets

/-!
# Invariants of the events: spans, panics and the adjacency of tag payloads
-/

namespace Styx

open Spec

/-- The source contains an escaped backslash or a unicode escape. -/
def HasEsc (s : List Char) : Prop := ['\\', '\\'] <:+: s ∨ ['\\', 'u'] <:+: s

/-- The source contains what can make the parser panic. -/
def HasPanic (s : List Char) : Prop := CutEscape s ∨
  (∃ n raw v, '@' :: n ++ '"' :: raw ++ ['"'] <:+: s ∧ Escaped raw v ∧ CutEscape v) ∨ List.replicate 256 '#' <:+: s

/-- A good event. -/
def EvGood (s : List Char) (e : Event) : Prop :=
  (SpanOK s e.span ∨ ((∃ seq, e.kind = .error (.invalidEscape seq)) ∧ HasEsc s)) ∧
  (e.kind = .panic → HasPanic s) ∧
  ∀ t p k, e.kind = .key (some t) (some p) k → ∃ text, HasText s e.span ('@' :: t ++ text) ∧
    (k = .bare → text = p) ∧ (k = .quoted → ∃ raw, text = '"' :: raw ++ ['"'] ∧ Escaped raw p) ∧
    (k = .raw → RawFor text p ∨ ManyHashes s) ∧ (k = .heredoc → HeredocFor text p)

/-- Kinds of events about which nothing but the span is claimed. -/
def plainKind : EventKind → Bool
  | .tagStart _ | .panic | .key (some _) (some _) _ => false
  | _ => true

/-- Events other than errors (and panics). -/
def isReal (e : Event) : Bool :=
  match e.kind with
  | .error _ | .panic => false
  | _ => true

/-- What may follow a tag start: the end of the tag, or an event at the byte after the name, or the
next tag of a chain after a `/`. -/
def AdjTo (s : List Char) (sp : Span) (name : List Char) (e : Event) : Prop :=
  e.kind = .tagEnd ∨ e.span.start = sp.start + 1 + utf8Len name ∨
  (e.span.start = sp.start + 2 + utf8Len name ∧ (∃ n, e.kind = .tagStart n) ∧
    HasText s ⟨sp.start + 1 + utf8Len name, sp.start + 2 + utf8Len name⟩ ['/'])

/-- Every tag start is followed, errors aside, by an adjacent event or the tag's end. -/
def Adj (s : List Char) (evs : List Event) : Prop :=
  ∀ pre sp name post, evs = pre ++ ⟨sp, .tagStart name⟩ :: post →
    ∃ e, post.find? isReal = some e ∧ AdjTo s sp name e

/-- Good lists of events. -/
def Good (s : List Char) (evs : List Event) : Prop := (∀ e ∈ evs, EvGood s e) ∧ Adj s evs

theorem Adj.append {s : List Char} {a b : List Event} (ha : Adj s a) (hb : Adj s b) : Adj s (a ++ b) := by
  intro pre sp name post h
  rcases List.append_eq_append_iff.mp h with ⟨x, h1, h2⟩ | ⟨x, h1, h2⟩
  · exact hb x sp name post h2
  · cases x with
    | nil =>
      simp only [List.nil_append] at h2
      exact hb [] sp name post h2.symm
    | cons y ys =>
      simp only [List.cons_append, List.cons.injEq] at h2
      obtain ⟨rfl, rfl⟩ := h2
      obtain ⟨e, h3, h4⟩ := ha pre sp name ys h1
      exact ⟨e, by rw [List.find?_append, h3]; rfl, h4⟩

theorem adj_of_no_tag {s : List Char} {evs : List Event} (h : ∀ e ∈ evs, ∀ n, e.kind ≠ .tagStart n) :
    Adj s evs := by
  intro pre sp name post h2
  exact absurd rfl (h ⟨sp, .tagStart name⟩ (by simp [h2]) name)

theorem Good.append {s : List Char} {a b : List Event} (ha : Good s a) (hb : Good s b) :
    Good s (a ++ b) := by
  refine ⟨?_, ha.2.append hb.2⟩
  intro e he
  rcases List.mem_append.mp he with h | h
  · exact ha.1 e h
  · exact hb.1 e h

theorem good_nil {s : List Char} : Good s [] := ⟨by simp, adj_of_no_tag (by simp)⟩

theorem evGood_plain {s : List Char} {sp : Span} {k : EventKind} (h : SpanOK s sp)
    (h1 : plainKind k = true) : EvGood s ⟨sp, k⟩ := by
  refine ⟨Or.inl h, ?_, ?_⟩
  · rintro rfl; cases h1
  · rintro t p k rfl; cases h1

/-- A single event with a good span about which nothing else is claimed. -/
theorem good_one {s : List Char} {sp : Span} {k : EventKind} (h : SpanOK s sp)
    (h1 : plainKind k = true) : Good s [⟨sp, k⟩] := by
  refine ⟨by simpa using evGood_plain h h1, adj_of_no_tag ?_⟩
  simp only [List.mem_singleton, forall_eq]
  rintro n rfl; cases h1

theorem Good.cons {s : List Char} {sp : Span} {k : EventKind} {evs : List Event} (h : SpanOK s sp)
    (hg : Good s evs) (h1 : plainKind k = true := by rfl) :
    Good s (⟨sp, k⟩ :: evs) := (good_one h h1).append hg

theorem good_map {s : List Char} {α : Type} {l : List α} {f : α → Span} {k : α → ParseErrorKind}
    (h : ∀ x ∈ l, SpanOK s (f x)) : Good s (l.map fun x => errEv (f x) (k x)) := by
  induction l with
  | nil => exact good_nil
  | cons x xs ih =>
    exact Good.cons (h x (by simp)) (ih fun y hy => h y (by simp [hy]))

theorem EvsOK.good {s : List Char} {evs : List Event} (h : EvsOK s evs) : Good s evs := by
  induction evs with
  | nil => exact good_nil
  | cons e es ih =>
    have h1 := h e (by simp)
    refine Good.cons h1.1 (ih fun x hx => h x (by simp [hx])) ?_
    cases hk : e.kind <;> rw [hk] at h1 <;> first | rfl | cases h1.2

theorem HasText.isInfix {s : List Char} {sp : Span} {t : List Char} (h : HasText s sp t) : t <:+: s := by
  obtain ⟨a, b, h, _⟩ := h; exact ⟨a, b, h.symm⟩

theorem inner_text {s : List Char} {sp : Span} {raw : List Char}
    (h : HasText s sp ('"' :: raw ++ ['"'])) : HasText s ⟨sp.start + 1, sp.stop - 1⟩ raw := by
  have e : '"'.utf8Size = 1 := rfl
  obtain ⟨a, b, h1, h2, h3⟩ := h
  refine ⟨a ++ ['"'], '"' :: b, by simp [h1], by simp [h2, e], ?_⟩
  simp only [utf8Len_append, utf8Len_cons, utf8Len_nil, e] at h3 ⊢
  omega

theorem mem_escErr {base : Nat} {text : List Char} {e : Event} (h : e ∈ escErrEvents base text) :
    (∃ off seq, .bad off seq ∈ validateEscapes text ∧
      e = errEv ⟨base + off, base + off + utf8Len seq⟩ (.invalidEscape seq)) ∨
    (.panic ∈ validateEscapes text ∧ e = ⟨⟨base, base⟩, .panic⟩) := by
  unfold escErrEvents at h
  obtain ⟨x, hx, rfl⟩ := List.mem_map.mp h
  cases x with
  | bad off seq => exact Or.inl ⟨off, seq, hx, rfl⟩
  | panic => exact Or.inr ⟨hx, rfl⟩

theorem escErr_noTag {base : Nat} {text : List Char} :
    ∀ e ∈ escErrEvents base text, ∀ n, e.kind ≠ .tagStart n := by
  intro e he n
  rcases mem_escErr he with ⟨_, _, _, rfl⟩ | ⟨_, rfl⟩ <;> simp [errEv]

theorem escErr_notReal {base : Nat} {text : List Char} :
    ∀ e ∈ escErrEvents base text, isReal e = false := by
  intro e he
  rcases mem_escErr he with ⟨_, _, _, rfl⟩ | ⟨_, rfl⟩ <;> rfl

/-- Escape errors of a quoted text are reported at their place in the source. -/
theorem escErr_raw {s : List Char} {sp : Span} {raw : List Char}
    (h : HasText s sp ('"' :: raw ++ ['"'])) : Good s (escErrEvents (sp.start + 1) raw) := by
  have hi := inner_text h
  refine ⟨?_, adj_of_no_tag escErr_noTag⟩
  intro e he
  rcases mem_escErr he with ⟨off, seq, h1, rfl⟩ | ⟨h1, rfl⟩
  · refine ⟨Or.inl ?_, by simp [errEv], by simp [errEv]⟩
    obtain ⟨a, b, h2, h3⟩ := validateEscapes_offsets h1
    obtain ⟨x, y, h4, h5, h6⟩ := hi
    have : HasText s ⟨sp.start + 1 + off, sp.start + 1 + off + utf8Len seq⟩ seq := by
      refine ⟨x ++ a, b ++ y, by simp [h4, h2], ?_, ?_⟩
      · simp only [utf8Len_append] at *; omega
      · simp only [utf8Len_append] at *; omega
    exact this.spanOK
  · exact ⟨Or.inl ⟨Nat.le_refl _, hi.spanOK.2.1, hi.spanOK.2.1⟩,
      fun _ => Or.inl ((validateEscapes_panic h1).mono hi.isInfix), by simp⟩

/-- Escape errors of a decoded text need an escaped backslash in the source. -/
theorem escErr_decoded {s : List Char} {sp sp' : Span} {n raw v : List Char}
    (h : HasText s sp ('"' :: raw ++ ['"'])) (ht : HasText s sp' ('@' :: n ++ '"' :: raw ++ ['"'])) (he : Escaped raw v) :
    Good s (escErrEvents sp.start v) := by
  have hi := inner_text h
  refine ⟨?_, adj_of_no_tag escErr_noTag⟩
  intro e hm
  rcases mem_escErr hm with ⟨off, seq, h1, rfl⟩ | ⟨h1, rfl⟩
  · refine ⟨Or.inr ⟨⟨seq, rfl⟩, ?_⟩, by simp [errEv], by simp [errEv]⟩
    have hb : '\\' ∈ v := by
      by_cases hv : '\\' ∈ v
      · exact hv
      · rw [validateEscapes_plain hv] at h1; cases h1
    rcases escaped_backslash he hb with h2 | h2
    · exact Or.inl (h2.trans hi.isInfix)
    · exact Or.inr (h2.trans hi.isInfix)
  · exact ⟨Or.inl ⟨Nat.le_refl _, h.spanOK.2.1, h.spanOK.2.1⟩,
      fun _ => Or.inr (.inl ⟨n, raw, v, ht.isInfix, he, validateEscapes_panic h1⟩), by simp⟩

theorem good_panic {s : List Char} {sp : Span} (h : LexOK s (.panic sp)) : Good s [⟨sp, .panic⟩] := by
  refine ⟨?_, adj_of_no_tag (by simp)⟩
  simp only [List.mem_singleton, forall_eq]
  obtain ⟨h1, a, b, h2⟩ := h
  exact ⟨Or.inl h1, fun _ => Or.inr (.inr ⟨a, b, h2.symm⟩), by simp⟩

theorem good_if {s : List Char} {c : Prop} [Decidable c] {a b : List Event} (ha : c → Good s a)
    (hb : ¬ c → Good s b) : Good s (if c then a else b) := by
  split
  · exact ha ‹_›
  · exact hb ‹_›

theorem errSpan_ok {s : List Char} {sp : Span} {e : Option Span} (h : SpanOK s sp)
    (he : ∀ x, e = some x → SpanOK s x) : SpanOK s (e.getD sp) := by
  cases e with
  | none => exact h
  | some x => exact he x rfl

theorem spanOK_text {s : List Char} {sp : Span} (h : SpanOK s sp) : ∃ t, HasText s sp t := by
  obtain ⟨h1, ⟨a, b, h2, h3⟩, ⟨c, d, h4, h5⟩⟩ := h
  have : ∀ (a c b d : List Char), a ++ b = c ++ d → utf8Len a ≤ utf8Len c → ∃ t, c = a ++ t := by
    intro a
    induction a with
    | nil => intro c b d _ _; exact ⟨c, rfl⟩
    | cons x a ih =>
      intro c b d he hl
      cases c with
      | nil => simp at hl; have := x.utf8Size_pos; omega
      | cons y c =>
        simp only [List.cons_append, List.cons.injEq] at he
        obtain ⟨rfl, he⟩ := he
        obtain ⟨t, rfl⟩ := ih c b d he (by simp at hl; omega)
        exact ⟨t, rfl⟩
  obtain ⟨t, rfl⟩ := this a c b d (by rw [← h2, ← h4]) (by omega)
  exact ⟨t, a, d, h4, h3.symm, by rw [← h5]; simp⟩

theorem emitKey_good {s : List Char} {a : Atom} (h : AtomGood s a) : Good s (emitKey a) := by
  cases a with
  | scalar sp v k => exact good_one h.1 rfl
  | unit sp => exact good_one h rfl
  | tag sp name payload invalid errSpan =>
    obtain ⟨h1, h2, h3, h4, _⟩ := h
    unfold emitKey
    refine Good.append (good_if (fun _ => good_one (errSpan_ok h1 h2) rfl) fun _ => good_nil) ?_
    cases payload with
    | none => exact good_one h1 rfl
    | some p =>
      obtain ⟨g1, g3, g2⟩ := h4
      cases p with
      | scalar sp' v k =>
        have hst : sp'.start = sp.start + 1 + utf8Len name := by
          rcases g2 with g | ⟨_, _, _, _, _, _, _, g⟩
          · exact g
          · cases g
        have hsp : sp'.stop = sp.stop := g3
        have join : ∀ x, HasText s sp' x → HasText s sp ('@' :: name ++ x) := by
          intro x hx
          have := h3.join (sp' := sp') hst.symm hx
          rwa [show (⟨sp.start, sp'.stop⟩ : Span) = sp by rw [hsp]] at this
        refine Good.append (good_if (fun hk => ?_) fun _ => good_nil) ?_
        · subst hk
          obtain ⟨raw, r1, r2⟩ := g1.2.2.1 rfl
          exact escErr_decoded r1 (by simpa using join _ r1) r2
        · refine ⟨?_, adj_of_no_tag (by simp)⟩
          simp only [List.mem_singleton, forall_eq]
          refine ⟨Or.inl h1, by simp, ?_⟩
          simp only [EventKind.key.injEq, Option.some.injEq]
          rintro t p k' ⟨rfl, rfl, rfl⟩
          obtain ⟨x, hx⟩ := spanOK_text g1.1
          by_cases hb : k = .bare
          · refine ⟨v, join v (g1.2.1 hb), fun _ => rfl, ?_⟩
            rw [hb]; simp
          · by_cases hq : k = .quoted
            · obtain ⟨raw, r1, r2⟩ := g1.2.2.1 hq
              exact ⟨_, join _ r1, fun h => absurd h hb, fun _ => ⟨raw, rfl, r2⟩, by rw [hq]; simp, by rw [hq]; simp⟩
            · by_cases hr : k = .raw
              · rcases g1.2.2.2.1 hr with ⟨y, y1, y2⟩ | hm
                · exact ⟨y, join y y1, fun h => absurd h hb, fun h => absurd h hq, fun _ => .inl y2,
                    by rw [hr]; simp⟩
                · exact ⟨x, join x hx, fun h => absurd h hb, fun h => absurd h hq, fun _ => .inr hm,
                    by rw [hr]; simp⟩
              · by_cases hh : k = .heredoc
                · obtain ⟨y, y1, y2⟩ := g1.2.2.2.2 hh
                  exact ⟨y, join y y1, fun h => absurd h hb, fun h => absurd h hq, fun h => absurd h hr,
                    fun _ => y2⟩
                · exact ⟨x, join x hx, fun h => absurd h hb, fun h => absurd h hq, fun h => absurd h hr,
                    fun h => absurd h hh⟩
      | unit sp' => exact good_one h1 rfl
      | panic sp' => exact good_panic g1
      | tag => exact good_one g1.spanOK rfl
      | object => exact good_one g1.spanOK rfl
      | sequence => exact good_one g1.spanOK rfl
      | attributes => exact good_one g1.spanOK rfl
      | invalidEscapeScalar => exact good_one g1.spanOK rfl
      | error => exact good_one g1.spanOK rfl
  | invalidEscapeScalar sp raw =>
    exact (escErr_raw h.1).append (good_one h.1.spanOK rfl)
  | error sp m => exact good_one h rfl
  | panic sp => exact good_panic h
  | object => exact good_one h.1 rfl
  | sequence => exact good_one h.1 rfl
  | attributes => exact good_one h.1 rfl

/-- The first event of an emitted value, errors aside, starts where the atom does. -/
theorem emitValue_first {a : Atom} {e : Event} (h : (emitValue a).find? isReal = some e) :
    e.span.start = a.span.start ∧ ((∃ sp n p i x, a = .tag sp n p i x) → ∃ n, e.kind = .tagStart n) := by
  cases a with
  | scalar sp v k => simp [emitValue, isReal] at h; subst h; simp [Atom.span]
  | unit sp => simp [emitValue, isReal] at h; subst h; simp [Atom.span]
  | tag sp name payload invalid errSpan =>
    rw [emitValue, List.append_assoc, List.find?_append] at h
    have : (if invalid then [errEv (errSpan.getD sp) ParseErrorKind.invalidTagName] else []).find? isReal = none := by
      split <;> rfl
    rw [this] at h
    simp [isReal] at h
    subst h
    exact ⟨rfl, fun _ => ⟨_, rfl⟩⟩
  | object => simp [emitValue, isReal] at h; subst h; simp [Atom.span]
  | sequence => simp [emitValue, isReal] at h; subst h; simp [Atom.span]
  | attributes => simp [emitValue, isReal] at h; subst h; simp [Atom.span]
  | invalidEscapeScalar sp raw =>
    rw [emitValue, List.find?_append] at h
    have : (escErrEvents (sp.start + 1) raw).find? isReal = none := by
      rw [List.find?_eq_none]
      intro e he
      simp [escErr_notReal e he]
    rw [this] at h
    simp [isReal] at h
    subst h
    simp [Atom.span]
  | error => simp [emitValue, isReal, errEv] at h
  | panic => simp [emitValue, isReal] at h

/-- Events of the doc comment of an entry. -/
def docEvents : Option (Span × List (List Char)) → List Event
  | some (sp, lines) => [⟨sp, .docComment lines⟩]
  | none => []

/-- Events at the end of an entry. -/
def endEvents (value : Atom) : Option Span → List Event
  | some sp => [errEv sp .tooManyAtoms, ⟨sp, .entryEnd⟩]
  | none => [⟨value.span, .entryEnd⟩]

theorem emitEntries_cons (key value : Atom) (doc : Option (Span × List (List Char)))
    (tooMany : Option Span) (rest : List ObjEntry) :
    emitEntries (.mk key value doc tooMany :: rest) =
      docEvents doc ++ ⟨key.span, .entryStart⟩ :: (emitKey key ++ (emitValue value ++
        (endEvents value tooMany ++ emitEntries rest))) := by
  cases doc <;> cases tooMany <;> simp [emitEntries, docEvents, endEvents]

mutual
theorem emitValue_good {s : List Char} : ∀ {a : Atom}, AtomGood s a → Good s (emitValue a)
  | .scalar sp v k, h => good_one h.1 rfl
  | .unit sp, h => good_one h rfl
  | .tag sp name payload invalid errSpan, h => by
    obtain ⟨h1, h2, h3, h4, _⟩ := h
    rw [emitValue, List.append_assoc]
    refine Good.append (good_if (fun _ => good_one (errSpan_ok h1 h2) rfl) fun _ => good_nil) ?_
    have hp := emitPayload_good h4
    have hrest : Good s (emitPayload payload ++ [⟨sp, .tagEnd⟩]) :=
      hp.append (good_one h1 rfl)
    refine ⟨?_, ?_⟩
    · rw [List.cons_append]
      intro e he
      rcases List.mem_cons.mp he with rfl | he
      · exact ⟨Or.inl h1, by simp, by simp⟩
      · exact hrest.1 e he
    · intro pre sp' name' post heq
      rw [List.cons_append] at heq
      cases pre with
      | cons x pre =>
        simp only [List.cons_append, List.cons.injEq] at heq
        exact hrest.2 pre sp' name' post heq.2
      | nil =>
        simp only [List.nil_append, List.cons.injEq, Event.mk.injEq, EventKind.tagStart.injEq] at heq
        obtain ⟨⟨rfl, rfl⟩, rfl⟩ := heq
        cases payload with
        | none => exact ⟨_, rfl, Or.inl rfl⟩
        | some p =>
          rw [emitPayload, List.find?_append]
          cases hf : (emitValue p).find? isReal with
          | none => exact ⟨_, rfl, Or.inl rfl⟩
          | some e =>
            obtain ⟨f1, f2⟩ := emitValue_first hf
            refine ⟨e, rfl, Or.inr ?_⟩
            rcases h4.2.2 with g | ⟨g, g', g''⟩
            · exact Or.inl (f1.trans g)
            · exact Or.inr ⟨f1.trans g, f2 g'', g'⟩
  | .object sp entries dups dangling unclosed, h => by
    obtain ⟨h1, h2, h3, h4, _⟩ := h
    rw [emitValue]
    refine Good.append (Good.append (Good.append (Good.append (Good.cons h1 ?_) ?_) ?_) ?_) ?_
    · exact good_if (fun _ => good_one h1 rfl) fun _ => good_nil
    · exact good_map fun x hx => (h3 x hx).2
    · exact good_map h4
    · exact emitEntries_good h2
    · exact good_one h1 rfl
  | .sequence sp elems unclosed commas, h => by
    obtain ⟨h1, h2, h3⟩ := h
    rw [emitValue]
    refine Good.append (Good.append (Good.append (Good.cons h1 ?_) ?_) ?_) ?_
    · exact good_if (fun _ => good_one h1 rfl) fun _ => good_nil
    · exact good_map h3
    · exact emitElems_good h2
    · exact good_one h1 rfl
  | .attributes sp attrs, h => by
    rw [emitValue]
    exact Good.append (Good.cons h.1 (emitAttrs_good h.2.1)) (good_one h.1 rfl)
  | .invalidEscapeScalar sp raw, h => by
    rw [emitValue]
    exact (escErr_raw h.1).append (good_one h.1.spanOK rfl)
  | .error sp m, h => by rw [emitValue]; exact good_one h rfl
  | .panic sp, h => by rw [emitValue]; exact good_panic h

theorem emitPayload_good {s : List Char} {sp : Span} {name : List Char} :
    ∀ {a : Option Atom}, PayloadGood s sp name a → Good s (emitPayload a)
  | none, _ => good_nil
  | some a, h => by rw [emitPayload]; exact emitValue_good h.1

theorem emitEntries_good {s : List Char} : ∀ {es : List ObjEntry}, EntriesGood s es → Good s (emitEntries es)
  | [], _ => good_nil
  | .mk key value doc tooMany :: rest, h => by
    obtain ⟨h1, h2, h3, h4, h5⟩ := h
    rw [emitEntries_cons]
    refine Good.append ?_ (Good.cons h1.spanOK ((emitKey_good h1).append ((emitValue_good h2).append
      (Good.append ?_ (emitEntries_good h5)))))
    · cases doc with
      | none => exact good_nil
      | some d => exact good_one (h3 d rfl) rfl
    · cases tooMany with
      | none => exact good_one h2.spanOK rfl
      | some d => exact Good.cons (h4 d rfl) (good_one (h4 d rfl) rfl)

theorem emitElems_good {s : List Char} : ∀ {es : List Atom}, ElemsGood s es → Good s (emitElems es)
  | [], _ => good_nil
  | a :: rest, h => by
    rw [emitElems]
    exact (emitValue_good h.1).append (emitElems_good h.2)

theorem emitAttrs_good {s : List Char} : ∀ {es : List AttrEntry}, AttrsGood s es → Good s (emitAttrs es)
  | [], _ => good_nil
  | .mk key ks value :: rest, h => by
    obtain ⟨h1, h2, h3⟩ := h
    rw [emitAttrs]
    exact Good.cons h1.spanOK (Good.cons h1.spanOK ((emitValue_good h2).append
      (Good.cons h2.spanOK (emitAttrs_good h3))))
end

theorem entryValueEvents_good {s : List Char} {sp : Span} {rest : List Atom} (h : SpanOK s sp)
    (hr : ElemsGood s rest) : Good s (entryValueEvents sp rest) := by
  cases rest with
  | nil => exact good_one h rfl
  | cons v r => exact emitValue_good hr.1

theorem tooManyEvents_good {s : List Char} {rest : List Atom} (hr : ElemsGood s rest) :
    Good s (tooManyEvents rest) := by
  unfold tooManyEvents
  split
  · exact good_one hr.2.1.spanOK rfl
  · exact good_nil

theorem getLastD_good {s : List Char} {key : Atom} {rest : List Atom} (hk : AtomGood s key)
    (hr : ElemsGood s rest) : AtomGood s ((key :: rest).getLastD key) := by
  rw [elemsGood_iff] at hr
  have : (key :: rest).getLastD key ∈ key :: rest := by
    rw [List.getLastD_eq_getLast?, List.getLast?_eq_some_getLast (by simp)]
    exact List.getLast_mem _
  rcases List.mem_cons.mp this with h | h
  · rw [h]; exact hk
  · exact hr _ h

theorem emitSimpleEntry_good {s : List Char} {key : Atom} {rest : List Atom} (hk : AtomGood s key)
    (hr : ElemsGood s rest) : Good s (emitSimpleEntry key rest) := by
  unfold emitSimpleEntry
  exact (((Good.cons hk.spanOK (emitKey_good hk)).append (entryValueEvents_good hk.spanOK hr)).append
    (tooManyEvents_good hr)).append (good_one (getLastD_good hk hr).spanOK rfl)

/-- The segments of a dotted key joined by dots. -/
def joinDots : List (List Char) → List Char
  | [] => []
  | [seg] => seg
  | seg :: segs => seg ++ '.' :: joinDots segs

theorem splitDots_ne (t : List Char) : splitDots t ≠ [] := by
  cases t with
  | nil => simp [splitDots]
  | cons c cs =>
    simp only [splitDots]
    split
    · simp
    · split <;> simp

theorem joinDots_split (t : List Char) : joinDots (splitDots t) = t := by
  induction t with
  | nil => rfl
  | cons c cs ih =>
    simp only [splitDots]
    cases h : splitDots cs with
    | nil => exact absurd h (splitDots_ne cs)
    | cons a b =>
      rw [h] at ih
      split
      · rename_i hc
        subst hc
        simp [joinDots, ih]
      · cases b <;> simp_all [joinDots]

theorem utf8_dot : '.'.utf8Size = 1 := rfl

theorem dottedOpen_good {s : List Char} {segs : List (List Char)} {sp : Span}
    (h : HasText s sp (joinDots segs)) : Good s (dottedOpen sp.start segs) := by
  induction segs generalizing sp with
  | nil => exact good_nil
  | cons seg segs ih =>
    cases segs with
    | nil =>
      have h1 : HasText s ⟨sp.start, sp.start + utf8Len seg⟩ seg := by
        have := h.len
        simp only [joinDots] at this h
        rw [← this]; exact h
      exact Good.cons h1.spanOK (Good.cons h1.spanOK good_nil)
    | cons seg2 segs2 =>
      have hj : joinDots (seg :: seg2 :: segs2) = seg ++ (['.'] ++ joinDots (seg2 :: segs2)) := by
        simp [joinDots]
      rw [hj] at h
      have h1 := h.left
      have h2 := ih h.right.right
      simp only [utf8Len_cons, utf8Len_nil, utf8_dot] at h2
      exact Good.cons h1.spanOK (Good.cons h1.spanOK (Good.cons h1.spanOK h2))

theorem dottedClose_good {s : List Char} {sp : Span} (h : SpanOK s sp) (n : Nat) :
    Good s (dottedClose sp n) := by
  fun_induction dottedClose sp n with
  | case1 => exact good_nil
  | case2 => exact good_one h rfl
  | case3 n ih => exact Good.cons h (Good.cons h ih)

theorem pathErr_good {s : List Char} {sp : Span} (h : SpanOK s sp) (e : Option PathError) :
    Good s (pathErrEvents sp e) := by
  unfold pathErrEvents
  split
  · exact good_nil
  all_goals exact good_one h rfl

theorem emitDotted_good {s : List Char} {text : List Char} {sp : Span} {rest : List Atom}
    (path : Option PathState) (ht : HasText s sp text) (hr : ElemsGood s rest) :
    Good s (emitDotted text sp rest path).1 := by
  have hok := ht.spanOK
  unfold emitDotted
  simp only
  split
  · exact Good.cons hok (Good.cons hok (Good.cons hok good_nil))
  · have hopen : Good s (dottedOpen sp.start (splitDots text)) := by
      apply dottedOpen_good
      rw [joinDots_split]; exact ht
    refine Good.append (Good.append (Good.append (Good.append ?_ hopen) (entryValueEvents_good hok hr))
      (tooManyEvents_good hr)) (dottedClose_good hok _)
    cases path with
    | none => exact good_nil
    | some st => exact pathErr_good hok _

theorem takeWhile_dropWhile_text {s : List Char} {sp : Span} {t : List Char} (h : HasText s sp t) :
    SpanOK s ⟨sp.start, sp.start + (if (t.takeWhile (· != '\n')).length < t.length then
      utf8Len (t.takeWhile (· != '\n')) + 1 else utf8Len t)⟩ := by
  split
  · rename_i hlt
    have hsp := List.takeWhile_append_dropWhile (p := (· != '\n')) (l := t)
    cases hd : t.dropWhile (· != '\n') with
    | nil =>
      rw [hd, List.append_nil] at hsp
      rw [hsp] at hlt; omega
    | cons c r =>
      have hc : c = '\n' := by simpa using dropWhile_head hd
      subst hc
      rw [hd] at hsp
      rw [← hsp, show t.takeWhile (· != '\n') ++ '\n' :: r = (t.takeWhile (· != '\n') ++ ['\n']) ++ r by simp] at h
      have := h.left.spanOK
      have e : '\n'.utf8Size = 1 := rfl
      simpa [e] using this
  · have := h.len
    rw [← this]; exact h.spanOK

theorem emitEntryAtRoot_good {s : List Char} {key : Atom} {rest : List Atom} (path : PathState)
    (hk : AtomGood s key) (hr : ElemsGood s rest) : Good s (emitEntryAtRoot s key rest path).1 := by
  have hok := hk.spanOK
  unfold emitEntryAtRoot
  simp only
  split
  · split
    · exact emitDotted_good _ (hk.2.1 rfl) hr
    · exact (pathErr_good hok _).append (emitSimpleEntry_good hk hr)
  · refine Good.append (Good.append ?_ (pathErr_good hok _)) (emitSimpleEntry_good hk hr)
    split
    · rename_i sp v
      obtain ⟨t, ht⟩ := spanOK_text hk.1
      unfold heredocStartSpan
      rw [ht.slice]
      exact good_one (takeWhile_dropWhile_text ht) rfl
    · exact good_nil

theorem heredocKey_good {s : List Char} {key : Atom} : SpanOK s key.span →
    Good s (match key with
      | .scalar sp _ .heredoc => [errEv sp .invalidKey]
      | _ => []) := by
  intro hok
  cases key with
  | scalar sp v k =>
    cases k
    case heredoc => exact good_one hok rfl
    all_goals exact good_nil
  | _ => exact good_nil

theorem emitEntryInObject_good {s : List Char} {key : Atom} {rest : List Atom}
    (seen : List (KeyValue × Span)) (hk : AtomGood s key) (hr : ElemsGood s rest) :
    Good s (emitEntryInObject key rest seen).1 := by
  have hok := hk.spanOK
  have hpre := heredocKey_good hok
  unfold emitEntryInObject
  simp only
  split
  · split
    · exact emitDotted_good _ (hk.2.1 rfl) hr
    · split
      · exact hpre.append (Good.cons hok (emitSimpleEntry_good hk hr))
      · exact hpre.append (emitSimpleEntry_good hk hr)
  · split
    · exact hpre.append (Good.cons hok (emitSimpleEntry_good hk hr))
    · exact hpre.append (emitSimpleEntry_good hk hr)

theorem lastStop_ok {s : List Char} {p d : Nat} {ls : List Lexeme} (h : Chain s p ls) (hd : d ≤ p)
    (hb : Boundary s d) : d ≤ lastStop d ls ∧ Boundary s (lastStop d ls) := by
  induction ls generalizing p d with
  | nil => exact ⟨Nat.le_refl _, hb⟩
  | cons l ls ih =>
    have hsp := h.2.1.spanOK h.1
    obtain ⟨h1, h2⟩ := ih h.2.2.2.1 (Nat.le_refl _) hsp.2.2
    have := h.2.2.1; have := hsp.1
    exact ⟨by simp only [lastStop]; omega, h2⟩

theorem chain_panic {s : List Char} {p : Nat} {ls : List Lexeme} (h : Chain s p ls)
    (hp : ls.any (fun | .panic _ => true | _ => false) = true) : HasPanic s := by
  induction ls generalizing p with
  | nil => cases hp
  | cons l ls ih =>
    simp only [List.any_cons, Bool.or_eq_true] at hp
    rcases hp with hp | hp
    · cases l <;> simp only [Bool.false_eq_true] at hp
      obtain ⟨_, a, b, h2⟩ := h.2.1
      exact Or.inr (.inr ⟨a, b, h2.symm⟩)
    · exact ih h.2.2.2.1 hp

theorem checkTrailing_good {s : List Char} {ls : List Lexeme} {evs : List Event} {st : PState}
    {p : Nat} (hc : Chain s p ls) (h : checkTrailing ls = some (evs, st, [])) : Good s evs := by
  have main : ∀ l ls, Chain s p (l :: ls) →
      Good s ([errEv ⟨l.span.start, lastStop l.span.stop ls⟩ .trailingContent] ++
        (if ls.any (fun | .panic _ => true | _ => false) then [⟨l.span, .panic⟩] else [])) := by
    intro l ls hc
    have hsp := hc.2.1.spanOK hc.1
    obtain ⟨h1, h2⟩ := lastStop_ok hc.2.2.2.1 (Nat.le_refl _) hsp.2.2
    refine Good.cons ⟨by have := hsp.1; simp only; omega, hsp.2.1, h2⟩ (good_if (fun hp => ?_) fun _ => good_nil)
    refine ⟨?_, adj_of_no_tag (by simp)⟩
    simp only [List.mem_singleton, forall_eq]
    exact ⟨Or.inl hsp, fun _ => chain_panic hc.2.2.2.1 hp, by simp⟩
  induction ls generalizing p with
  | nil => simp only [checkTrailing, Option.some.injEq, Prod.mk.injEq] at h; rw [← h.1]; exact good_nil
  | cons l ls ih =>
    have ih' := ih hc.2.2.2.1
    have hm := main l ls hc
    have hmain := fun l' ls' hc' => main l' ls' (Chain.weaken (p := p) hc' (Nat.le_trans hc.2.2.1 (hc.2.1.spanOK hc.1).1))
    cases l <;> simp only [checkTrailing, Option.some.injEq, Prod.mk.injEq] at h
    case newline => exact ih' h hmain
    case comment => exact ih' h hmain
    case panic sp => rw [← h.1]; exact good_panic hc.2.1
    all_goals (rw [← h.1]; exact hm)

theorem implicitStart_good {s : List Char} (b : Bool) : Good s (implicitStart b) :=
  good_if (fun _ => good_nil) fun _ => good_one ⟨Nat.le_refl _, boundary_zero s, boundary_zero s⟩ rfl

theorem danglingEv_good {s : List Char} {doc : Option Span} (h : ∀ d, doc = some d → SpanOK s d) :
    Good s (danglingEv doc) := by
  cases doc with
  | none => exact good_nil
  | some d => exact good_one (h d rfl) rfl

/-- Spans held by a parser state. -/
def PState.good (s : List Char) : PState → Prop
  | .documentRoot doc _ _ => ∀ d, doc = some d → SpanOK s d
  | .inObject start _ doc => SpanOK s start ∧ ∀ d, doc = some d → SpanOK s d
  | _ => True

theorem restGood {s : List Char} {first : Atom} {only : Bool} {ls : List Lexeme} {rest : List Atom}
    {evs : List Event} {ls' : List Lexeme} (h : RestR s first only ls rest evs ls') :
    ∀ {p : Nat}, Chain s p ls → ElemsGood s rest ∧ EvsOK s evs ∧ ∃ q, Chain s q ls' := by
  refine RestR.rec
    (motive_1 := fun _ _ _ _ _ _ => True) (motive_2 := fun _ _ _ _ _ _ _ _ _ _ => True)
    (motive_3 := fun _ _ _ _ _ _ _ _ => True) (motive_4 := fun _ _ _ _ _ => True)
    (motive_5 := fun _ _ _ _ _ _ _ => True)
    (motive_6 := fun first only ls rest evs ls' _ => ∀ {p : Nat}, Chain s p ls →
      ElemsGood s rest ∧ EvsOK s evs ∧ ∃ q, Chain s q ls')
    ?leaf ?unit ?unitBare ?tag ?tagPayload ?tagDot ?object ?sequence ?attrs
    ?oeof ?oclose ?oskip ?odoc ?oentry ?seof ?sclose ?sskip ?scomma ?selem ?astop ?aattr ?cmk
    ?rstop ?rcomment ?rdoc ?rmore h
  case rstop => intro first only ls _ p hc; exact ⟨trivial, evsOK_nil, p, hc⟩
  case rcomment =>
    intro first only sp text ls p hc
    have hsp := hc.2.1.spanOK hc.1
    refine ⟨trivial, ?_, sp.stop, hc.2.2.2.1⟩
    intro e he
    simp only [List.mem_singleton] at he
    subst he
    exact ⟨hsp, rfl⟩
  case rdoc =>
    intro first only sp text ls p hc
    have hsp := hc.2.1.spanOK hc.1
    refine ⟨trivial, ?_, sp.stop, hc.2.2.2.1⟩
    intro e he
    simp only [List.mem_singleton] at he
    subst he
    exact ⟨hsp, rfl⟩
  case rmore =>
    intro first only l ls a evs ls' rest evs' ls'' _ ha _ _ ih2 p hc
    obtain ⟨i1, i2, i3, i4, q, i5, i6⟩ := atomGood ha p (l :: ls) rfl hc
    obtain ⟨j1, j2, q', j4⟩ := ih2 i6
    have hsp := hc.2.1.spanOK hc.1
    refine ⟨⟨i1, j1⟩, (EvsOK.append ?_ i2).append j2, q', j4⟩
    intro e he
    unfold missingSpace at he
    split at he <;> try split at he
    all_goals first
      | cases he; done
      | (simp only [List.mem_singleton] at he; subst he; exact ⟨hsp, rfl⟩)
  all_goals (intros; trivial)

theorem collectGood {s : List Char} {l : Lexeme} {ls : List Lexeme} {key : Atom} {rest : List Atom}
    {evs : List Event} {ls' : List Lexeme} (h : CollectR s l ls key rest evs ls') {p : Nat}
    (hc : Chain s p (l :: ls)) :
    AtomGood s key ∧ ElemsGood s rest ∧ EvsOK s evs ∧ ∃ q, Chain s q ls' := by
  cases h with
  | mk h1 h2 =>
    obtain ⟨g1, g2, _, _, q, _, g3⟩ := atomGood h1 p _ rfl hc
    obtain ⟨r1, r2, r3⟩ := restGood h2 g3
    exact ⟨g1, r1, g2.append r2, r3⟩

theorem run_good {s : List Char} {st : PState} {ls : List Lexeme} {evs : List Event}
    (h : RunR s st ls evs) : ∀ p, Chain s p ls → st.good s → Good s evs := by
  have hend : SpanOK s ⟨utf8Len s, utf8Len s⟩ := ⟨Nat.le_refl _, boundary_end s, boundary_end s⟩
  have hz : SpanOK s ⟨0, 0⟩ := ⟨Nat.le_refl _, boundary_zero s, boundary_zero s⟩
  induction h with
  | start _ ih => intro p hc _; exact Good.cons hz (ih p hc (by intro d hd; cases hd))
  | rootEof =>
    intro p hc hg
    exact ((danglingEv_good hg).append (good_if (fun _ => good_one hz rfl) fun _ => good_nil)).append
      (good_one hend rfl)
  | rootSkip _ _ ih => intro p hc hg; exact ih _ hc.2.2.2.1 hg
  | rootComment _ ih => intro p hc hg; exact Good.cons (hc.2.1.spanOK hc.1) (ih _ hc.2.2.2.1 hg)
  | rootDoc _ ih =>
    intro p hc hg
    exact (implicitStart_good _).append (Good.cons (hc.2.1.spanOK hc.1)
      (ih _ hc.2.2.2.1 (by rintro d ⟨⟩; exact hc.2.1.spanOK hc.1)))
  | rootBrace _ ih =>
    intro p hc hg
    exact Good.cons (hc.2.1.spanOK hc.1) (ih _ hc.2.2.2.1 ⟨hc.2.1.spanOK hc.1, by intro d hd; cases hd⟩)
  | rootEntry _ hcol _ ih =>
    intro p hc hg
    obtain ⟨g1, g2, g3, q, g4⟩ := collectGood hcol hc
    exact (((implicitStart_good _).append g3.good).append (emitEntryAtRoot_good _ g1 g2)).append
      (ih _ g4 (by intro d hd; cases hd))
  | objEof =>
    intro p hc hg
    exact (danglingEv_good hg.2).append (Good.cons hg.1 (Good.cons hg.1 (good_one hend rfl)))
  | objClose _ ih =>
    intro p hc hg
    exact ((Good.cons (hc.2.1.spanOK hc.1) (danglingEv_good hg.2)).append
      (good_one hend rfl)).append (ih _ hc.2.2.2.1 trivial)
  | objSkip _ _ ih => intro p hc hg; exact ih _ hc.2.2.2.1 hg
  | objComment _ ih => intro p hc hg; exact Good.cons (hc.2.1.spanOK hc.1) (ih _ hc.2.2.2.1 hg)
  | objDoc _ ih =>
    intro p hc hg
    exact Good.cons (hc.2.1.spanOK hc.1) (ih _ hc.2.2.2.1 ⟨hg.1, by rintro d ⟨⟩; exact hc.2.1.spanOK hc.1⟩)
  | objEntry _ hcol _ ih =>
    intro p hc hg
    obtain ⟨g1, g2, g3, q, g4⟩ := collectGood hcol hc
    exact (g3.good.append (emitEntryInObject_good _ g1 g2)).append
      (ih _ g4 ⟨hg.1, by intro d hd; cases hd⟩)
  | after h => intro p hc _; exact checkTrailing_good hc h
  | exprEnd => intro p hc _; exact good_nil
  | exprSkip _ _ ih => intro p hc hg; exact ih _ hc.2.2.2.1 hg
  | expr _ ha =>
    intro p hc _
    obtain ⟨g1, g2, _⟩ := atomGood ha p _ rfl hc
    exact g2.good.append (emitValue_good g1)

theorem parseEvents_good (s : List Char) : ∃ evs, parseEvents s = some evs ∧ Good s evs := by
  obtain ⟨evs, h1, h2⟩ := parseEvents_run s
  exact ⟨evs, h1, run_good h2 0 (lex_chain s) trivial⟩

theorem parseExprEvents_good (s : List Char) : ∃ evs, parseExprEvents s = some evs ∧ Good s evs := by
  obtain ⟨evs, h1, h2⟩ := parseExprEvents_run s
  exact ⟨evs, h1, run_good h2 0 (lex_chain s) trivial⟩

end Styx
