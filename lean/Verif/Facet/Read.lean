import Verif.Facet.Lemmas
import Verif.Parse.NestLemmas

/-! # The facet parser reads values as the tree has them -/

namespace Styx.Facet

open Styx Styx.Spec

/-- What has to follow a doc comment: comments, then an entry. -/
def AfterDoc (ks : List EventKind) : Prop := ∃ cs post, ks = cs ++ .entryStart :: post ∧ IsComments cs

/-- Every doc comment has lines, and an entry follows it. -/
def DocOK (ks : List EventKind) : Prop :=
  ∀ pre ls post, ks = pre ++ .docComment ls :: post → ls ≠ [] ∧ AfterDoc post

/-- The spans can be taken out of the source. -/
def SpansOK (S : Src) (evs : List Event) : Prop :=
  ∀ e ∈ evs, sliceBytes S.input e.span.start e.span.stop ≠ none

theorem DocOK.right {a b : List EventKind} (h : DocOK (a ++ b)) : DocOK b := by
  intro pre ls post e
  exact h (a ++ pre) ls post (by rw [e]; simp)

theorem DocOK.tail {a : EventKind} {b : List EventKind} (h : DocOK (a :: b)) : DocOK b :=
  DocOK.right (a := [a]) h

theorem AfterDoc.comment {t : List Char} {ks : List EventKind} (h : AfterDoc (.comment t :: ks)) : AfterDoc ks := by
  obtain ⟨cs, post, h1, h2⟩ := h
  cases cs with
  | nil => cases h1
  | cons c cs =>
    simp only [List.cons_append, List.cons.injEq] at h1
    exact ⟨cs, post, h1.2, fun x hx => h2 x (by simp [hx])⟩

theorem AfterDoc.first {k : EventKind} {ks : List EventKind} (h : AfterDoc (k :: ks)) :
    k = .entryStart ∨ (∃ t, k = .comment t) ∨ ∃ ls, k = .docComment ls := by
  obtain ⟨cs, post, h1, h2⟩ := h
  cases cs with
  | nil => simp only [List.nil_append, List.cons.injEq] at h1; exact .inl h1.1
  | cons c cs =>
    simp only [List.cons_append, List.cons.injEq] at h1
    rw [h1.1]
    exact .inr (h2 c (by simp))

theorem SpansOK.left {S : Src} {a b : List Event} (h : SpansOK S (a ++ b)) : SpansOK S a :=
  fun e he => h e (by simp [he])
theorem SpansOK.right {S : Src} {a b : List Event} (h : SpansOK S (a ++ b)) : SpansOK S b :=
  fun e he => h e (by simp [he])
theorem SpansOK.tail {S : Src} {a : Event} {b : List Event} (h : SpansOK S (a :: b)) : SpansOK S b :=
  fun e he => h e (by simp [he])

theorem docLines_more {l ls : List (List Char)} {d : Option (List Char)} (h : DocLines l d) (hl : ls ≠ []) :
    DocLines (l ++ ls) (continued d (joined ls)) := by
  have hj : ∀ (x : List Char) (xs : List (List Char)),
      joined ((x :: xs) ++ ls) = joined (x :: xs) ++ '\n' :: joined ls := by
    intro x xs
    induction xs generalizing x with
    | nil =>
      cases ls with
      | nil => exact absurd rfl hl
      | cons y ys => rfl
    | cons y ys ih =>
      have := ih y
      simp only [List.cons_append] at this ⊢
      show x ++ '\n' :: joined (y :: (ys ++ ls)) = (x ++ '\n' :: joined (y :: ys)) ++ '\n' :: joined ls
      rw [this]
      simp
  cases l with
  | nil =>
    simp only [DocLines] at h
    subst h
    cases ls with
    | nil => exact absurd rfl hl
    | cons x xs => rfl
  | cons x xs =>
    simp only [DocLines] at h
    subst h
    simp only [continued, List.cons_append, DocLines]
    rw [← hj, List.cons_append]

/-! ## `skip_schema_value` -/

mutual
theorem skip_value : ∀ {ks v}, ValueOf ks v → ∀ (evs r : List Event) (d : Int), 1 ≤ d → kinds evs = ks →
    skipSchema d (evs ++ r) = skipSchema d r
  | _, _, .scalar v k, evs, r, d, hd, hk => by
    obtain ⟨sp, e2, rfl, h2⟩ := kinds_uncons hk
    rw [kinds_empty h2]
    simp only [List.cons_append, List.nil_append, skipSchema]
    rw [if_neg (by omega)]
  | _, _, .unit, evs, r, d, hd, hk => by
    obtain ⟨sp, e2, rfl, h2⟩ := kinds_uncons hk
    rw [kinds_empty h2]
    simp only [List.cons_append, List.nil_append, skipSchema]
    rw [if_neg (by omega)]
  | _, _, .bareTag n, evs, r, d, hd, hk => by
    obtain ⟨sp, e2, rfl, h2⟩ := kinds_uncons hk
    obtain ⟨sp', e3, rfl, h3⟩ := kinds_uncons h2
    rw [kinds_empty h3]
    simp only [List.cons_append, List.nil_append, skipSchema]
  | _, _, .tag n (ks := ks) h, evs, r, d, hd, hk => by
    obtain ⟨sp, e2, rfl, h2⟩ := kinds_uncons (b := ks ++ [.tagEnd]) hk
    obtain ⟨e3, e4, rfl, h3, h4⟩ := kinds_split h2
    obtain ⟨sp', e5, rfl, h5⟩ := kinds_uncons h4
    rw [kinds_empty h5, List.cons_append, List.append_assoc, skipSchema]
    simp only
    rw [skip_value h e3 _ d hd h3]
    simp only [List.cons_append, List.nil_append, skipSchema]
  | _, _, .sequence (ks := ks) h, evs, r, d, hd, hk => by
    obtain ⟨sp, e2, rfl, h2⟩ := kinds_uncons (b := ks ++ [.sequenceEnd]) hk
    obtain ⟨e3, e4, rfl, h3, h4⟩ := kinds_split h2
    obtain ⟨sp', e5, rfl, h5⟩ := kinds_uncons h4
    rw [kinds_empty h5, List.cons_append, List.append_assoc, skipSchema]
    simp only
    rw [skip_values h e3 _ (d + 1) (by omega) h3]
    simp only [List.cons_append, List.nil_append, skipSchema]
    rw [if_neg (by omega), show d + 1 - 1 = d by omega]
  | _, _, .object (ks := ks) h, evs, r, d, hd, hk => by
    obtain ⟨sp, e2, rfl, h2⟩ := kinds_uncons (b := ks ++ [.objectEnd]) hk
    obtain ⟨e3, e4, rfl, h3, h4⟩ := kinds_split h2
    obtain ⟨sp', e5, rfl, h5⟩ := kinds_uncons h4
    rw [kinds_empty h5, List.cons_append, List.append_assoc, skipSchema]
    simp only
    rw [skip_entries h e3 _ (d + 1) (by omega) h3]
    simp only [List.cons_append, List.nil_append, skipSchema]
    rw [if_neg (by omega), show d + 1 - 1 = d by omega]

theorem skip_values : ∀ {ks vs}, ValuesOf ks vs → ∀ (evs r : List Event) (d : Int), 1 ≤ d → kinds evs = ks →
    skipSchema d (evs ++ r) = skipSchema d r
  | _, _, .nil, evs, r, d, hd, hk => by rw [kinds_empty hk]; rfl
  | _, _, .cons h1 h2, evs, r, d, hd, hk => by
    obtain ⟨e3, e4, rfl, h3, h4⟩ := kinds_split hk
    rw [List.append_assoc, skip_value h1 e3 _ d hd h3, skip_values h2 e4 _ d hd h4]

theorem skip_entries : ∀ {dd ks es}, EntriesOf dd ks es → ∀ (evs r : List Event) (d : Int), 1 ≤ d →
    kinds evs = ks → skipSchema d (evs ++ r) = skipSchema d r
  | _, _, _, .nil _, evs, r, d, hd, hk => by rw [kinds_empty hk]; rfl
  | _, _, _, .comment t h, evs, r, d, hd, hk => by
    obtain ⟨sp, e2, rfl, h2⟩ := kinds_uncons hk
    rw [List.cons_append, skipSchema]
    exact skip_entries h e2 r d hd h2
  | _, _, _, .doc ls h, evs, r, d, hd, hk => by
    obtain ⟨sp, e2, rfl, h2⟩ := kinds_uncons hk
    rw [List.cons_append, skipSchema]
    exact skip_entries h e2 r d hd h2
  | _, _, _, .entry t p k (kv := kv) (ks := ks) h1 h2, evs, r, d, hd, hk => by
    obtain ⟨sp, e2, rfl, h3⟩ := kinds_uncons (b := .key t p k :: kv ++ .entryEnd :: ks) hk
    obtain ⟨sp', e3, rfl, h4⟩ := kinds_uncons (b := kv ++ .entryEnd :: ks) h3
    obtain ⟨e5, e6, rfl, h5, h6⟩ := kinds_split h4
    obtain ⟨sp'', e7, rfl, h7⟩ := kinds_uncons h6
    rw [List.cons_append, List.cons_append, List.append_assoc, skipSchema]
    simp only
    rw [skipSchema]
    simp only
    rw [skip_value h1 e5 _ d hd h5, List.cons_append, skipSchema]
    simp only
    rw [if_neg (by omega)]
    exact skip_entries h2 e7 r d hd h7
end

/-- An event after a skipped value that gives nothing. -/
def Trailing (e : Event) : Prop := e.kind = .tagEnd ∨ e.kind = .entryEnd

theorem skip_schema : ∀ {ks v}, ValueOf ks v → ∀ (evs ts r : List Event), kinds evs = ks →
    (∀ e ∈ ts, Trailing e) → (∃ e ∈ ts, e.kind = .entryEnd) →
    ∃ ts', (∀ e ∈ ts', Trailing e) ∧ skipSchema 0 (evs ++ (ts ++ r)) = .ok (ts' ++ r)
  | _, _, .scalar v k, evs, ts, r, hk, ht, _ => by
    obtain ⟨sp, e2, rfl, h2⟩ := kinds_uncons hk
    rw [kinds_empty h2]
    exact ⟨ts, ht, rfl⟩
  | _, _, .unit, evs, ts, r, hk, ht, _ => by
    obtain ⟨sp, e2, rfl, h2⟩ := kinds_uncons hk
    rw [kinds_empty h2]
    exact ⟨ts, ht, rfl⟩
  | _, _, .bareTag n, evs, ts, r, hk, ht, he => by
    obtain ⟨sp, e2, rfl, h2⟩ := kinds_uncons hk
    obtain ⟨sp', e3, rfl, h3⟩ := kinds_uncons h2
    rw [kinds_empty h3]
    simp only [List.cons_append, List.nil_append, skipSchema]
    clear hk h2 h3
    induction ts with
    | nil => obtain ⟨e, he, _⟩ := he; cases he
    | cons t ts ih =>
      rw [List.cons_append, skipSchema]
      rcases ht t (by simp) with h | h
      · simp only [h]
        refine ih (fun e he => ht e (by simp [he])) ?_
        obtain ⟨e, he, hk⟩ := he
        rcases List.mem_cons.1 he with rfl | he
        · rw [hk] at h; cases h
        · exact ⟨e, he, hk⟩
      · simp only [h]
        exact ⟨ts, fun e he => ht e (by simp [he]), by simp⟩
  | _, _, .tag n (ks := ks) h, evs, ts, r, hk, ht, he => by
    obtain ⟨sp, e2, rfl, h2⟩ := kinds_uncons (b := ks ++ [.tagEnd]) hk
    obtain ⟨e3, e4, rfl, h3, h4⟩ := kinds_split h2
    obtain ⟨sp', e5, rfl, h5⟩ := kinds_uncons h4
    rw [kinds_empty h5, List.cons_append, List.append_assoc, skipSchema]
    simp only
    obtain ⟨ts', g1, g2⟩ := skip_schema h e3 (⟨sp', .tagEnd⟩ :: ts) r h3 (by
      intro e he
      rcases List.mem_cons.1 he with rfl | he
      · exact .inl rfl
      · exact ht e he) (by obtain ⟨e, he, hk⟩ := he; exact ⟨e, by simp [he], hk⟩)
    exact ⟨ts', g1, by rw [← g2]; simp⟩
  | _, _, .sequence (ks := ks) h, evs, ts, r, hk, ht, _ => by
    obtain ⟨sp, e2, rfl, h2⟩ := kinds_uncons (b := ks ++ [.sequenceEnd]) hk
    obtain ⟨e3, e4, rfl, h3, h4⟩ := kinds_split h2
    obtain ⟨sp', e5, rfl, h5⟩ := kinds_uncons h4
    rw [kinds_empty h5, List.cons_append, List.append_assoc, skipSchema]
    simp only
    rw [skip_values h e3 _ (0 + 1) (by omega) h3]
    exact ⟨ts, ht, rfl⟩
  | _, _, .object (ks := ks) h, evs, ts, r, hk, ht, _ => by
    obtain ⟨sp, e2, rfl, h2⟩ := kinds_uncons (b := ks ++ [.objectEnd]) hk
    obtain ⟨e3, e4, rfl, h3, h4⟩ := kinds_split h2
    obtain ⟨sp', e5, rfl, h5⟩ := kinds_uncons h4
    rw [kinds_empty h5, List.cons_append, List.append_assoc, skipSchema]
    simp only
    rw [skip_entries h e3 _ (0 + 1) (by omega) h3]
    exact ⟨ts, ht, rfl⟩

/-! ## Values and entries -/

/-- The state in which values are read: no event queued, no hint, no doc comment pending. -/
structure Calm (st : Core) : Prop where
  ready : Ready st
  hint : st.hint = none
  root : st.atRoot = true → 1 ≤ st.depth
  docs : DocOK (kinds st.rest)

theorem reads_trailing {S : Src} : ∀ (ts r : List Event) (st : Core), Ready st → st.tags = [] →
    (∀ e ∈ ts, Trailing e) → st.rest = ts ++ r → Reads S st [] { st with rest := r }
  | [], r, st, h, ht, hts, hr => by
    have : st = { st with rest := r } := by rw [← (show st.rest = r by simpa using hr)]
    rw [← this]
    exact .refl _ _
  | e :: ts, r, st, h, ht, hts, hr => by
    rw [List.cons_append] at hr
    have h1 : Reads S st [] { st with rest := ts ++ r } := by
      refine reads_none (st' := { st with rest := ts ++ r }) h hr ?_ ?_ ⟨h.1, h.2⟩
      · rcases hts e (by simp) with h | h <;> (rw [h]; exact ⟨by simp, by simp⟩)
      · rcases hts e (by simp) with h | h
        · simp only [convert, h, ht, List.drop_nil]
        · simp only [convert, h]
    have h2 := reads_trailing (S := S) ts r { st with rest := ts ++ r } ⟨h.1, h.2⟩ ht
      (fun x hx => hts x (by simp [hx])) rfl
    exact h1.trans h2

theorem gives {k : EventKind} (h1 : ∀ x, k ≠ .error x := by simp) (h2 : k ≠ .panic := by simp) : Gives k := ⟨h1, h2⟩

mutual
theorem read_value (S : Src) : ∀ {ks v}, ValueOf ks v → ∀ (evs r : List Event) (st : Core), kinds evs = ks →
    SpansOK S evs → st.rest = evs ++ r → Calm st → st.doc = [] →
    ∃ fs sp, Describes fs v ∧ Reads S st fs { st with rest := r, span := sp, tags := mark st.tags }
  | _, _, .scalar v k, evs, r, st, hk, hs, hr, hc, hd => by
    obtain ⟨sp, e2, rfl, h2⟩ := kinds_uncons hk
    rw [kinds_empty h2] at hr hs
    rw [List.singleton_append] at hr
    obtain ⟨x, hx⟩ := Option.ne_none_iff_exists'.1 (hs _ (List.mem_singleton.2 rfl))
    refine ⟨_, some sp, .scalar v k, ?_⟩
    have := reads_some (S := S) hc.ready hr (gives) (by
      simp only [convert, hx, hc.hint, parseScalar]; rfl)
    simpa [event_kind, hc.hint] using this
  | _, _, .unit, evs, r, st, hk, hs, hr, hc, hd => by
    obtain ⟨sp, e2, rfl, h2⟩ := kinds_uncons hk
    rw [kinds_empty h2] at hr hs
    rw [List.singleton_append] at hr
    obtain ⟨x, hx⟩ := Option.ne_none_iff_exists'.1 (hs _ (List.mem_singleton.2 rfl))
    by_cases hat : x = ['@'] ∧ st.tags = []
    · refine ⟨_, some sp, .atSign, ?_⟩
      obtain ⟨es, s1, h3, h4, h5⟩ := reads_some (S := S) hc.ready hr (gives) (by
        simp only [convert, hx]; rw [if_pos hat])
      refine ⟨es ++ [⟨.scalar .unit, sp.start, sp.stop - sp.start⟩], { st with rest := r, span := some sp, tags := mark st.tags }, ?_, ?_, rfl⟩
      · simp only [fkinds, List.map_append, List.map_cons, List.map_nil]
        rw [show List.map (fun x => x.kind) es = fkinds es from rfl, h3, event_kind]; rfl
      · refine h4.append (.cons ?_ (.nil _))
        rw [h5]
        simp only [next, hc.ready.queue, List.nil_append, Core.event]
    · refine ⟨_, some sp, .unit, ?_⟩
      have := reads_some (S := S) hc.ready hr (gives) (by
        simp only [convert, hx]; rw [if_neg hat])
      simpa [event_kind] using this
  | _, _, .bareTag n, evs, r, st, hk, hs, hr, hc, hd => by
    obtain ⟨sp, e2, rfl, h2⟩ := kinds_uncons hk
    obtain ⟨sp', e3, rfl, h3⟩ := kinds_uncons h2
    rw [kinds_empty h3] at hr hs
    refine ⟨_, some sp, .bareTag n, ?_⟩
    have h1 := reads_some (S := S) hc.ready hr (gives) (by simp only [convert]; rfl)
    refine Reads.trans (fs := [.variantTag (tagName n)]) (gs := [.scalar .unit]) ?_
      (reads_some (S := S) (st := { st with rest := ⟨sp', .tagEnd⟩ :: r, span := some sp, tags := false :: mark st.tags })
        (e := ⟨sp', .tagEnd⟩) (es := r) (f := ⟨.scalar .unit, sp.start, sp.stop - sp.start⟩) ⟨hc.ready.1, hc.ready.2⟩ rfl gives rfl)
    simpa [event_kind, tagName] using h1
  | _, _, .tag n (ks := ks) h, evs, r, st, hk, hs, hr, hc, hd => by
    obtain ⟨sp, e2, rfl, h2⟩ := kinds_uncons (b := ks ++ [.tagEnd]) hk
    obtain ⟨e3, e4, rfl, h3, h4⟩ := kinds_split h2
    obtain ⟨sp', e5, rfl, h5⟩ := kinds_uncons h4
    rw [kinds_empty h5] at hr hs
    rw [List.cons_append, List.append_assoc, List.singleton_append] at hr
    have h1 := reads_some (S := S) hc.ready hr (gives) (by simp only [convert]; rfl)
    have hdoc := hc.docs
    rw [hr] at hdoc
    obtain ⟨fs, sp2, h6, h7⟩ := read_value S h e3 (⟨sp', .tagEnd⟩ :: r)
      { st with rest := e3 ++ ⟨sp', .tagEnd⟩ :: r, span := some sp, tags := false :: mark st.tags } h3 hs.tail.left rfl
      ⟨⟨hc.ready.1, hc.ready.2⟩, hc.hint, hc.root, hdoc.tail⟩ hd
    refine ⟨_, sp2, .tag n h6, ?_⟩
    refine Reads.trans (fs := [.variantTag (tagName n)]) (by simpa [event_kind, tagName] using h1) ?_
    rw [← List.append_nil fs]
    exact h7.trans (reads_none (e := ⟨sp', .tagEnd⟩) (es := r) ⟨hc.ready.1, hc.ready.2⟩ rfl gives rfl ⟨hc.ready.1, hc.ready.2⟩)
  | _, _, .sequence (ks := ks) h, evs, r, st, hk, hs, hr, hc, hd => by
    obtain ⟨sp, e2, rfl, h2⟩ := kinds_uncons (b := ks ++ [.sequenceEnd]) hk
    obtain ⟨e3, e4, rfl, h3, h4⟩ := kinds_split h2
    obtain ⟨sp', e5, rfl, h5⟩ := kinds_uncons h4
    rw [kinds_empty h5] at hr hs
    rw [List.cons_append, List.append_assoc, List.singleton_append] at hr
    have h1 := reads_some (S := S) hc.ready hr (gives) (by simp only [convert]; rfl)
    have hdoc := hc.docs
    rw [hr] at hdoc
    obtain ⟨fs, sp2, h6, h7⟩ := read_values S h e3 (⟨sp', .sequenceEnd⟩ :: r)
      { st with rest := e3 ++ ⟨sp', .sequenceEnd⟩ :: r, span := some sp, tags := mark st.tags, depth := st.depth + 1 }
      h3 hs.tail.left rfl
      ⟨⟨hc.ready.1, hc.ready.2⟩, hc.hint, fun _ => by simp, hdoc.tail⟩ hd (mark_mark _)
    refine ⟨_, some sp', .sequence h6, ?_⟩
    refine Reads.trans (fs := [.seqStart]) (by simpa [event_kind] using h1) (h7.trans ?_)
    have h8 := reads_some (S := S) (e := ⟨sp', .sequenceEnd⟩) (es := r)
      (st := { st with rest := ⟨sp', .sequenceEnd⟩ :: r, span := sp2, tags := mark st.tags, depth := st.depth + 1 })
      ⟨hc.ready.1, hc.ready.2⟩ rfl gives (by simp only [convert]; rw [if_neg (by omega)])
    simpa [event_kind] using h8
  | _, _, .object (ks := ks) h, evs, r, st, hk, hs, hr, hc, hd => by
    obtain ⟨sp, e2, rfl, h2⟩ := kinds_uncons (b := ks ++ [.objectEnd]) hk
    obtain ⟨e3, e4, rfl, h3, h4⟩ := kinds_split h2
    obtain ⟨sp', e5, rfl, h5⟩ := kinds_uncons h4
    rw [kinds_empty h5] at hr hs
    rw [List.cons_append, List.append_assoc, List.singleton_append] at hr
    have h1 := reads_some (S := S) hc.ready hr (gives) (by simp only [convert]; rfl)
    have hdoc := hc.docs
    rw [hr] at hdoc
    have hroot : (st.atRoot && (st.depth + 1 == 1)) = false := by
      have := hc.root
      cases hb : st.atRoot with
      | false => rfl
      | true => have := this hb; simp; omega
    obtain ⟨fs, sp2, h6, h7⟩ := read_entries S h e3 sp' r
      { st with rest := e3 ++ ⟨sp', .objectEnd⟩ :: r, span := some sp, tags := mark st.tags, depth := st.depth + 1 }
      h3 hs.tail.left rfl
      ⟨⟨hc.ready.1, hc.ready.2⟩, hc.hint, fun _ => by simp, hdoc.tail⟩ (by simp [hd, DocLines])
      (fun h => absurd hd h) (mark_mark _)
      (by intro h1 h2; simp only at h1 h2; simp [h1, h2] at hroot)
    simp only [hroot, Bool.false_and, Bool.not_false] at h6
    rw [List.filter_eq_self.2 (fun _ _ => rfl)] at h6
    refine ⟨_, some sp', .object h6, ?_⟩
    refine Reads.trans (fs := [.structStart]) (by simpa [event_kind] using h1) (h7.trans ?_)
    have h8 := reads_some (S := S) (e := ⟨sp', .objectEnd⟩) (es := r)
      (st := { st with rest := ⟨sp', .objectEnd⟩ :: r, span := sp2, doc := [], tags := mark st.tags, depth := st.depth + 1 })
      ⟨hc.ready.1, hc.ready.2⟩ rfl gives (by simp only [convert]; rw [if_neg (by omega)])
    have hat : (st.atRoot && st.depth != 0) = st.atRoot := by
      have := hc.root
      cases hb : st.atRoot with
      | false => rfl
      | true => have := this hb; simp; omega
    simpa [event_kind, hat, hd] using h8

theorem read_values (S : Src) : ∀ {ks vs}, ValuesOf ks vs → ∀ (evs r : List Event) (st : Core), kinds evs = ks →
    SpansOK S evs → st.rest = evs ++ r → Calm st → st.doc = [] → mark st.tags = st.tags →
    ∃ fs sp, DescribesAll fs vs ∧ Reads S st fs { st with rest := r, span := sp }
  | _, _, .nil, evs, r, st, hk, hs, hr, hc, hd, hm => by
    rw [kinds_empty hk] at hr
    refine ⟨[], st.span, .nil, ?_⟩
    have : st = { st with rest := r } := by rw [← (show st.rest = r by simpa using hr)]
    rw [← this]
    exact .refl _ _
  | _, _, .cons h1 h2, evs, r, st, hk, hs, hr, hc, hd, hm => by
    obtain ⟨e3, e4, rfl, h3, h4⟩ := kinds_split hk
    rw [List.append_assoc] at hr
    have hdoc := hc.docs
    rw [hr, kinds_append] at hdoc
    obtain ⟨fs, sp, h5, h6⟩ := read_value S h1 e3 (e4 ++ r) st h3 hs.left hr hc hd
    rw [hm] at h6
    obtain ⟨gs, sp2, h7, h8⟩ := read_values S h2 e4 r { st with rest := e4 ++ r, span := sp } h4 hs.right rfl
      ⟨⟨hc.ready.1, hc.ready.2⟩, hc.hint, hc.root, hdoc.right⟩ hd hm
    exact ⟨_, sp2, .cons h5 h7, h6.trans h8⟩

theorem read_entries (S : Src) : ∀ {d ks es}, EntriesOf d ks es → ∀ (evs : List Event) (sp' : Span)
    (r : List Event) (st : Core), kinds evs = ks → SpansOK S evs → st.rest = evs ++ ⟨sp', .objectEnd⟩ :: r →
    Calm st → DocLines st.doc d → (st.doc ≠ [] → AfterDoc (kinds st.rest)) → mark st.tags = st.tags →
    (st.atRoot = true → st.depth = 1 → st.tags = []) →
    ∃ fs sp, DescribesEntries fs (es.filter fun e => !(st.atRoot && (st.depth == 1) && isSchema e)) ∧
      Reads S st fs { st with rest := ⟨sp', .objectEnd⟩ :: r, span := sp, doc := [] }
  | _, _, _, .nil d, evs, sp', r, st, hk, hs, hr, hc, hd, hp, hm, ht => by
    rw [kinds_empty hk] at hr
    have hdoc : st.doc = [] := by
      apply Classical.byContradiction
      intro h
      have := hp h
      rw [hr] at this
      rcases this.first with h | ⟨_, h⟩ | ⟨_, h⟩ <;> cases h
    refine ⟨[], st.span, .nil, ?_⟩
    have : st = { st with rest := ⟨sp', .objectEnd⟩ :: r, doc := [] } := by
      rw [← (show st.rest = ⟨sp', .objectEnd⟩ :: r by simpa using hr), ← hdoc]
    rw [← this]
    exact .refl _ _
  | _, _, _, .comment t h, evs, sp', r, st, hk, hs, hr, hc, hd, hp, hm, ht => by
    obtain ⟨sp, e2, rfl, h2⟩ := kinds_uncons hk
    rw [List.cons_append] at hr
    have hdoc := hc.docs
    rw [hr] at hdoc
    have h1 := reads_none (S := S) (st' := { st with rest := e2 ++ ⟨sp', .objectEnd⟩ :: r }) hc.ready hr gives rfl
      ⟨hc.ready.1, hc.ready.2⟩
    obtain ⟨fs, sp2, h3, h4⟩ := read_entries S h e2 sp' r { st with rest := e2 ++ ⟨sp', .objectEnd⟩ :: r } h2
      hs.tail rfl ⟨⟨hc.ready.1, hc.ready.2⟩, hc.hint, hc.root, hdoc.tail⟩ hd
      (by intro h; have := hp h; rw [hr] at this; exact this.comment) hm ht
    exact ⟨fs, sp2, h3, h1.trans h4⟩
  | _, _, _, .doc ls h, evs, sp', r, st, hk, hs, hr, hc, hd, hp, hm, ht => by
    obtain ⟨sp, e2, rfl, h2⟩ := kinds_uncons hk
    rw [List.cons_append] at hr
    have hdoc := hc.docs
    rw [hr] at hdoc
    obtain ⟨hl, ha⟩ := hdoc [] ls _ rfl
    have h1 := reads_none (S := S) (st' := { st with rest := e2 ++ ⟨sp', .objectEnd⟩ :: r, span := some sp, doc := st.doc ++ ls })
      hc.ready hr gives rfl ⟨hc.ready.1, hc.ready.2⟩
    obtain ⟨fs, sp2, h3, h4⟩ := read_entries S h e2 sp' r
      { st with rest := e2 ++ ⟨sp', .objectEnd⟩ :: r, span := some sp, doc := st.doc ++ ls } h2
      hs.tail rfl ⟨⟨hc.ready.1, hc.ready.2⟩, hc.hint, hc.root, hdoc.tail⟩ (docLines_more hd hl)
      (fun _ => ha) hm ht
    exact ⟨fs, sp2, h3, h1.trans h4⟩
  | _, _, _, .entry t p k (kv := kv) (ks := ks) (v := v) (d := d) (es := es) h1 h2, evs, sp', r, st, hk, hs, hr, hc, hd, hp, hm, ht => by
    obtain ⟨sp, e2, rfl, h3⟩ := kinds_uncons (b := .key t p k :: kv ++ .entryEnd :: ks) hk
    obtain ⟨sp1, e3, rfl, h4⟩ := kinds_uncons (b := kv ++ .entryEnd :: ks) h3
    obtain ⟨e5, e6, rfl, h5, h6⟩ := kinds_split h4
    obtain ⟨sp2, e7, rfl, h7⟩ := kinds_uncons h6
    have hdoc := hc.docs
    rw [hr] at hdoc
    simp only [List.cons_append, List.append_assoc] at hr
    have hd1 : DocOK (kinds (e5 ++ ⟨sp2, .entryEnd⟩ :: (e7 ++ ⟨sp', .objectEnd⟩ :: r))) := by
      simp only [List.cons_append, List.append_assoc] at hdoc
      exact hdoc.tail.tail
    have hd2 : DocOK (kinds (e7 ++ ⟨sp', .objectEnd⟩ :: r)) := by
      rw [kinds_append] at hd1
      exact hd1.right.tail
    have r1 := reads_none (S := S)
      (st' := { st with rest := ⟨sp1, .key t p k⟩ :: (e5 ++ ⟨sp2, .entryEnd⟩ :: (e7 ++ ⟨sp', .objectEnd⟩ :: r)) })
      hc.ready hr gives rfl ⟨hc.ready.1, hc.ready.2⟩
    have hsv : SpansOK S e5 := hs.tail.tail.left
    have hse : SpansOK S e7 := hs.tail.tail.right.tail
    have hrest : ∀ (x : Option Span), ∃ fs sp, DescribesEntries fs (es.filter fun e => !(st.atRoot && (st.depth == 1) && isSchema e)) ∧
        Reads S { st with rest := e7 ++ ⟨sp', .objectEnd⟩ :: r, span := x, doc := [] } fs
          { st with rest := ⟨sp', .objectEnd⟩ :: r, span := sp, doc := [] } := by
      intro x
      exact read_entries S h2 e7 sp' r { st with rest := e7 ++ ⟨sp', .objectEnd⟩ :: r, span := x, doc := [] } h7
        hse rfl ⟨⟨hc.ready.1, hc.ready.2⟩, hc.hint, hc.root, hd2⟩ rfl (fun h => absurd rfl h) hm ht
    by_cases hsk : st.atRoot = true ∧ st.depth = 1 ∧ t = some (chars! "schema")
    · obtain ⟨ts, g1, g2⟩ := skip_schema h1 e5 [⟨sp2, .entryEnd⟩] (e7 ++ ⟨sp', .objectEnd⟩ :: r) h5
        (by intro e he; simp only [List.mem_singleton] at he; subst he; exact .inr rfl) ⟨_, List.mem_singleton.2 rfl, rfl⟩
      rw [List.singleton_append] at g2
      have r2 := reads_none (S := S)
        (st := { st with rest := ⟨sp1, .key t p k⟩ :: (e5 ++ ⟨sp2, .entryEnd⟩ :: (e7 ++ ⟨sp', .objectEnd⟩ :: r)) })
        (st' := { st with rest := ts ++ (e7 ++ ⟨sp', .objectEnd⟩ :: r), span := some sp1, doc := [] })
        ⟨hc.ready.1, hc.ready.2⟩ rfl gives (by simp only [convert]; rw [if_pos hsk, g2]) ⟨hc.ready.1, hc.ready.2⟩
      have r3 := reads_trailing (S := S) ts (e7 ++ ⟨sp', .objectEnd⟩ :: r)
        { st with rest := ts ++ (e7 ++ ⟨sp', .objectEnd⟩ :: r), span := some sp1, doc := [] }
        ⟨hc.ready.1, hc.ready.2⟩ (ht hsk.1 hsk.2.1) g1 rfl
      obtain ⟨fs, sp4, g3, g4⟩ := hrest (some sp1)
      refine ⟨fs, sp4, ?_, ((r1.trans r2).trans r3).trans g4⟩
      rw [List.filter_cons, if_neg]
      · exact g3
      · simp [hsk.1, hsk.2.1, hsk.2.2, isSchema]
    · have r2 := reads_some (S := S)
        (st := { st with rest := ⟨sp1, .key t p k⟩ :: (e5 ++ ⟨sp2, .entryEnd⟩ :: (e7 ++ ⟨sp', .objectEnd⟩ :: r)) })
        ⟨hc.ready.1, hc.ready.2⟩ rfl gives (by simp only [convert]; rw [if_neg hsk])
      rw [event_kind] at r2
      obtain ⟨fs, sp3, g1, g2⟩ := read_value S h1 e5 (⟨sp2, .entryEnd⟩ :: (e7 ++ ⟨sp', .objectEnd⟩ :: r))
        { st with rest := e5 ++ ⟨sp2, .entryEnd⟩ :: (e7 ++ ⟨sp', .objectEnd⟩ :: r), span := some sp1, doc := [] }
        h5 hsv rfl ⟨⟨hc.ready.1, hc.ready.2⟩, hc.hint, hc.root, hd1⟩ rfl
      simp only [hm] at g2
      have r3 := reads_none (S := S)
        (st := { st with rest := ⟨sp2, .entryEnd⟩ :: (e7 ++ ⟨sp', .objectEnd⟩ :: r), span := sp3, doc := [] })
        (st' := { st with rest := e7 ++ ⟨sp', .objectEnd⟩ :: r, span := sp3, doc := [] })
        ⟨hc.ready.1, hc.ready.2⟩ rfl gives rfl ⟨hc.ready.1, hc.ready.2⟩
      obtain ⟨gs, sp4, g3, g4⟩ := hrest sp3
      refine ⟨.key t p st.doc :: fs ++ gs, sp4, ?_, (r1.trans r2).trans (g2.trans (r3.trans g4))⟩
      rw [List.filter_cons, if_pos]
      · exact .cons t p k hd g1 g3
      · cases t with
        | none => simp [isSchema]
        | some n =>
          simp only [Option.map_some, isSchema]
          simp only [Option.some.injEq] at hsk
          cases h1 : st.atRoot with
          | false => rfl
          | true =>
            simp only [h1, true_and, not_and] at hsk
            by_cases h2 : st.depth = 1
            · have := hsk h2
              simp [h2, this]
            · simp [h2]
end

end Styx.Facet
