import Verif.Tree.SpanBuild

/-!
# The places noted in the tree of a document

`parseTree_std`: the root entries of the tree of a source stand in the source in order.
-/

namespace Styx

open Spec

/-- The events add one entry to the object on top of the stack. -/
def FeedsEntry (evs : List Event) (d : Option (List Char)) (e : Entry) : Prop :=
  ∀ (b : Builder) acc sp rest, b.stack = .object acc sp d :: rest →
    b.run evs = { b with stack := .object (acc ++ [e]) sp none :: rest }

theorem feed_entryValue {s : List Char} {sp : Span} {rest : List Atom} {q : Nat} (hg : ElemsGood s rest)
    (hl : ElemsLaid sp.stop q rest) (hv : NoError (entryValueEvents sp rest)) (hm : NoError (tooManyEvents rest)) :
    ∃ v, Feeds (entryValueEvents sp rest) v ∧
      ((v = .mk none none (some sp) ∧ sp.stop ≤ q) ∨ Std s sp.stop q v) := by
  match rest, hg, hl, hv, hm with
  | [], _, hl, _, _ => exact ⟨.mk none none (some sp), fun _ _ => rfl, .inl ⟨rfl, hl⟩⟩
  | [a], hg, hl, hv, _ =>
    obtain ⟨v, g1, g2⟩ := feed_atom hg.1 hl.2.1 hv
    exact ⟨v, g2, .inr (g1.mono hl.1 hl.2.2)⟩
  | _ :: _ :: _, _, _, _, hm => exact (noErr_err hm).elim

theorem feed_simple {s : List Char} {key : Atom} {rest : List Atom} {q : Nat} (hk : AtomGood s key)
    (hg : ElemsGood s rest) (hl : ElemsLaid key.span.stop q rest) (h : NoError (emitSimpleEntry key rest))
    (d : Option (List Char)) :
    ∃ e, EntriesStd s key.span.start q [e] ∧ FeedsEntry (emitSimpleEntry key rest) d e := by
  unfold emitSimpleEntry at h ⊢
  obtain ⟨t, p, k, hke, hks⟩ := emitKey_std hk h.left.left.left.tail
  obtain ⟨v, g1, g2⟩ := feed_entryValue hg hl h.left.left.right h.left.right
  rw [tooMany_clean h.left.right, hke]
  refine ⟨.mk _ v d, ⟨key.span, q, hks, g2, Nat.le_refl q⟩, fun b acc sp st hb => ?_⟩
  have := feed_entry key.span key.span ((key :: rest).getLastD key).span (t := t) (p := p) (k := k) g1 b acc sp d st hb
  rw [← this]
  simp

theorem DotEntry.weaken {s : List Char} {whole : Span} {hi lo lo' : Nat} {e : Entry}
    (h : DotEntry s whole hi lo e) (hl : lo' ≤ lo) (hw : whole.start ≤ lo') : DotEntry s whole hi lo' e := by
  cases h with
  | last h1 h2 h3 h4 h5 => exact .last (by omega) hw h3 h4 h5
  | more h1 h2 h3 h4 h5 => exact .more (by omega) hw h3 h4 h5

theorem splitDots_two {t : List Char} (h : '.' ∈ t) : 2 ≤ (splitDots t).length := by
  induction t with
  | nil => cases h
  | cons c cs ih =>
    have hne : 1 ≤ (splitDots cs).length := by
      have := splitDots_ne cs
      cases hc : splitDots cs with
      | nil => exact absurd hc this
      | cons a l => simp
    rw [splitDots]
    split
    · simp only [List.length_cons]; omega
    · rename_i hc
      have := ih (by simpa [Ne.symm hc] using h)
      cases hs : splitDots cs with
      | nil => rw [hs] at this; simp at this
      | cons a l => rw [hs] at this; exact this

theorem feed_dotted {s : List Char} {whole : Span} {vs : List Event} {v : Value} {q : Nat}
    (hf : Feeds vs v) (hv : (v = .mk none none (some whole) ∧ whole.stop ≤ q) ∨ Std s whole.stop q v) :
    ∀ (segs : List (List Char)) (off : Nat) (d : Option (List Char)), segs ≠ [] → whole.start ≤ off →
      HasText s ⟨off, whole.stop⟩ (joinDots segs) →
      ∃ e, (2 ≤ segs.length → DotRoot e) ∧ DotEntry s whole q off e ∧
        FeedsEntry (dottedOpen off segs ++ vs ++ dottedClose whole segs.length) d e
  | [], _, _, hne, _, _ => absurd rfl hne
  | [seg], off, d, _, hw, ht => by
    have h1 : HasText s ⟨off, off + utf8Len seg⟩ seg := by
      have := ht.len
      simp only [joinDots] at this ht
      rw [← this]; exact ht
    have hlen : off + utf8Len seg = whole.stop := by
      have := ht.len
      simp only [joinDots] at this
      exact this.symm
    refine ⟨_, by simp, .last (sp := ⟨off, off + utf8Len seg⟩) (text := seg) (v := v) (d := d) (Nat.le_refl _) hw h1 hlen hv,
      fun b acc sp st hb => ?_⟩
    have := feed_entry ⟨off, off + utf8Len seg⟩ ⟨off, off + utf8Len seg⟩ whole (t := none) (p := some seg)
      (k := .bare) hf b acc sp d st hb
    simpa [dottedOpen, dottedClose] using this
  | seg :: seg2 :: segs, off, d, _, hw, ht => by
    have hj : joinDots (seg :: seg2 :: segs) = seg ++ (['.'] ++ joinDots (seg2 :: segs)) := by
      simp [joinDots]
    rw [hj] at ht
    have h1 := ht.left
    have h2 := ht.right.right
    have hle := ht.right.spanOK.1
    have hd1 : utf8Len ['.'] = 1 := rfl
    have h1' : off + utf8Len seg ≤ whole.stop := by
      have := ht.len
      rw [utf8Len_append] at this
      show off + utf8Len seg ≤ whole.stop
      simp only at this
      omega
    obtain ⟨e, _, g1, g2⟩ := feed_dotted hf hv (seg2 :: segs) (off + utf8Len seg + 1) none (by simp) (by omega)
      (by rw [hd1] at h2; exact h2)
    have hobj : Feeds (⟨⟨off, off + utf8Len seg⟩, .objectStart⟩ ::
        (dottedOpen (off + utf8Len seg + 1) (seg2 :: segs) ++ vs ++ dottedClose whole (seg2 :: segs).length) ++
        [⟨whole, .objectEnd⟩])
        (.mk none (some (.object [e] (some ⟨off, whole.stop⟩))) (some ⟨off, whole.stop⟩)) := by
      intro b hb
      rw [List.cons_append, Builder.run_cons, Builder.run_append]
      have : b.event ⟨⟨off, off + utf8Len seg⟩, .objectStart⟩ =
        { b with stack := .object [] ⟨off, off + utf8Len seg⟩ none :: b.stack } := rfl
      rw [this, g2 _ [] ⟨off, off + utf8Len seg⟩ b.stack rfl, Builder.run_cons, Builder.run_nil]
      simp only [Builder.event, List.nil_append]
      rw [if_neg (by simpa using hb)]
    refine ⟨_, ?_, .more (sp := ⟨off, off + utf8Len seg⟩) (text := seg) (e := e) (d := d) (Nat.le_refl _) hw h1 h1' ?_, ?_⟩
    · exact fun _ => ⟨_, _, _, rfl, rfl, rfl⟩
    · exact g1.weaken (by simp) (by simp only; omega)
    · intro b acc sp st hb
      have := feed_entry ⟨off, off + utf8Len seg⟩ ⟨off, off + utf8Len seg⟩ whole (t := none) (p := some seg)
        (k := .bare) hobj b acc sp d st hb
      rw [dottedOpen_cons, List.length_cons, List.length_cons, dottedClose_snoc]
      simpa using this

theorem feed_emitDotted {s : List Char} {text : List Char} {sp : Span} {rest : List Atom} {q : Nat}
    {path : Option PathState} (ht : HasText s sp text) (hg : ElemsGood s rest) (hl : ElemsLaid sp.stop q rest)
    (h : NoError (emitDotted text sp rest path).1) (d : Option (List Char)) :
    ∃ e, ('.' ∈ text → DotRoot e) ∧ DotEntry s sp q sp.start e ∧ FeedsEntry (emitDotted text sp rest path).1 d e := by
  unfold emitDotted at h ⊢
  simp only at h ⊢
  split at h
  · exact (noErr_err h).elim
  · rename_i hseg
    rw [if_neg hseg]
    have key : ∀ pe : List Event, (NoError pe → pe = []) →
        NoError (pe ++ dottedOpen sp.start (splitDots text) ++ entryValueEvents sp rest ++
          tooManyEvents rest ++ dottedClose sp (splitDots text).length) →
        ∃ e, ('.' ∈ text → DotRoot e) ∧ DotEntry s sp q sp.start e ∧
          FeedsEntry (pe ++ dottedOpen sp.start (splitDots text) ++ entryValueEvents sp rest ++
            tooManyEvents rest ++ dottedClose sp (splitDots text).length) d e := by
      intro pe hpe h
      obtain ⟨v, g1, g2⟩ := feed_entryValue hg hl h.left.left.right h.left.right
      rw [hpe h.left.left.left.left, tooMany_clean h.left.right, List.nil_append, List.append_nil]
      obtain ⟨e, f1, f2, f3⟩ := feed_dotted g1 g2 _ _ d (splitDots_ne text) (Nat.le_refl _)
        (by rw [joinDots_split]; exact ht)
      exact ⟨e, fun hd => f1 (splitDots_two hd), f2, f3⟩
    cases path with
    | none => exact key [] (fun _ => rfl) h
    | some st => exact key _ (fun h => pathErr_clean h) h

/-- What the events of one root entry add. -/
theorem feed_atRoot {s : List Char} {key : Atom} {rest : List Atom} {path : PathState} {p q : Nat}
    (hk : AtomGood s key) (hg : ElemsGood s rest) (hp : p ≤ key.span.start) (hl : ElemsLaid key.span.stop q rest)
    (h : NoError (emitEntryAtRoot s key rest path).1) (d : Option (List Char)) :
    ∃ e, RootStd s p q [e] ∧ FeedsEntry (emitEntryAtRoot s key rest path).1 d e := by
  have simple : NoError (emitSimpleEntry key rest) → ∃ e, RootStd s p q [e] ∧ FeedsEntry (emitSimpleEntry key rest) d e := by
    intro h
    obtain ⟨e, g1, g2⟩ := feed_simple hk hg hl h d
    exact ⟨e, ⟨q, .inl (g1.weaken hp), Nat.le_refl q⟩, g2⟩
  unfold emitEntryAtRoot at h ⊢
  simp only at h ⊢
  split
  · rename_i sp v
    split
    · rename_i hd
      simp only [if_pos hd] at h
      obtain ⟨e, g0, g1, g2⟩ := feed_emitDotted (hk.2.1 rfl) hg hl h d
      exact ⟨e, ⟨q, .inr ⟨g0 hd, sp, hk.1, hp, g1⟩, Nat.le_refl q⟩, g2⟩
    · rename_i hd
      simp only [if_neg hd] at h
      rw [pathErr_clean h.left]
      exact simple h.right
  · rename_i hkk
    split at h
    · exact absurd rfl (hkk _ _)
    · rw [pathErr_clean h.left.right]
      have hs := simple h.right
      replace h := h.left.left
      split
      · rename_i sp v
        simp only at h
        split at h
        · exact (noErr_err h).elim
        · exact (noErr_panic h).elim
      · simpa using hs

theorem feed_inObject {s : List Char} {key : Atom} {rest : List Atom} {seen : List (KeyValue × Span)} {p q : Nat}
    (hk : AtomGood s key) (hg : ElemsGood s rest) (hp : p ≤ key.span.start) (hl : ElemsLaid key.span.stop q rest)
    (h : NoError (emitEntryInObject key rest seen).1) (d : Option (List Char)) :
    ∃ e, RootStd s p q [e] ∧ FeedsEntry (emitEntryInObject key rest seen).1 d e := by
  have hsimple : ∀ pre : List Event, (NoError pre → pre = []) →
      NoError (match lookupKey (KeyValue.fromAtom key) seen with
        | some original => (pre ++ errEv key.span (.duplicateKey original) :: emitSimpleEntry key rest, seen)
        | none => (pre ++ emitSimpleEntry key rest, (KeyValue.fromAtom key, key.span) :: seen)).1 →
      ∃ e, RootStd s p q [e] ∧ FeedsEntry (match lookupKey (KeyValue.fromAtom key) seen with
        | some original => (pre ++ errEv key.span (.duplicateKey original) :: emitSimpleEntry key rest, seen)
        | none => (pre ++ emitSimpleEntry key rest, (KeyValue.fromAtom key, key.span) :: seen)).1 d e := by
    intro pre hpe h
    split at h
    · exact (noErr_err h.right).elim
    · simp only at h ⊢
      rw [hpe h.left]
      obtain ⟨e, g1, g2⟩ := feed_simple hk hg hl h.right d
      exact ⟨e, ⟨q, .inl (g1.weaken hp), Nat.le_refl q⟩, g2⟩
  unfold emitEntryInObject at h ⊢
  simp only at h ⊢
  split
  · rename_i sp v
    split
    · rename_i hd
      simp only [if_pos hd] at h
      obtain ⟨e, g0, g1, g2⟩ := feed_emitDotted (hk.2.1 rfl) hg hl h d
      exact ⟨e, ⟨q, .inr ⟨g0 hd, sp, hk.1, hp, g1⟩, Nat.le_refl q⟩, g2⟩
    · rename_i hd
      simp only [if_neg hd] at h
      refine hsimple _ (fun h => ?_) h; split at h; exact (noErr_err h).elim; rfl
  · rename_i hkk
    split at h
    · exact absurd rfl (hkk _ _)
    · refine hsimple _ (fun h => ?_) h; split at h; exact (noErr_err h).elim; rfl

theorem feed_comments {evs : List Event} (hc : IsComments (kinds evs)) (b : Builder) {acc : List Entry} {sp : Span}
    {d : Option (List Char)} {rest : List Frame} (hb : b.stack = .object acc sp d :: rest) :
    ∃ d', b.run evs = { b with stack := .object acc sp d' :: rest } := by
  induction evs generalizing b d with
  | nil => exact ⟨d, by rw [← hb]; rfl⟩
  | cons e es ih =>
    have h1 := hc e.kind (by simp [kinds])
    have h2 : IsComments (kinds es) := fun c hcc => hc c (by
      simp only [kinds, List.map_cons, List.mem_cons] at hcc ⊢; exact .inr hcc)
    obtain ⟨esp, k⟩ := e
    rcases h1 with ⟨t, rfl⟩ | ⟨ls, rfl⟩
    · exact ih h2 b hb
    · rw [Builder.run_cons]
      have : b.event ⟨esp, .docComment ls⟩ =
        { b with stack := .object acc sp (some (appendDoc d (joinLines ls))) :: rest } := by
        simp only [Builder.event, hb]
      rw [this]
      exact ih h2 _ rfl

/-- The builder at a state of the parser, with the lexemes still to come after byte `p`. -/
def StateStd (s : List Char) (p : Nat) (b : Builder) : PState → Prop
  | .beforeDocument => b = {}
  | .documentRoot _ _ false => b.stack = [] ∧ b.root = []
  | .documentRoot _ _ true => ∃ acc sp d, b.stack = [.object acc sp d] ∧ RootStd s 0 p acc
  | .inObject _ _ _ => ∃ acc sp d rest, b.stack = .object acc sp d :: rest ∧ RootStd s 0 p acc ∧
      (rest = [] ∨ ∃ acc' sp' d', rest = [.object acc' sp' d'])
  | .afterDocument => b.stack = [] → RootStd s 0 (utf8Len s) b.root
  | .beforeExpression | .afterExpression => True

theorem rootStd_extend {s : List Char} {p p' : Nat} {st : PState} {b : Builder} (hp : p ≤ p') (h : StateStd s p b st) :
    StateStd s p' b st := by
  cases st with
  | documentRoot doc path started =>
    cases started with
    | false => exact h
    | true => obtain ⟨acc, sp, d, h1, h2⟩ := h; exact ⟨acc, sp, d, h1, h2.extend hp⟩
  | inObject => obtain ⟨acc, sp, d, rest, h1, h2, h3⟩ := h; exact ⟨acc, sp, d, rest, h1, h2.extend hp, h3⟩
  | _ => first | exact h | exact True.intro

/-- The start of the root object when it was not written. -/
theorem implicitStart_std {s : List Char} {p : Nat} {b : Builder} {doc path started}
    (h : StateStd s p b (.documentRoot doc path started)) :
    ∃ acc sp d, (b.run (implicitStart started)).stack = [.object acc sp d] ∧ RootStd s 0 p acc := by
  cases started with
  | true => exact h
  | false =>
    refine ⟨[], ⟨0, 0⟩, none, ?_, Nat.zero_le p⟩
    show Frame.object [] ⟨0, 0⟩ none :: b.stack = _
    rw [h.1]

theorem chain_le {s : List Char} {p : Nat} {ls : List Lexeme} (h : Chain s p ls) : p ≤ utf8Len s := by
  induction ls generalizing p with
  | nil => exact h
  | cons l ls ih =>
    have h1 := ih h.2.2.2.1
    have h2 := (h.2.1.spanOK h.1).1
    have := h.2.2.1
    omega

theorem chain_tail {s : List Char} {p : Nat} {l : Lexeme} {ls : List Lexeme} (h : Chain s p (l :: ls)) :
    p ≤ l.span.stop ∧ Chain s l.span.stop ls := by
  have h2 := (h.2.1.spanOK h.1).1
  have := h.2.2.1
  exact ⟨by omega, h.2.2.2.1⟩

theorem run_std {s : List Char} {st : PState} {ls : List Lexeme} {evs : List Event} (h : RunR s st ls evs) :
    st ≠ .beforeExpression → NoError evs → ∀ p b, Chain s p ls → StateStd s p b st →
      (b.run evs).stack = [] → RootStd s 0 (utf8Len s) (b.run evs).root := by
  induction h with
  | start h ih =>
    rintro - hn p b hc rfl
    exact ih (by simp) hn.tail p _ hc ⟨rfl, rfl⟩
  | @rootEof doc path started =>
    intro _ hn p b hc hst hs
    rw [danglingEv_clean hn.left.left] at hs ⊢
    cases started with
    | false =>
      show RootStd s 0 (utf8Len s) b.root
      rw [hst.2]; exact Nat.zero_le _
    | true =>
      obtain ⟨acc, sp, d, h1, h2⟩ := hst
      have : (b.run ([] ++ (if true = true then [⟨⟨0, 0⟩, .objectEnd⟩] else []) ++
          [⟨⟨utf8Len s, utf8Len s⟩, .documentEnd⟩])).root = acc := by
        simp only [if_true, List.nil_append, List.cons_append, Builder.run_cons, Builder.run_nil, Builder.event, h1]
        rfl
      rw [this]
      exact h2.extend (chain_le hc)
  | rootSkip _ _ ih =>
    intro _ hn p b hc hst
    exact ih (by simp) hn _ b (chain_tail hc).2 (rootStd_extend (chain_tail hc).1 hst)
  | rootComment _ ih =>
    intro _ hn p b hc hst
    exact ih (by simp) hn.tail _ b (chain_tail hc).2 (rootStd_extend (chain_tail hc).1 hst)
  | @rootDoc doc path started sp text ls more _ ih =>
    intro _ hn p b hc hst
    obtain ⟨acc, sp', d, h1, h2⟩ := implicitStart_std hst
    rw [Builder.run_append, Builder.run_cons]
    refine ih (by simp) hn.right.tail _ _ (chain_tail hc).2 ⟨acc, sp', ?_, ?_, h2.extend (chain_tail hc).1⟩
    · exact some (appendDoc d (joinLines [stripDoc text]))
    · simp only [Builder.event, h1]
  | @rootBrace doc path started sp ls more _ ih =>
    intro _ hn p b hc hst
    rw [Builder.run_cons]
    refine ih (by simp) hn.tail _ _ (chain_tail hc).2 ⟨[], sp, none, b.stack, rfl, Nat.zero_le _, ?_⟩
    cases started with
    | false => exact .inl hst.1
    | true => obtain ⟨acc, sp, d, h1, h2⟩ := hst; exact .inr ⟨acc, sp, d, h1⟩
  | @rootEntry doc path started l ls key rest evs ls' more _ hcol _ ih =>
    intro _ hn p b hc hst
    obtain ⟨k1, k2, _, _⟩ := collectGood hcol hc
    obtain ⟨c1, q, c2, c3⟩ := collectLaid hcol hc
    obtain ⟨acc, sp, d, h1, h2⟩ := implicitStart_std hst
    have hq := quiet_clean (collect_quiet hcol) hn.left.left.right
    obtain ⟨d', h3⟩ := feed_comments hq _ h1
    obtain ⟨e, g1, g2⟩ := feed_atRoot k1 k2 c1 c2 hn.left.right d'
    rw [Builder.run_append, Builder.run_append, Builder.run_append, h3, g2 _ acc sp [] rfl]
    exact ih (by simp) hn.right q _ c3 ⟨_, sp, none, rfl, h2.append g1⟩
  | objEof => intro _ hn; exact (noErr_err hn.right).elim
  | @objClose start seen doc sp ls more _ ih =>
    intro _ hn p b hc hst
    obtain ⟨acc, sp', d, rest, h1, h2, h3⟩ := hst
    rw [danglingEv_clean hn.left.left.tail, List.cons_append, List.nil_append, List.cons_append,
      List.cons_append, List.nil_append, Builder.run_cons, Builder.run_cons]
    refine ih (by simp) hn.right _ _ (chain_tail hc).2 ?_
    intro hs
    rcases h3 with rfl | ⟨acc', sp2, d2, rfl⟩
    · have : ((b.event ⟨sp, .objectEnd⟩).event ⟨⟨utf8Len s, utf8Len s⟩, .documentEnd⟩).root = acc := by
        simp only [Builder.event, h1]; rfl
      rw [this]
      exact h2.extend (chain_le hc)
    · exfalso
      revert hs
      simp only [Builder.event, h1]
      simp [Builder.push, pushOn]
  | objSkip _ _ ih =>
    intro _ hn p b hc hst
    exact ih (by simp) hn _ b (chain_tail hc).2 (rootStd_extend (chain_tail hc).1 hst)
  | objComment _ ih =>
    intro _ hn p b hc hst
    exact ih (by simp) hn.tail _ b (chain_tail hc).2 (rootStd_extend (chain_tail hc).1 hst)
  | @objDoc start seen doc sp text ls more _ ih =>
    intro _ hn p b hc hst
    obtain ⟨acc, sp', d, rest, h1, h2, h3⟩ := hst
    rw [Builder.run_cons]
    refine ih (by simp) hn.tail _ _ (chain_tail hc).2 ⟨acc, sp', ?_, rest, ?_, h2.extend (chain_tail hc).1, h3⟩
    · exact some (appendDoc d (joinLines [stripDoc text]))
    · simp only [Builder.event, h1]
  | @objEntry start seen doc l ls key rest evs ls' more _ hcol _ ih =>
    intro _ hn p b hc hst
    obtain ⟨k1, k2, _, _⟩ := collectGood hcol hc
    obtain ⟨c1, q, c2, c3⟩ := collectLaid hcol hc
    obtain ⟨acc, sp, d, st, h1, h2, h4⟩ := hst
    have hq := quiet_clean (collect_quiet hcol) hn.left.left
    obtain ⟨d', h3⟩ := feed_comments hq b h1
    obtain ⟨e, g1, g2⟩ := feed_inObject k1 k2 c1 c2 hn.left.right d'
    rw [Builder.run_append, Builder.run_append, h3, g2 _ acc sp st rfl]
    exact ih (by simp) hn.right q _ c3 ⟨_, sp, none, st, rfl, h2.append g1, h4⟩
  | after h =>
    intro _ hn p b _ hst
    rw [trailing_clean h hn, Builder.run_nil]
    exact hst
  | exprEnd => intro h; exact absurd rfl h
  | exprSkip => intro h; exact absurd rfl h
  | expr => intro h; exact absurd rfl h

theorem errorsOf_mem {evs : List Event} {e : Event} {k : ParseErrorKind} (hm : e ∈ evs) (hk : e.kind = .error k) :
    (k, e.span) ∈ errorsOf evs := by
  induction evs with
  | nil => cases hm
  | cons x xs ih =>
    rw [errorsOf_cons]
    rcases List.mem_cons.mp hm with rfl | hm
    · obtain ⟨sp, kk⟩ := e
      simp only at hk
      subst hk
      exact List.mem_append_left _ (List.mem_cons_self ..)
    · exact List.mem_append_right _ (ih hm)

/-- The tree of a source has no tag and no place of its own, and its entries stand in the source in order. -/
theorem parseTree_std {s : List Char} {v : Value} (h : parseTree s = some (.ok v)) :
    ∃ es, v = .mk none (some (.object es none)) none ∧ RootStd s 0 (utf8Len s) es := by
  obtain ⟨evs, h1, h2⟩ := parseEvents_run s
  unfold parseTree at h
  rw [h1] at h
  simp only at h
  split at h
  · cases h
  rename_i hp
  have hb : buildTree evs = .ok v := by simpa using h
  unfold buildTree Builder.finish at hb
  split at hb
  · cases hb
  rename_i he
  split at hb
  · rename_i hs
    have hn : NoError evs := by
      intro e hm
      refine ⟨fun k hk => ?_, fun hk => hp (List.any_eq_true.mpr ⟨e, hm, by rw [hk]; rfl⟩)⟩
      have := run_errors {} evs
      rw [he] at this
      have h3 : (k, e.span) ∈ errorsOf evs := errorsOf_mem hm hk
      have h4 : errorsOf evs = [] := by simpa using this.symm
      rw [h4] at h3
      cases h3
    have := run_std h2 (by simp) hn 0 {} (lex_chain s) rfl (by simpa using hs)
    cases hb
    exact ⟨_, rfl, this⟩
  · cases hb

end Styx
