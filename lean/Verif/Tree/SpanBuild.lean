import Verif.Tree.SpanAtoms
import Verif.Tree.BuilderLemmas
import Verif.Parse.NestLemmas

/-!
# The places noted in a tree

`run_std`: the entries of the tree of a source stand in the source in order.
-/

namespace Styx

open Spec

/-- What the source at `sp` says about a scalar of a kind. -/
def TextStd (s : List Char) (sp : Span) (text : List Char) (k : ScalarKind) : Prop :=
  (k = .bare → HasText s sp text) ∧
  (k = .quoted → ∃ raw, HasText s sp ('"' :: raw ++ ['"']) ∧ (Escaped raw text ∨ ¬ ∃ v, Escaped raw v)) ∧
  (k = .raw → (∃ t, HasText s sp t ∧ RawFor t text) ∨ ManyHashes s) ∧
  (k = .heredoc → ∃ t, HasText s sp t ∧ HeredocFor t text)

theorem TextStd.of_lex {s : List Char} {sp : Span} {text : List Char} {k : ScalarKind}
    (h : LexOK s (.scalar sp text k)) : TextStd s sp text k :=
  ⟨h.2.1, fun hk => let ⟨raw, h1, h2⟩ := h.2.2.1 hk; ⟨raw, h1, .inl h2⟩, h.2.2.2⟩

theorem TextStd.of_raw {s : List Char} {sp : Span} {raw : List Char} (text : List Char)
    (h : HasText s sp ('"' :: raw ++ ['"']) ∧ ¬ ∃ v, Escaped raw v) : TextStd s sp text .quoted :=
  ⟨by simp, fun _ => ⟨raw, h.1, .inr h.2⟩, (nofun), (nofun)⟩

theorem TextStd.of_bare {s : List Char} {sp : Span} {text : List Char} (h : HasText s sp text) :
    TextStd s sp text .bare := ⟨fun _ => h, by simp, (nofun), (nofun)⟩

/-- A key stands at `sp`, not before byte `lo`. -/
def KeyStd (s : List Char) (lo : Nat) (sp : Span) : Value → Prop
  | .mk t p ksp => ksp = some sp ∧ SpanOK s sp ∧ lo ≤ sp.start ∧
      (∀ t', t = some t' → t'.span = some sp ∧ sp.start + 1 + utf8Len t'.name ≤ sp.stop ∧
        HasText s ⟨sp.start, sp.start + 1 + utf8Len t'.name⟩ ('@' :: t'.name)) ∧
      (p = none ∨ ∃ text k, p = some (.scalar text k (some sp)) ∧
        (t = none → TextStd s sp text k))

/-- The tag of a value that stands at `sp`. -/
def TagStd (s : List Char) (lo hi : Nat) (sp : Span) (t : Option Tag) : Prop :=
  ∀ t', t = some t' → ∃ tsp, t'.span = some tsp ∧ SpanOK s tsp ∧ lo ≤ tsp.start ∧ tsp.start ≤ sp.start ∧
    sp.stop ≤ tsp.stop ∧ tsp.stop ≤ hi ∧ tsp.start + 1 + utf8Len t'.name ≤ tsp.stop ∧
    HasText s ⟨tsp.start, tsp.start + 1 + utf8Len t'.name⟩ ('@' :: t'.name)

mutual
/-- A value stands between two bytes, and so does everything in it, in order. -/
def Std (s : List Char) (lo hi : Nat) : Value → Prop
  | .mk t p (some sp) => SpanOK s sp ∧ lo ≤ sp.start ∧ sp.stop ≤ hi ∧ TagStd s lo hi sp t ∧ PayStd s sp p
  | .mk _ _ none => False
/-- The payload of a value that stands at `sp`. -/
def PayStd (s : List Char) (sp : Span) : Option Payload → Prop
  | none => True
  | some (.scalar text k psp) => psp = some sp ∧ TextStd s sp text k
  | some (.sequence items psp) => psp = some sp ∧ ItemsStd s sp.start sp.stop items
  | some (.object es psp) => psp = some sp ∧ EntriesStd s sp.start sp.stop es
/-- Items in order between two bytes. -/
def ItemsStd (s : List Char) (lo hi : Nat) : List Value → Prop
  | [] => lo ≤ hi
  | v :: vs => ∃ m, Std s lo m v ∧ ItemsStd s m hi vs
/-- Entries in order between two bytes. -/
def EntriesStd (s : List Char) (lo hi : Nat) : List Entry → Prop
  | [] => lo ≤ hi
  | .mk k v _ :: es => ∃ sp m, KeyStd s lo sp k ∧
      ((v = .mk none none (some sp) ∧ sp.stop ≤ m) ∨ Std s sp.stop m v) ∧ EntriesStd s m hi es
end

/-- The entry of a dotted key `whole`, or of the part of it that starts at `lo`. -/
inductive DotEntry (s : List Char) (whole : Span) (hi : Nat) : Nat → Entry → Prop
  | last {lo : Nat} {sp : Span} {text : List Char} {v : Value} {d : Option (List Char)} : lo ≤ sp.start →
      whole.start ≤ lo → HasText s sp text → sp.stop = whole.stop →
      (v = .mk none none (some whole) ∧ whole.stop ≤ hi ∨ Std s whole.stop hi v) →
      DotEntry s whole hi lo (.mk (.mk none (some (.scalar text .bare (some sp))) (some sp)) v d)
  | more {lo : Nat} {sp : Span} {text : List Char} {e : Entry} {d : Option (List Char)} : lo ≤ sp.start →
      whole.start ≤ lo → HasText s sp text → sp.stop ≤ whole.stop →
      DotEntry s whole hi sp.stop e →
      DotEntry s whole hi lo (.mk (.mk none (some (.scalar text .bare (some sp))) (some sp))
        (.mk none (some (.object [e] (some ⟨sp.start, whole.stop⟩))) (some ⟨sp.start, whole.stop⟩)) d)

/-- The entry of a dotted key: its value is an object that starts where its key does. -/
def DotRoot : Entry → Prop
  | .mk k v _ => ∃ sp es vsp, k.span = some sp ∧ v = .mk none (some (.object es (some vsp))) (some vsp) ∧
      vsp.start = sp.start

/-- The entries of the root in order between two bytes. -/
def RootStd (s : List Char) (lo hi : Nat) : List Entry → Prop
  | [] => lo ≤ hi
  | e :: es => ∃ m, (EntriesStd s lo m [e] ∨ DotRoot e ∧ ∃ whole, SpanOK s whole ∧ lo ≤ whole.start ∧
      DotEntry s whole m whole.start e) ∧ RootStd s m hi es

theorem Std.mono {s : List Char} {lo lo' hi hi' : Nat} {v : Value} (h : Std s lo hi v) (hl : lo' ≤ lo)
    (hh : hi ≤ hi') : Std s lo' hi' v := by
  obtain ⟨t, p, sp⟩ := v
  cases sp with
  | none => exact h.elim
  | some sp =>
    simp only [Std] at h ⊢
    refine ⟨h.1, by omega, by omega, ?_, h.2.2.2.2⟩
    intro t' ht
    obtain ⟨tsp, h1, h2, h3, h4, h5, h6, h7⟩ := h.2.2.2.1 t' ht
    exact ⟨tsp, h1, h2, by omega, h4, h5, by omega, h7⟩

theorem KeyStd.mono {s : List Char} {lo lo' : Nat} {sp : Span} {k : Value} (h : KeyStd s lo sp k) (hl : lo' ≤ lo) :
    KeyStd s lo' sp k := by
  obtain ⟨t, p, ksp⟩ := k
  exact ⟨h.1, h.2.1, Nat.le_trans hl h.2.2.1, h.2.2.2⟩

theorem ItemsStd.weaken {s : List Char} {lo lo' hi : Nat} {vs : List Value} (h : ItemsStd s lo hi vs)
    (hl : lo' ≤ lo) : ItemsStd s lo' hi vs := by
  cases vs with
  | nil => exact Nat.le_trans hl h
  | cons v vs =>
    obtain ⟨m, h1, h2⟩ := h
    exact ⟨m, h1.mono hl (Nat.le_refl _), h2⟩

theorem EntriesStd.weaken {s : List Char} {lo lo' hi : Nat} {es : List Entry} (h : EntriesStd s lo hi es)
    (hl : lo' ≤ lo) : EntriesStd s lo' hi es := by
  cases es with
  | nil => exact Nat.le_trans hl h
  | cons e es =>
    obtain ⟨k, v, d⟩ := e
    obtain ⟨sp, m, h1, h2, h3⟩ := h
    exact ⟨sp, m, h1.mono hl, h2, h3⟩

theorem RootStd.weaken {s : List Char} {lo lo' hi : Nat} {es : List Entry} (h : RootStd s lo hi es)
    (hl : lo' ≤ lo) : RootStd s lo' hi es := by
  cases es with
  | nil => exact Nat.le_trans hl h
  | cons e es =>
    obtain ⟨m, h1, h2⟩ := h
    refine ⟨m, ?_, h2⟩
    rcases h1 with h1 | ⟨h0, whole, h1, h3, h4⟩
    · exact .inl (h1.weaken hl)
    · exact .inr ⟨h0, whole, h1, Nat.le_trans hl h3, h4⟩

theorem RootStd.append {s : List Char} {lo mid hi : Nat} {es es' : List Entry} (h : RootStd s lo mid es)
    (h' : RootStd s mid hi es') : RootStd s lo hi (es ++ es') := by
  induction es generalizing lo with
  | nil => exact h'.weaken h
  | cons e es ih =>
    obtain ⟨m, h1, h2⟩ := h
    exact ⟨m, h1, ih h2⟩

theorem RootStd.extend {s : List Char} {lo hi hi' : Nat} {es : List Entry} (h : RootStd s lo hi es)
    (hh : hi ≤ hi') : RootStd s lo hi' es := by
  have := h.append (es' := []) (hi := hi') hh
  simpa using this

/-! ## Feeding -/

/-- The events push the value. -/
def Feeds (evs : List Event) (v : Value) : Prop := ∀ b : Builder, b.stack ≠ [] → b.run evs = b.push v

theorem noErr_invalid {invalid : Bool} {sp : Span} {k : ParseErrorKind}
    (h : NoError (if invalid = true then [errEv sp k] else [])) : invalid = false := by
  cases invalid with
  | false => rfl
  | true => exact (noErr_err h).elim

theorem tag_len {s : List Char} {sp : Span} {name : List Char} {payload : Option Atom} {invalid : Bool}
    {errSpan : Option Span} (h : AtomGood s (.tag sp name payload invalid errSpan)) (hi : invalid = false) :
    sp.start + 1 + utf8Len name ≤ sp.stop := by
  obtain ⟨_, _, _, h1, h2⟩ := h
  cases payload with
  | none => have := h2.1 rfl hi; omega
  | some a =>
    obtain ⟨g1, g2, g3⟩ := h1
    have := g1.spanOK.1
    rcases g3 with g3 | ⟨g3, _⟩ <;> omega

theorem emitKey_std {s : List Char} {a : Atom} (hg : AtomGood s a) (h : NoError (emitKey a)) :
    ∃ t p k, emitKey a = [⟨a.span, .key t p k⟩] ∧
      KeyStd s a.span.start a.span (.mk (t.map fun n => ⟨n, some a.span⟩)
        (p.map fun text => .scalar text k (some a.span)) (some a.span)) := by
  have hs := hg.spanOK
  cases a with
  | scalar sp v k =>
    refine ⟨none, some v, k, rfl, rfl, hs, Nat.le_refl _, by simp, .inr ⟨v, k, rfl, fun _ => .of_lex hg⟩⟩
  | unit sp => exact ⟨none, none, .bare, rfl, rfl, hs, Nat.le_refl _, by simp, .inl rfl⟩
  | tag sp name payload invalid errSpan =>
    have ht : HasText s ⟨sp.start, sp.start + 1 + utf8Len name⟩ ('@' :: name) := hg.2.2.1
    unfold emitKey at h ⊢
    simp only at h ⊢
    have hlen := tag_len hg (noErr_invalid h.left)
    rw [noErr_ite h.left]
    replace h := h.right
    rw [List.nil_append]
    have hname : ∀ t', some (⟨name, some sp⟩ : Tag) = some t' → t'.span = some sp ∧
        sp.start + 1 + utf8Len t'.name ≤ sp.stop ∧
        HasText s ⟨sp.start, sp.start + 1 + utf8Len t'.name⟩ ('@' :: t'.name) := by
      rintro t' ⟨⟩; exact ⟨rfl, hlen, ht⟩
    split at h
    · exact ⟨some name, none, .bare, rfl, rfl, hs, Nat.le_refl _, hname, .inl rfl⟩
    · rename_i sp' v k
      have : (if k = .quoted then escErrEvents sp'.start v else []) = [] := by
        replace h := h.left
        split at h
        · rename_i hk; rw [if_pos hk]; exact noErr_escErr h
        · rename_i hk; rw [if_neg hk]
      rw [this]
      exact ⟨some name, some v, k, rfl, rfl, hs, Nat.le_refl _, hname, .inr ⟨v, k, rfl, by simp⟩⟩
    · exact ⟨some name, none, .bare, rfl, rfl, hs, Nat.le_refl _, hname, .inl rfl⟩
    · exact (noErr_panic h).elim
    · exact (noErr_err h).elim
  | invalidEscapeScalar sp raw =>
    rw [emitKey] at h ⊢
    rw [noErr_escErr h.left]
    exact ⟨none, some _, .quoted, rfl, rfl, hs, Nat.le_refl _, by simp, .inr ⟨_, _, rfl, fun _ => .of_raw _ hg⟩⟩
  | error sp m => exact (noErr_err h).elim
  | panic sp => exact (noErr_panic h).elim
  | object => exact (noErr_err h).elim
  | sequence => exact (noErr_err h).elim
  | attributes => exact (noErr_err h).elim

/-- Feeding an entry whose value is fed by `vs`. -/
theorem feed_entry {t p : Option (List Char)} {k : ScalarKind} {vs : List Event} {v : Value} (sp1 sp2 sp3 : Span)
    (hv : Feeds vs v) (b : Builder) (acc : List Entry) (sp : Span) (d : Option (List Char)) (rest : List Frame)
    (hb : b.stack = .object acc sp d :: rest) :
    b.run (⟨sp1, .entryStart⟩ :: ⟨sp2, .key t p k⟩ :: vs ++ [⟨sp3, .entryEnd⟩]) =
      { b with stack := .object (acc ++ [.mk (.mk (t.map fun n => ⟨n, some sp2⟩)
        (p.map fun text => .scalar text k (some sp2)) (some sp2)) v d]) sp none :: rest } := by
  rw [List.cons_append, List.cons_append, Builder.run_cons, Builder.run_cons]
  have he : (b.event ⟨sp1, .entryStart⟩).event ⟨sp2, .key t p k⟩ = { b with
      stack := .entry (some (.mk (t.map fun n => ⟨n, some sp2⟩)
        (p.map fun text => .scalar text k (some sp2)) (some sp2))) d :: .object acc sp none :: rest } := by
    simp only [Builder.event, hb]
  rw [he]
  generalize Value.mk (t.map fun n => (⟨n, some sp2⟩ : Tag)) (p.map fun text => Payload.scalar text k (some sp2)) (some sp2) = key
  rw [Builder.run_append, hv _ (by simp), push_entry _ key d none acc sp rest v rfl, Builder.run_cons,
    Builder.run_nil]
  simp only [Builder.event, List.drop_succ_cons, List.drop_zero]

theorem feed_doc (doc : Option (Span × List (List Char))) (d : Option (List Char)) : ∃ d', ∀ (b : Builder)
    acc sp rest, b.stack = .object acc sp d :: rest →
    b.run (docEvents doc) = { b with stack := .object acc sp d' :: rest } := by
  cases doc with
  | none => exact ⟨d, fun b acc sp rest hb => by rw [← hb]; rfl⟩
  | some x =>
    exact ⟨_, fun b acc sp rest hb => by
      simp only [docEvents, Builder.run_cons, Builder.run_nil, Builder.event, hb]; rfl⟩

mutual
theorem feed_atom {s : List Char} : ∀ {a : Atom}, AtomGood s a → AtomLaid a → NoError (emitValue a) →
    ∃ v, Std s a.span.start a.span.stop v ∧ Feeds (emitValue a) v
  | .scalar sp v k, hg, _, _ =>
    ⟨.mk none (some (.scalar v k (some sp))) (some sp),
      ⟨hg.1, Nat.le_refl _, Nat.le_refl _, by simp [TagStd], rfl, .of_lex hg⟩, fun _ _ => rfl⟩
  | .unit sp, hg, _, _ =>
    ⟨.mk none none (some sp), ⟨hg, Nat.le_refl _, Nat.le_refl _, by simp [TagStd], trivial⟩, fun _ _ => rfl⟩
  | .tag sp name payload invalid errSpan, hg, hl, h => by
    rw [emitValue] at h ⊢
    rw [List.append_assoc] at h ⊢
    have hlen := tag_len hg (noErr_invalid h.left)
    rw [noErr_ite h.left]
    replace h := h.right.tail.left
    have hsp : SpanOK s sp := hg.1
    have ht : HasText s ⟨sp.start, sp.start + 1 + utf8Len name⟩ ('@' :: name) := hg.2.2.1
    match payload, h, hl, hg.2.2.2.1 with
    | none, _, _, _ =>
      refine ⟨.mk (some ⟨name, some sp⟩) none (some sp),
        ⟨hsp, Nat.le_refl _, Nat.le_refl _, ?_, trivial⟩, fun b hb => ?_⟩
      · rintro t' ⟨⟩
        exact ⟨sp, rfl, hsp, Nat.le_refl _, Nat.le_refl _, Nat.le_refl _, Nat.le_refl _, hlen, ht⟩
      · simp only [emitPayload, List.nil_append, List.cons_append, Builder.run_cons, Builder.run_nil, Builder.event]
    | some a, h, hl, hp =>
      obtain ⟨l1, l2, l3⟩ : sp.start ≤ a.span.start ∧ a.span.stop = sp.stop ∧ AtomLaid a := hl
      have hga : AtomGood s a := hp.1
      obtain ⟨v, g1, g2⟩ := feed_atom (a := a) hga l3 h
      obtain ⟨t, p, vsp⟩ := v
      cases vsp with
      | none => exact g1.elim
      | some vsp =>
        obtain ⟨q1, q2, q3, q4, q5⟩ := g1
        refine ⟨.mk (some ⟨name, some sp⟩) p (some vsp), ⟨q1, ?_, ?_, ?_, q5⟩, fun b hb => ?_⟩
        · show sp.start ≤ vsp.start; omega
        · show vsp.stop ≤ sp.stop; omega
        · rintro t' ⟨⟩
          exact ⟨sp, rfl, hsp, Nat.le_refl _, by omega, by omega, Nat.le_refl _, hlen, ht⟩
        · rw [List.nil_append, List.cons_append, Builder.run_cons, Builder.run_append]
          have : b.event ⟨sp, .tagStart name⟩ = { b with stack := .tag name sp :: b.stack } := rfl
          rw [this]
          simp only [emitPayload]
          rw [g2 _ (by simp), push_tag, Builder.run_cons, Builder.run_nil, tagEnd_pushed]
          rfl
  | .object sp entries dups dangling unclosed, hg, hl, h => by
    rw [emitValue] at h ⊢
    simp only [List.cons_append] at h ⊢
    replace h := h.tail.left
    have hu : unclosed = false := by
      cases unclosed with
      | false => rfl
      | true => exact (noErr_err h.left.left.left).elim
    rw [noErr_ite h.left.left.left, noErr_map h.left.left.right, noErr_map h.left.right]
    simp only [List.nil_append]
    obtain ⟨es, d', g1, g2⟩ := feed_objEntries hg.2.1 (hl hu) h.right none
    refine ⟨.mk none (some (.object es (some sp))) (some sp),
      ⟨hg.1, Nat.le_refl _, Nat.le_refl _, by simp [TagStd], rfl, g1⟩, fun b hb => ?_⟩
    rw [Builder.run_cons, Builder.run_append]
    have : b.event ⟨sp, .objectStart⟩ = { b with stack := .object [] sp none :: b.stack } := rfl
    have g3 := g2 { b with stack := .object [] sp none :: b.stack } [] sp b.stack rfl
    rw [this, g3, Builder.run_cons, Builder.run_nil]
    simp only [Builder.event, List.nil_append]
    rw [if_neg (by simpa using hb)]
  | .sequence sp elems unclosed commas, hg, hl, h => by
    rw [emitValue] at h ⊢
    simp only [List.cons_append] at h ⊢
    replace h := h.tail.left
    have hu : unclosed = false := by
      cases unclosed with
      | false => rfl
      | true => exact (noErr_err h.left.left).elim
    rw [noErr_ite h.left.left, noErr_map h.left.right]
    simp only [List.nil_append]
    obtain ⟨vs, g1, g2⟩ := feed_elems hg.2.1 (hl hu) h.right
    refine ⟨.mk none (some (.sequence vs (some sp))) (some sp),
      ⟨hg.1, Nat.le_refl _, Nat.le_refl _, by simp [TagStd], rfl, g1⟩, fun b hb => ?_⟩
    rw [Builder.run_cons, Builder.run_append]
    have : b.event ⟨sp, .sequenceStart⟩ = { b with stack := .sequence [] sp :: b.stack } := rfl
    rw [this, g2 { b with stack := .sequence [] sp :: b.stack } [] sp b.stack rfl]
    rfl
  | .attributes sp attrs, hg, hl, h => by
    rw [emitValue] at h ⊢
    simp only [List.cons_append] at h ⊢
    obtain ⟨es, d', g1, g2⟩ := feed_attrs hg.2.1 hl h.tail.left none
    refine ⟨.mk none (some (.object es (some sp))) (some sp),
      ⟨hg.1, Nat.le_refl _, Nat.le_refl _, by simp [TagStd], rfl, g1⟩, fun b hb => ?_⟩
    rw [Builder.run_cons, Builder.run_append]
    have : b.event ⟨sp, .objectStart⟩ = { b with stack := .object [] sp none :: b.stack } := rfl
    have g3 := g2 { b with stack := .object [] sp none :: b.stack } [] sp b.stack rfl
    rw [this, g3, Builder.run_cons, Builder.run_nil]
    simp only [Builder.event, List.nil_append]
    rw [if_neg (by simpa using hb)]
  | .invalidEscapeScalar sp raw, hg, _, h => by
    rw [emitValue] at h ⊢
    rw [noErr_escErr h.left]
    exact ⟨.mk none (some (.scalar (unescapeQuoted raw) .quoted (some sp))) (some sp),
      ⟨hg.1.spanOK, Nat.le_refl _, Nat.le_refl _, by simp [TagStd], rfl, .of_raw _ hg⟩, fun _ _ => rfl⟩
  | .error sp m, _, _, h => (noErr_err (k := m.valueError) h).elim
  | .panic sp, _, _, h => (noErr_panic h).elim

theorem feed_objEntries {s : List Char} : ∀ {es : List ObjEntry} {lo hi : Nat}, EntriesGood s es →
    EntriesLaid lo hi es → NoError (emitEntries es) →
    ∀ d, ∃ es' d', EntriesStd s lo hi es' ∧ ∀ (b : Builder) acc sp rest, b.stack = .object acc sp d :: rest →
      b.run (emitEntries es) = { b with stack := .object (acc ++ es') sp d' :: rest }
  | [], lo, hi, _, hl, _, d => ⟨[], d, hl, fun b acc sp rest hb => by
      rw [emitEntries, Builder.run_nil, List.append_nil, ← hb]⟩
  | .mk key value doc tooMany :: rest, lo, hi, hg, hl, h, d => by
    rw [emitEntries_cons] at h
    have h1 := h.right.tail
    obtain ⟨t, p, k, hk, hks⟩ := emitKey_std hg.1 h1.left
    have he : tooMany = none := by
      cases tooMany with
      | none => rfl
      | some sp => exact (noErr_err h1.right.right.left).elim
    have hrest := h1.right.right.right
    obtain ⟨l1, l2⟩ := hl
    have hkey : ∀ v m, Feeds (emitValue value) v →
        ((v = .mk none none (some key.span) ∧ key.span.stop ≤ m) ∨ Std s key.span.stop m v) →
        EntriesLaid m hi rest → ∃ es' d', EntriesStd s lo hi es' ∧ ∀ (b : Builder) acc sp st,
        b.stack = .object acc sp d :: st →
        b.run (emitEntries (.mk key value doc tooMany :: rest)) =
          { b with stack := .object (acc ++ es') sp d' :: st } := by
      intro v m hf hv hr
      obtain ⟨d1, hd⟩ := feed_doc doc d
      obtain ⟨es', d', g1, g2⟩ := feed_objEntries (es := rest) hg.2.2.2.2 hr hrest none
      refine ⟨.mk _ v d1 :: es', d', ⟨key.span, m, hks.mono l1, hv, g1⟩, fun b acc sp st hb => ?_⟩
      have hev : emitEntries (.mk key value doc tooMany :: rest) = docEvents doc ++
          ((⟨key.span, .entryStart⟩ :: ⟨key.span, .key t p k⟩ :: emitValue value ++ [⟨value.span, .entryEnd⟩]) ++
            emitEntries rest) := by
        rw [emitEntries_cons, hk, he]
        simp [endEvents]
      rw [hev, Builder.run_append, hd b acc sp st hb, Builder.run_append,
        feed_entry _ _ _ hf _ acc sp d1 st rfl, g2 _ _ sp st rfl]
      simp
    rcases l2 with ⟨rfl, l3⟩ | ⟨l3, l4, l5⟩
    · exact hkey (.mk none none (some key.span)) key.span.stop (fun _ _ => rfl) (.inl ⟨rfl, Nat.le_refl _⟩) l3
    · obtain ⟨v, g1, g2⟩ := feed_atom hg.2.1 l4 h1.right.left
      exact hkey v value.span.stop g2 (.inr (g1.mono l3 (Nat.le_refl _))) l5

theorem feed_elems {s : List Char} : ∀ {es : List Atom} {lo hi : Nat}, ElemsGood s es →
    ElemsLaid lo hi es → NoError (emitElems es) →
    ∃ vs, ItemsStd s lo hi vs ∧ ∀ (b : Builder) acc sp rest, b.stack = .sequence acc sp :: rest →
      b.run (emitElems es) = { b with stack := .sequence (acc ++ vs) sp :: rest }
  | [], lo, hi, _, hl, _ => ⟨[], hl, fun b acc sp rest hb => by
      rw [emitElems, Builder.run_nil, List.append_nil, ← hb]⟩
  | a :: es, lo, hi, hg, hl, h => by
    rw [emitElems] at h ⊢
    obtain ⟨l1, l2, l3⟩ := hl
    obtain ⟨v, g1, g2⟩ := feed_atom hg.1 l2 h.left
    obtain ⟨vs, g3, g4⟩ := feed_elems hg.2 l3 h.right
    refine ⟨v :: vs, ⟨a.span.stop, g1.mono l1 (Nat.le_refl _), g3⟩, fun b acc sp rest hb => ?_⟩
    have hp : b.push v = { b with stack := .sequence (acc ++ [v]) sp :: rest } := by
      unfold Builder.push; rw [hb]; rfl
    rw [Builder.run_append, g2 b (by simp [hb]), hp, g4 _ (acc ++ [v]) sp rest rfl]
    simp

theorem feed_attrs {s : List Char} : ∀ {es : List AttrEntry} {lo hi : Nat}, AttrsGood s es →
    AttrsLaid lo hi es → NoError (emitAttrs es) →
    ∀ d, ∃ es' d', EntriesStd s lo hi es' ∧ ∀ (b : Builder) acc sp rest, b.stack = .object acc sp d :: rest →
      b.run (emitAttrs es) = { b with stack := .object (acc ++ es') sp d' :: rest }
  | [], lo, hi, _, hl, _, d => ⟨[], d, hl, fun b acc sp rest hb => by
      rw [emitAttrs, Builder.run_nil, List.append_nil, ← hb]⟩
  | .mk key ks value :: rest, lo, hi, hg, hl, h, d => by
    rw [emitAttrs] at h
    obtain ⟨l1, l2, l3, l4⟩ := hl
    obtain ⟨v, g1, g2⟩ := feed_atom hg.2.1 l3 h.tail.tail.left
    obtain ⟨es', d', g3, g4⟩ := feed_attrs (es := rest) hg.2.2 l4 h.tail.tail.right.tail none
    have hks : HasText s ks key := hg.1
    refine ⟨.mk (.mk none (some (.scalar key .bare (some ks))) (some ks)) v d :: es', d', ?_, ?_⟩
    · exact ⟨ks, value.span.stop, ⟨rfl, hks.spanOK, l1, by simp, .inr ⟨key, .bare, rfl, fun _ => .of_bare hks⟩⟩,
        .inr (g1.mono l2 (Nat.le_refl _)), g3⟩
    · intro b acc sp st hb
      have hev : emitAttrs (.mk key ks value :: rest) =
          (⟨ks, .entryStart⟩ :: ⟨ks, .key none (some key) .bare⟩ :: emitValue value ++ [⟨value.span, .entryEnd⟩]) ++
            emitAttrs rest := by
        rw [emitAttrs]; simp
      rw [hev, Builder.run_append, feed_entry _ _ _ g2 _ acc sp d st hb, g4 _ _ sp st rfl]
      simp
end

end Styx
