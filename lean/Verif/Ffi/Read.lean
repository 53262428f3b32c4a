import Verif.Ffi.Spec

/-! # The client reads the whole document -/

namespace Styx.Ffi

/-! ## Strings -/

theorem zero_mem_encode (c : Char) : (0 : UInt8) ∈ String.utf8EncodeChar c ↔ c = Char.ofNat 0 := by
  have hz : c = Char.ofNat 0 ↔ c.val.toNat = 0 := by
    rw [Char.ext_iff, ← UInt32.toNat_inj]; rfl
  rw [hz]
  have key : ∀ n : Nat, (0 : UInt8) = UInt8.ofNat n ↔ n % 256 = 0 := by
    intro n; rw [← UInt8.toNat_inj]; simp [UInt8.toNat_ofNat']; omega
  have hlt : c.val.toNat < 0x110000 := by
    have := c.valid; rcases this with h | h <;> simp only [UInt32.toNat] at * <;> omega
  unfold String.utf8EncodeChar
  simp only
  generalize c.val.toNat = v at *
  split
  · simp only [List.mem_singleton, key]; omega
  · split
    · simp only [List.mem_cons, List.not_mem_nil, or_false, key]; omega
    · split
      · simp only [List.mem_cons, List.not_mem_nil, or_false, key]; omega
      · simp only [List.mem_cons, List.not_mem_nil, or_false, key]; omega

theorem zero_mem_bytesOf (t : List Char) : (0 : UInt8) ∈ bytesOf t ↔ Char.ofNat 0 ∈ t := by
  simp only [bytesOf, List.mem_flatMap, zero_mem_encode]
  exact ⟨fun ⟨a, h1, h2⟩ => h2 ▸ h1, fun h => ⟨_, h, rfl⟩⟩

theorem toStr_bytesOf (t : List Char) : toStr (bytesOf t) = some t := by
  have := List.utf8Decode?_utf8Encode (l := t)
  rw [List.utf8Encode] at this
  rw [toStr, bytesOf, this]
  simp

theorem toStr_eq {bs : List UInt8} {t : List Char} (h : toStr bs = some t) : bs = bytesOf t := by
  unfold toStr at h
  cases hd : bs.toByteArray.utf8Decode? with
  | none => simp [hd] at h
  | some a =>
    have := ByteArray.utf8Encode_get_utf8Decode? (b := bs.toByteArray) (h := by simp [hd])
    simp only [hd, Option.get_some, Option.map_some, Option.some.injEq] at this h
    rw [h, List.utf8Encode] at this
    have h2 := congrArg (fun b => b.data.toList) this
    simpa [bytesOf] using h2.symm

/-! ## Calls -/

theorem bind_ok {α β : Type} {m : CM α} {f : α → CM β} {h h' : Heap} {a : α} (hm : m h = .ok a h') :
    (m >>= f) h = f a h' := by
  show CM.bind m f h = _
  rw [CM.bind, hm]

theorem pure_ok {α : Type} (a : α) (h : Heap) : (pure a : CM α) h = .ok a h := rfl

/-- The numbers in use are old. -/
def Fresh (h : Heap) : Prop := (∀ x ∈ h.docs, x.1 < h.next) ∧ ∀ x ∈ h.strs, x.1 < h.next

/-- Nothing has changed except that numbers have been used. -/
def Later (h h' : Heap) : Prop := h'.docs = h.docs ∧ h'.strs = h.strs ∧ h.next ≤ h'.next

theorem Later.refl (h : Heap) : Later h h := ⟨rfl, rfl, Nat.le_refl _⟩

theorem Later.trans {h h' h'' : Heap} (a : Later h h') (b : Later h' h'') : Later h h'' :=
  ⟨b.1.trans a.1, b.2.1.trans a.2.1, Nat.le_trans a.2.2 b.2.2⟩

theorem Later.fresh {h h' : Heap} (a : Later h h') (f : Fresh h) : Fresh h' := by
  refine ⟨fun x hx => ?_, fun x hx => ?_⟩
  · rw [a.1] at hx; exact Nat.lt_of_lt_of_le (f.1 x hx) a.2.2
  · rw [a.2.1] at hx; exact Nat.lt_of_lt_of_le (f.2 x hx) a.2.2

theorem filter_old {α : Type} {l : List (Nat × α)} {n : Nat} (h : ∀ x ∈ l, x.1 < n) :
    l.filter (fun x => x.1 != n) = l := by
  rw [List.filter_eq_self]
  intro x hx
  have := h x hx
  simp; omega

theorem take_new {t : List Char} {h : Heap} (hf : Fresh h) (hn : Char.ofNat 0 ∉ t) :
    ∃ h', (do takeString (← newString t) : CM _) h = .ok (some (bytesOf t)) h' ∧ Later h h' := by
  have hz : (0 : UInt8) ∉ bytesOf t := by rw [zero_mem_bytesOf]; exact hn
  refine ⟨{ h with next := h.next + 1 }, ?_, rfl, rfl, by simp⟩
  rw [bind_ok (h' := { h with strs := (h.next, bytesOf t) :: h.strs, next := h.next + 1 }) (a := some h.next)
    (by simp [newString, hz])]
  simp only [takeString, List.lookup_cons_self]
  rw [bind_ok (h' := { h with next := h.next + 1 }) (a := ())]
  · rfl
  · simp only [freeString, List.lookup_cons_self, List.filter_cons, bne_self_eq_false, filter_old hf.2]
    rfl

theorem PointsTo.deref {h : Heap} {p : Ptr} {v : Value} (a : PointsTo h p v) : derefValue p h = .ok v h := by
  obtain ⟨root, h1, h2⟩ := a
  simp [derefValue, h1, h2]

theorem PointsTo.later {h h' : Heap} {p : Ptr} {v : Value} (a : PointsTo h p v) (l : Later h h') : PointsTo h' p v := by
  obtain ⟨root, h1, h2⟩ := a
  exact ⟨root, by rw [l.1, h1], h2⟩

theorem PointsIn.later {h h' : Heap} {p : Ptr} {v : Payload} (a : PointsIn h p v) (l : Later h h') : PointsIn h' p v := by
  obtain ⟨root, h1, h2⟩ := a
  exact ⟨root, by rw [l.1, h1], h2⟩

theorem PointsIn.deref {h : Heap} {p : Ptr} {es : List Entry} {sp : Option Span} (a : PointsIn h p (.object es sp)) :
    derefObject p h = .ok es h := by
  obtain ⟨root, h1, h2⟩ := a
  simp [derefObject, h1, h2]

theorem PointsIn.derefSeq {h : Heap} {p : Ptr} {es : List Value} {sp : Option Span} (a : PointsIn h p (.sequence es sp)) :
    derefSequence p h = .ok es h := by
  obtain ⟨root, h1, h2⟩ := a
  simp [derefSequence, h1, h2]

theorem PointsTo.payload {h : Heap} {p : Ptr} {t : Option Tag} {v : Payload} {s : Option Span}
    (a : PointsTo h p (.mk t (some v) s)) : PointsIn h p v := by
  obtain ⟨root, h1, h2⟩ := a
  refine ⟨root, h1, ?_⟩
  cases hw : p.way with
  | nil => rw [hw] at h2; simp [valueAt] at h2
  | cons x w => rw [hw] at h2; simp [payloadAt, h2, Value.payload]

theorem valueAt_append (w : List Step) : ∀ (root p : Payload) (s : Step) (ss : List Step), payloadAt root w = some p →
    valueAt root (w ++ s :: ss) = valueAt p (s :: ss) := by
  induction w with
  | nil => intro root p s ss h; simp [payloadAt] at h; simp [h]
  | cons x w ih =>
    intro root p s ss h
    simp only [payloadAt] at h
    cases w with
    | nil =>
      simp only [valueAt] at h
      cases hv : step root x with
      | none => simp [hv] at h
      | some v =>
        obtain ⟨t, q, sp⟩ := v
        simp only [hv, Option.bind_some, Value.payload] at h
        simp [valueAt, hv, h]
    | cons y w =>
      simp only [List.cons_append, valueAt] at h ⊢
      cases hv : step root x with
      | none => simp [hv] at h
      | some v =>
        obtain ⟨t, q, sp⟩ := v
        cases q with
        | none => simp [hv] at h
        | some q =>
          simp only [hv] at h ⊢
          exact ih q p s ss h

theorem PointsIn.step {h : Heap} {p : Ptr} {v : Payload} {s : Step} {x : Value} (a : PointsIn h p v)
    (hs : step v s = some x) : PointsTo h ⟨p.doc, p.way ++ [s]⟩ x := by
  obtain ⟨root, h1, h2⟩ := a
  refine ⟨root, h1, ?_⟩
  rw [valueAt_append p.way root v s [] h2]
  exact hs

/-! ## Reading -/

theorem newString_read {β : Type} {t : List Char} {h : Heap} (hf : Fresh h) (hn : Char.ofNat 0 ∉ t)
    (f : Option (List UInt8) → CM β) :
    ∃ h', Later h h' ∧ (newString t >>= fun a => takeString a >>= f) h = f (some (bytesOf t)) h' := by
  obtain ⟨h', h1, h2⟩ := take_new hf hn
  refine ⟨h', h2, ?_⟩
  rw [← bind_ok (f := f) h1]
  show CM.bind _ _ h = CM.bind (CM.bind _ _) _ h
  simp only [CM.bind, Bind.bind]
  cases newString t h <;> rfl

theorem tag_read {β : Type} {t : Option Tag} {pl : Option Payload} {s : Option Span} {h : Heap} {p : Ptr} (hf : Fresh h)
    (hp : PointsTo h p (.mk t pl s)) (hn : ∀ n, t = some n → Char.ofNat 0 ∉ n.name)
    (f : Option (List UInt8) → CM β) :
    ∃ h', Later h h' ∧ (valueTag (some p) >>= fun a => takeString a >>= f) h =
      f (t.map fun t => bytesOf t.name) h' := by
  cases t with
  | none =>
    refine ⟨h, .refl h, ?_⟩
    rw [bind_ok (a := none) (h' := h), bind_ok (a := none) (h' := h)]
    · rfl
    · rfl
    · rw [valueTag, bind_ok hp.deref]; rfl
  | some t =>
    obtain ⟨h', h1, h2⟩ := newString_read hf (hn t rfl) f
    refine ⟨h', h1, ?_⟩
    rw [Option.map_some, ← h2]
    have : valueTag (some p) h = newString t.name h := by
      rw [valueTag, bind_ok hp.deref]; rfl
    show CM.bind _ _ h = CM.bind _ _ h
    rw [CM.bind, CM.bind, this]

theorem scalar_read {β : Type} {t : Option Tag} {text : List Char} {k : ScalarKind} {sp s : Option Span} {h : Heap}
    {p : Ptr} (hf : Fresh h) (hp : PointsTo h p (.mk t (some (.scalar text k sp)) s)) (hn : Char.ofNat 0 ∉ text)
    (f : Option (List UInt8) → CM β) :
    ∃ h', Later h h' ∧ (valueScalar (some p) >>= fun a => takeString a >>= f) h = f (some (bytesOf text)) h' := by
  obtain ⟨h', h1, h2⟩ := newString_read hf hn f
  refine ⟨h', h1, ?_⟩
  rw [← h2]
  have : valueScalar (some p) h = newString text h := by
    rw [valueScalar, bind_ok hp.deref]; rfl
  show CM.bind _ _ h = CM.bind _ _ h
  rw [CM.bind, CM.bind, this]

/-- A value is read completely by reading deep enough. -/
def ReadsAs (v : Value) : Prop :=
  ∃ N, ∀ n ≥ N, ∀ (h : Heap) (p : Ptr), Fresh h → PointsTo h p v →
    ∃ h', readValue n (some p) h = .ok (visible v) h' ∧ Later h h'

/-- What `readValue` does with an entry. -/
def readEntry (n : Nat) (o : Option Ptr) (i : Nat) : CM Entry := do
  return Entry.mk (← readValue n (← objectKeyAt o i)) (← readValue n (← objectValueAt o i)) none

theorem sequenceGet_ok {h : Heap} {p : Ptr} {vs : List Value} {sp : Option Span} (hp : PointsIn h p (.sequence vs sp))
    {i : Nat} (hi : i < vs.length) :
    sequenceGet (some p) i h = .ok (some ⟨p.doc, p.way ++ [.item i]⟩) h ∧
      PointsTo h ⟨p.doc, p.way ++ [.item i]⟩ vs[i] := by
  refine ⟨?_, hp.step (by simp [step, hi])⟩
  rw [sequenceGet, bind_ok hp.derefSeq, if_pos hi]; rfl

theorem objectKeyAt_ok {h : Heap} {p : Ptr} {es : List Entry} {sp : Option Span} (hp : PointsIn h p (.object es sp))
    {i : Nat} (hi : i < es.length) :
    objectKeyAt (some p) i h = .ok (some ⟨p.doc, p.way ++ [.key i]⟩) h ∧
      PointsTo h ⟨p.doc, p.way ++ [.key i]⟩ es[i].key := by
  refine ⟨?_, hp.step (by simp [step, hi])⟩
  rw [objectKeyAt, bind_ok hp.deref, if_pos hi]; rfl

theorem objectValueAt_ok {h : Heap} {p : Ptr} {es : List Entry} {sp : Option Span} (hp : PointsIn h p (.object es sp))
    {i : Nat} (hi : i < es.length) :
    objectValueAt (some p) i h = .ok (some ⟨p.doc, p.way ++ [.value i]⟩) h ∧
      PointsTo h ⟨p.doc, p.way ++ [.value i]⟩ es[i].value := by
  refine ⟨?_, hp.step (by simp [step, hi])⟩
  rw [objectValueAt, bind_ok hp.deref, if_pos hi]; rfl

theorem textOf_bytesOf (t : List Char) : textOf (some (bytesOf t)) = t := by
  simp [textOf, toStr_bytesOf]

theorem tag_text (t : Option Tag) :
    (t.map fun t => bytesOf t.name).map (fun bs => (⟨textOf (some bs), none⟩ : Tag)) = t.map fun t => ⟨t.name, none⟩ := by
  cases t <;> simp [textOf_bytesOf]

mutual
theorem reads_value : ∀ v : Value, NoNul v → ReadsAs v
  | .mk t none s, hn => by
    refine ⟨1, fun n h1 h p hf hp => ?_⟩
    obtain ⟨n, rfl⟩ : ∃ m, n = m + 1 := ⟨n - 1, by omega⟩
    rw [readValue]
    obtain ⟨h', hl, he⟩ := tag_read hf hp (by simpa [NoNul] using hn) _
    refine ⟨h', ?_, hl⟩
    rw [he, tag_text, bind_ok (a := .none) (h' := h')]
    · rfl
    · rw [valuePayloadKind, bind_ok (hp.later hl).deref]; rfl
  | .mk t (some (.scalar text k sp)) s, hn => by
    simp only [NoNul] at hn
    refine ⟨1, fun n h1 h p hf hp => ?_⟩
    obtain ⟨n, rfl⟩ : ∃ m, n = m + 1 := ⟨n - 1, by omega⟩
    rw [readValue]
    obtain ⟨h', hl, he⟩ := tag_read hf hp hn.1 _
    rw [he, tag_text, bind_ok (a := .scalar) (h' := h')]
    · obtain ⟨h2, hl2, he2⟩ := scalar_read (hl.fresh hf) (hp.later hl) hn.2 _
      refine ⟨h2, ?_, hl.trans hl2⟩
      refine he2.trans ?_
      rw [textOf_bytesOf]; rfl
    · rw [valuePayloadKind, bind_ok (hp.later hl).deref]; rfl
  | .mk t (some (.sequence vs sp)) s, hn => by
    simp only [NoNul] at hn
    obtain ⟨N, hN⟩ := reads_items vs hn.2
    refine ⟨N + 1, fun n h1 h p hf hp => ?_⟩
    obtain ⟨n, rfl⟩ : ∃ m, n = m + 1 := ⟨n - 1, by omega⟩
    rw [readValue]
    obtain ⟨h', hl, he⟩ := tag_read hf hp hn.1 _
    rw [he, tag_text, bind_ok (a := .sequence) (h' := h')]
    · have hp' := hp.later hl
      obtain ⟨h2, k1, k2⟩ := hN n (by omega) h' p 0 vs sp (hl.fresh hf) hp'.payload rfl
      refine ⟨h2, ?_, hl.trans k2⟩
      simp only
      rw [bind_ok (a := some p) (h' := h'), bind_ok (a := vs.length) (h' := h'), bind_ok k1]
      · rfl
      · rw [sequenceLen, bind_ok hp'.payload.derefSeq]; rfl
      · rw [valueAsSequence, bind_ok hp'.deref]; rfl
    · rw [valuePayloadKind, bind_ok (hp.later hl).deref]; rfl
  | .mk t (some (.object es sp)) s, hn => by
    simp only [NoNul] at hn
    obtain ⟨N, hN⟩ := reads_entries es hn.2
    refine ⟨N + 1, fun n h1 h p hf hp => ?_⟩
    obtain ⟨n, rfl⟩ : ∃ m, n = m + 1 := ⟨n - 1, by omega⟩
    rw [readValue]
    obtain ⟨h', hl, he⟩ := tag_read hf hp hn.1 _
    rw [he, tag_text, bind_ok (a := .object) (h' := h')]
    · have hp' := hp.later hl
      obtain ⟨h2, k1, k2⟩ := hN n (by omega) h' p 0 es sp (hl.fresh hf) hp'.payload rfl
      refine ⟨h2, ?_, hl.trans k2⟩
      simp only
      rw [bind_ok (a := some p) (h' := h'), bind_ok (a := es.length) (h' := h')]
      · exact bind_ok k1
      · rw [objectLen, bind_ok hp'.payload.deref]; rfl
      · rw [valueAsObject, bind_ok hp'.deref]; rfl
    · rw [valuePayloadKind, bind_ok (hp.later hl).deref]; rfl
theorem reads_items : ∀ vs : List Value, NoNulAll vs → ∃ N, ∀ n ≥ N, ∀ (h : Heap) (p : Ptr) (i : Nat) (all : List Value)
      (sp : Option Span), Fresh h → PointsIn h p (.sequence all sp) → all.drop i = vs →
      ∃ h', collect (fun i => do readValue n (← sequenceGet (some p) i)) i vs.length h = .ok (visibleAll vs) h' ∧
        Later h h'
  | [], _ => ⟨0, fun n _ h p i all sp _ _ _ => ⟨h, rfl, .refl h⟩⟩
  | v :: vs, hn => by
    simp only [NoNulAll] at hn
    obtain ⟨N1, h1⟩ := reads_value v hn.1
    obtain ⟨N2, h2⟩ := reads_items vs hn.2
    refine ⟨max N1 N2, fun n hn h p i all sp hf hp hd => ?_⟩
    have hi : i < all.length := by
      have := congrArg List.length hd; simp at this; omega
    have hv : all[i] = v := by
      have := congrArg (·[0]?) hd; simpa [hi] using this
    obtain ⟨g1, g2⟩ := sequenceGet_ok hp hi
    rw [hv] at g2
    obtain ⟨h', k1, k2⟩ := h1 n (by omega) h _ hf g2
    obtain ⟨h3, k3, k4⟩ := h2 n (by omega) h' p (i + 1) all sp (k2.fresh hf) (hp.later k2)
      (by rw [← List.tail_drop, hd]; rfl)
    refine ⟨h3, ?_, k2.trans k4⟩
    rw [List.length_cons, collect, bind_ok (a := visible v) (h' := h'), bind_ok k3]
    · rfl
    · rw [bind_ok g1]; exact k1
theorem reads_entries : ∀ es : List Entry, NoNulEntries es → ∃ N, ∀ n ≥ N, ∀ (h : Heap) (p : Ptr) (i : Nat)
      (all : List Entry) (sp : Option Span), Fresh h → PointsIn h p (.object all sp) → all.drop i = es →
      ∃ h', collect (readEntry n (some p)) i es.length h = .ok (visibleEntries es) h' ∧ Later h h'
  | [], _ => ⟨0, fun n _ h p i all sp _ _ _ => ⟨h, rfl, .refl h⟩⟩
  | .mk k v d :: es, hn => by
    simp only [NoNulEntries] at hn
    obtain ⟨N0, h0⟩ := reads_value k hn.1
    obtain ⟨N1, h1⟩ := reads_value v hn.2.1
    obtain ⟨N2, h2⟩ := reads_entries es hn.2.2
    refine ⟨max N0 (max N1 N2), fun n hn h p i all sp hf hp hd => ?_⟩
    have hi : i < all.length := by
      have := congrArg List.length hd; simp at this; omega
    have hv : all[i] = .mk k v d := by
      have := congrArg (·[0]?) hd; simpa [hi] using this
    obtain ⟨g1, g2⟩ := objectKeyAt_ok hp hi
    rw [hv] at g2
    obtain ⟨h', k1, k2⟩ := h0 n (by omega) h _ hf g2
    obtain ⟨g3, g4⟩ := objectValueAt_ok (hp.later k2) hi
    rw [hv] at g4
    obtain ⟨h3, k3, k4⟩ := h1 n (by omega) h' _ (k2.fresh hf) g4
    have k5 := k2.trans k4
    obtain ⟨h4, k6, k7⟩ := h2 n (by omega) h3 p (i + 1) all sp (k5.fresh hf) (hp.later k5)
      (by rw [← List.tail_drop, hd]; rfl)
    refine ⟨h4, ?_, k5.trans k7⟩
    rw [List.length_cons, collect, bind_ok (a := .mk (visible k) (visible v) none) (h' := h3), bind_ok k6]
    · rfl
    · rw [readEntry, bind_ok g1, bind_ok k1, bind_ok g3, bind_ok k3]; rfl
end

theorem reads_document {es : List Entry} (hn : NoNulEntries es) : ∃ N, ∀ n ≥ N, ∀ (h : Heap) (d : Nat)
    (sp : Option Span), Fresh h → h.docs.lookup d = some (.object es sp) →
    ∃ h', readDocument n (some d) h = .ok (visibleEntries es) h' ∧ Later h h' := by
  obtain ⟨N, hN⟩ := reads_entries es hn
  refine ⟨N, fun n hn h d sp hf hd => ?_⟩
  have hp : PointsIn h ⟨d, []⟩ (.object es sp) := ⟨_, hd, rfl⟩
  obtain ⟨h', k1, k2⟩ := hN n hn h ⟨d, []⟩ 0 es sp hf hp rfl
  refine ⟨h', ?_, k2⟩
  rw [readDocument, bind_ok (a := some ⟨d, []⟩) (h' := h), bind_ok (a := es.length) (h' := h)]
  · exact k1
  · rw [objectLen, bind_ok hp.deref]; rfl
  · rw [documentRoot, bind_ok (a := .object es sp) (h' := h)]
    · rfl
    · simp [derefDoc, hd]

end Styx.Ffi
