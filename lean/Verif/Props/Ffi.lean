import Verif.Ffi.Trace

/-! # Property theorems C68 and C69: the C interface

`Verif.Ffi.Spec` is the specification. -/

namespace Styx.Props

open Styx Styx.Ffi

/-! ## C68 -/

theorem parseTree_root {source : List Char} {v : Value} (h : parseTree source = some (.ok v)) :
    ∃ es, v = .mk none (some (.object es none)) none := by
  unfold parseTree at h
  split at h
  · cases h
  · split at h
    · cases h
    · simp only [Option.some.injEq, buildTree, Builder.finish] at h
      split at h
      · cases h
      · split at h
        · cases h; exact ⟨_, rfl⟩
        · cases h

theorem cString_bytesOf {text : List Char} (hz : Char.ofNat 0 ∉ text) : cString (bytesOf text) = bytesOf text := by
  rw [← zero_mem_bytesOf] at hz
  unfold cString
  generalize bytesOf text = bs at hz
  induction bs with
  | nil => rfl
  | cons b bs ih =>
    simp only [List.mem_cons, not_or] at hz
    rw [List.takeWhile_cons, ih hz.2]
    have : (b != 0) = true := by simp; exact fun hb => hz.1 hb.symm
    simp [this]

theorem reachable_fresh {msg : BuildError → List Char} {h : Heap} (hr : Reachable msg h) : Fresh h := by
  obtain ⟨ops, rs, h1, h2⟩ := hr
  rcases run_inv msg ops [] [] {} inv_nil h1 with e | ⟨rs', h', g1, -, g2, -⟩
  · rw [e] at h2; cases h2
  · rw [g1] at h2; cases h2; exact g2.fresh

/-- **C68**, a document: for every text without NUL whose tree has no NUL in it, and in every state of the memory,
`styx_parse` returns a document and no error; a client that then walks over the whole document with the functions of
the interface, deep enough, finds exactly the tree (all that the interface shows of it), and when it has freed its
strings the memory is what it was. -/
theorem C68_document (msg : BuildError → List Char) (text : List Char) (hz : Char.ofNat 0 ∉ text) (es : List Entry)
    (sp sp' : Option Span) (ht : parseTree text = some (.ok (.mk none (some (.object es sp)) sp')))
    (hn : NoNulEntries es) (h : Heap) (hh : Reachable msg h) :
    ∃ d h1, parse msg (some (cString (bytesOf text))) h = .ok ⟨some d, none⟩ h1 ∧
      ∃ N, ∀ n ≥ N, ∃ h2, readDocument n (some d) h1 = .ok (visibleEntries es) h2 ∧
        h2.docs = h1.docs ∧ h2.strs = h1.strs := by
  have hd : parseDocument text = some (.ok (.object es sp)) := by simp [parseDocument, ht]
  refine ⟨h.next, { h with docs := (h.next, .object es sp) :: h.docs, next := h.next + 1 }, ?_, ?_⟩
  · rw [cString_bytesOf hz]
    simp only [parse, toStr_bytesOf, hd]
  · obtain ⟨N, hN⟩ := reads_document hn
    have hf := reachable_fresh hh
    have hf1 : Fresh { h with docs := (h.next, .object es sp) :: h.docs, next := h.next + 1 } := by
      refine ⟨fun x hx => ?_, fun x hx => ?_⟩
      · simp only [List.mem_cons] at hx
        rcases hx with rfl | hx
        · simp
        · have := hf.1 x hx; simp only; omega
      · have := hf.2 x hx; simp only; omega
    refine ⟨N, fun n hge => ?_⟩
    obtain ⟨h2, g1, g2, g3, -⟩ := hN n hge _ h.next sp hf1 List.lookup_cons_self
    exact ⟨h2, g1, g2, g3⟩

/-- **C68**, no document: for every array of bytes, if `styx_parse` returns then it returns either a document or an
error, not both; it returns a document exactly if the bytes are UTF-8 for a text that has a tree; if the text has an
error then the message can be read from the string, and no document has been made. -/
theorem C68_error (msg : BuildError → List Char) (bs : List UInt8) (h : Heap) (r : ParseResult) (h1 : Heap)
    (hp : parse msg (some (cString bs)) h = .ok r h1) :
    (r.document.isSome = true ↔ r.error = none) ∧
    (r.document.isSome = true ↔ ∃ text v, toStr (cString bs) = some text ∧ parseTree text = some (.ok v)) ∧
    (∀ s, r.error = some s → h1.docs = h.docs ∧ ∃ m, h1.strs = (s, m) :: h.strs ∧
      ∀ text e, toStr (cString bs) = some text → parseTree text = some (.error e) → Char.ofNat 0 ∉ msg e →
        toStr m = some (msg e)) := by
  generalize cString bs = bs at hp ⊢
  simp only [parse] at hp
  cases ht : toStr bs with
  | none =>
    simp only [ht] at hp
    rw [bind_ok (newString_const (by decide) h)] at hp
    cases hp
    simp
  | some text =>
    simp only [ht, parseDocument] at hp
    cases hT : parseTree text with
    | none => simp only [hT] at hp; cases hp
    | some x =>
      cases x with
      | ok v =>
        obtain ⟨es, rfl⟩ := parseTree_root hT
        simp only [hT] at hp
        cases hp
        simp [hT]
      | error e =>
        simp only [hT] at hp
        have key : ∀ m, (Char.ofNat 0 ∉ msg e → toStr m = some (msg e)) → r = ⟨none, some h.next⟩ →
            h1 = { h with strs := (h.next, m) :: h.strs, next := h.next + 1 } →
            (r.document.isSome = true ↔ r.error = none) ∧
            (r.document.isSome = true ↔ ∃ text' v, some text = some text' ∧ parseTree text' = some (.ok v)) ∧
            (∀ s, r.error = some s → h1.docs = h.docs ∧ ∃ m, h1.strs = (s, m) :: h.strs ∧
              ∀ text' e, some text = some text' → parseTree text' = some (.error e) → Char.ofNat 0 ∉ msg e →
                toStr m = some (msg e)) := by
          rintro m hm rfl rfl
          refine ⟨by simp, ?_, ?_⟩
          · constructor
            · intro hc; cases hc
            · rintro ⟨text', v, h2, h3⟩
              cases h2; rw [hT] at h3; cases h3
          · rintro s hs
            cases hs
            refine ⟨rfl, m, rfl, ?_⟩
            rintro text' e' h2 h3 h4
            cases h2; rw [hT] at h3; cases h3
            exact hm h4
        rcases newString_cases (msg e) h with g | g
        · rw [bind_ok g] at hp
          simp only at hp
          have g' := newString_const (t := chars! "unknown error") (by decide) h
          rw [bind_ok g'] at hp
          cases hp
          refine key _ (fun hc => ?_) rfl rfl
          rw [newString_const hc h] at g
          cases g
        · rw [bind_ok g] at hp
          cases hp
          exact key _ (fun _ => toStr_bytesOf _) rfl rfl

/-- **C68**, functions on values: what each of them returns, for a pointer to a value. -/
theorem C68_value (h : Heap) (p : Ptr) (v : Value) (hp : PointsTo h p v) :
    (∃ k, valuePayloadKind (some p) h = .ok k h ∧ (k = .none ↔ v.payload = none) ∧
      (k = .scalar ↔ ∃ t sk sp, v.payload = some (.scalar t sk sp)) ∧
      (k = .sequence ↔ ∃ vs sp, v.payload = some (.sequence vs sp)) ∧
      (k = .object ↔ ∃ es sp, v.payload = some (.object es sp))) ∧
    (∃ b, valueIsUnit (some p) h = .ok b h ∧ (b = true ↔ v.tag = none ∧ v.payload = none)) ∧
    (∃ r, valueAsObject (some p) h = .ok r h ∧
      ((∀ es sp, v.payload ≠ some (.object es sp)) → r = none) ∧
      ∀ es sp, v.payload = some (.object es sp) → ∃ q, r = some q ∧ PointsIn h q (.object es sp)) ∧
    (∃ r, valueAsSequence (some p) h = .ok r h ∧
      ((∀ vs sp, v.payload ≠ some (.sequence vs sp)) → r = none) ∧
      ∀ vs sp, v.payload = some (.sequence vs sp) → ∃ q, r = some q ∧ PointsIn h q (.sequence vs sp)) ∧
    (∀ path, ∃ r, valueGet (some p) (some (bytesOf path)) h = .ok r h ∧
      (v.get path = none → r = none) ∧ ∀ u, v.get path = some u → ∃ q, r = some q ∧ PointsTo h q u) := by
  obtain ⟨t, pl, s⟩ := v
  refine ⟨?_, ?_, ?_, ?_, ?_⟩
  · cases pl with
    | none => exact ⟨.none, by rw [valuePayloadKind, bind_ok hp.deref]; rfl, by simp [Value.payload]⟩
    | some pl =>
      cases pl with
      | scalar a b c => exact ⟨.scalar, by rw [valuePayloadKind, bind_ok hp.deref]; rfl, by simp [Value.payload]⟩
      | sequence a b => exact ⟨.sequence, by rw [valuePayloadKind, bind_ok hp.deref]; rfl, by simp [Value.payload]⟩
      | object a b => exact ⟨.object, by rw [valuePayloadKind, bind_ok hp.deref]; rfl, by simp [Value.payload]⟩
  · refine ⟨(Value.mk t pl s).isUnit, by rw [valueIsUnit, bind_ok hp.deref]; rfl, ?_⟩
    cases t <;> cases pl <;> simp [Value.isUnit, Value.tag, Value.payload]
  · cases pl with
    | none => exact ⟨none, by rw [valueAsObject, bind_ok hp.deref]; rfl, by simp [Value.payload]⟩
    | some pl =>
      cases pl with
      | scalar a b c => exact ⟨none, by rw [valueAsObject, bind_ok hp.deref]; rfl, by simp [Value.payload]⟩
      | sequence a b => exact ⟨none, by rw [valueAsObject, bind_ok hp.deref]; rfl, by simp [Value.payload]⟩
      | object a b =>
        exact ⟨some p, by rw [valueAsObject, bind_ok hp.deref]; rfl, fun hc => absurd rfl (hc a b),
          fun es sp he => by cases he; exact ⟨p, rfl, hp.payload⟩⟩
  · cases pl with
    | none => exact ⟨none, by rw [valueAsSequence, bind_ok hp.deref]; rfl, by simp [Value.payload]⟩
    | some pl =>
      cases pl with
      | scalar a b c => exact ⟨none, by rw [valueAsSequence, bind_ok hp.deref]; rfl, by simp [Value.payload]⟩
      | object a b => exact ⟨none, by rw [valueAsSequence, bind_ok hp.deref]; rfl, by simp [Value.payload]⟩
      | sequence a b =>
        exact ⟨some p, by rw [valueAsSequence, bind_ok hp.deref]; rfl, fun hc => absurd rfl (hc a b),
          fun es sp he => by cases he; exact ⟨p, rfl, hp.payload⟩⟩
  · intro path
    obtain ⟨r, g1, g2⟩ := valueGet_ok (toStr_bytesOf path) hp
    refine ⟨r, g1, fun hc => ?_, fun u hu => ?_⟩
    · rw [hc] at g2; exact g2
    · rw [hu] at g2
      obtain ⟨q, k1, -, k2⟩ := g2
      exact ⟨q, k1, k2⟩

/-- **C68**, texts: the tag and the scalar of a value come as new strings with the bytes of the text, if it has no NUL;
nothing comes if there is no tag or no scalar. -/
theorem C68_text_partial (h : Heap) (p : Ptr) (v : Value) (hp : PointsTo h p v) :
    (v.tag = none → valueTag (some p) h = .ok none h) ∧
    (∀ t, v.tag = some t → Char.ofNat 0 ∉ t.name → ∃ s h', valueTag (some p) h = .ok (some s) h' ∧
      h'.docs = h.docs ∧ h'.strs = (s, bytesOf t.name) :: h.strs) ∧
    ((∀ t sk sp, v.payload ≠ some (.scalar t sk sp)) → valueScalar (some p) h = .ok none h) ∧
    (∀ t sk sp, v.payload = some (.scalar t sk sp) → Char.ofNat 0 ∉ t → ∃ s h', valueScalar (some p) h = .ok (some s) h' ∧
      h'.docs = h.docs ∧ h'.strs = (s, bytesOf t) :: h.strs) := by
  obtain ⟨t, pl, s⟩ := v
  refine ⟨?_, ?_, ?_, ?_⟩
  · rintro ⟨⟩
    rw [valueTag, bind_ok hp.deref]; rfl
  · rintro t' ⟨⟩ hn
    refine ⟨h.next, { h with strs := (h.next, bytesOf t'.name) :: h.strs, next := h.next + 1 }, ?_, rfl, rfl⟩
    rw [valueTag, bind_ok hp.deref]
    exact newString_const hn h
  · intro hc
    rw [valueScalar, bind_ok hp.deref]
    cases pl with
    | none => rfl
    | some pl =>
      cases pl with
      | scalar a b c => exact absurd rfl (hc a b c)
      | sequence a b => rfl
      | object a b => rfl
  · rintro t' sk sp ⟨⟩ hn
    refine ⟨h.next, { h with strs := (h.next, bytesOf t') :: h.strs, next := h.next + 1 }, ?_, rfl, rfl⟩
    rw [valueScalar, bind_ok hp.deref]
    exact newString_const hn h

/-- **C68**, functions on objects and sequences: length, the entries and items by index, and the first entry with a
key. -/
theorem C68_object (h : Heap) (p : Ptr) (es : List Entry) (sp : Option Span) (hp : PointsIn h p (.object es sp)) :
    objectLen (some p) h = .ok es.length h ∧
    (∀ i, (hi : i < es.length) → (∃ q, objectKeyAt (some p) i h = .ok (some q) h ∧ PointsTo h q es[i].key) ∧
      ∃ q, objectValueAt (some p) i h = .ok (some q) h ∧ PointsTo h q es[i].value) ∧
    (∀ i, es.length ≤ i → objectKeyAt (some p) i h = .ok none h ∧ objectValueAt (some p) i h = .ok none h) ∧
    (∀ key, ∃ r, objectGet (some p) (some (bytesOf key)) h = .ok r h ∧
      (objGet es key = none → r = none) ∧ ∀ u, objGet es key = some u → ∃ q, r = some q ∧ PointsTo h q u) := by
  refine ⟨?_, ?_, ?_, ?_⟩
  · rw [objectLen, bind_ok hp.deref]; rfl
  · intro i hi
    exact ⟨⟨_, objectKeyAt_ok hp hi⟩, ⟨_, objectValueAt_ok hp hi⟩⟩
  · intro i hi
    constructor
    · rw [objectKeyAt, bind_ok hp.deref, if_neg (by omega)]; rfl
    · rw [objectValueAt, bind_ok hp.deref, if_neg (by omega)]; rfl
  · intro key
    refine ⟨_, by rw [objectGet, bind_ok hp.deref, toStr_bytesOf]; rfl, ?_⟩
    simp only [objGet, List.find?_eq_bind_findIdx?_getElem?]
    cases hi : es.findIdx? (fun e => e.key.asStr == some key) with
    | none => simp
    | some i =>
      obtain ⟨hlt, -, -⟩ := List.findIdx?_eq_some_iff_getElem.1 hi
      simp only [Option.bind_some, List.getElem?_eq_getElem hlt, Option.map_some, reduceCtorEq, false_implies,
        Option.some.injEq, true_and]
      rintro u rfl
      exact ⟨_, rfl, (objectValueAt_ok hp hlt).2⟩

theorem C68_sequence (h : Heap) (p : Ptr) (vs : List Value) (sp : Option Span) (hp : PointsIn h p (.sequence vs sp)) :
    sequenceLen (some p) h = .ok vs.length h ∧
    (∀ i, (hi : i < vs.length) → ∃ q, sequenceGet (some p) i h = .ok (some q) h ∧ PointsTo h q vs[i]) ∧
    (∀ i, vs.length ≤ i → sequenceGet (some p) i h = .ok none h) := by
  refine ⟨?_, ?_, ?_⟩
  · rw [sequenceLen, bind_ok hp.derefSeq]; rfl
  · intro i hi
    exact ⟨_, sequenceGet_ok hp hi⟩
  · intro i hi
    rw [sequenceGet, bind_ok hp.derefSeq, if_neg (by omega)]; rfl

/-- **C68**, paths from the root of a document: as for `Document::get`; and the root as an object. -/
theorem C68_root (h : Heap) (d : Nat) (es : List Entry) (sp : Option Span) (hd : h.docs.lookup d = some (.object es sp)) :
    (∃ q, documentRoot (some d) h = .ok (some q) h ∧ PointsIn h q (.object es sp)) ∧
    ∀ path, ∃ r, documentGet (some d) (some (bytesOf path)) h = .ok r h ∧
      (docGet es path = none → r = none) ∧ ∀ u, docGet es path = some u → ∃ q, r = some q ∧ PointsTo h q u := by
  constructor
  · refine ⟨⟨d, []⟩, ?_, _, hd, rfl⟩
    rw [documentRoot, bind_ok (a := .object es sp) (h' := h)]
    · rfl
    · simp [derefDoc, hd]
  · intro path
    obtain ⟨r, g1, g2⟩ := documentGet_ok (toStr_bytesOf path) hd
    refine ⟨r, g1, fun hc => ?_, fun u hu => ?_⟩
    · rw [hc] at g2; exact g2
    · rw [hu] at g2
      obtain ⟨q, k1, -, k2⟩ := g2
      exact ⟨q, k1, k2⟩

theorem parse_bytesOf {msg : BuildError → List Char} {text : List Char} {root : Payload} {h : Heap}
    (hd : parseDocument text = some (.ok root)) : parse msg (some (bytesOf text)) h =
      .ok ⟨some h.next, none⟩ { h with docs := (h.next, root) :: h.docs, next := h.next + 1 } := by
  simp only [parse, toStr_bytesOf, hd]

theorem documentGet_bytesOf {d : Nat} {path : List Char} {es : List Entry} {sp : Option Span} {h : Heap}
    (hd : h.docs.lookup d = some (.object es sp)) :
    documentGet (some d) (some (bytesOf path)) h = .ok ((docWay es path).map (⟨d, ·⟩)) h := by
  rw [documentGet, bind_ok (a := .object es sp) (h' := h) (by simp [derefDoc, hd]), toStr_bytesOf]
  rfl

/-- A document whose only value is the text of one NUL. -/
def nulEntries : List Entry :=
  [.mk (.mk none (some (.scalar ['k'] .bare (some ⟨0, 1⟩))) (some ⟨0, 1⟩))
    (.mk none (some (.scalar [Char.ofNat 0] .quoted (some ⟨2, 10⟩))) (some ⟨2, 10⟩)) none]

/-- **C68** is false for a text with NUL, which an escape can make: the value is a scalar, but `styx_value_scalar`
returns null. -/
theorem C68_false (msg : BuildError → List Char) : ∃ d h1 p,
    parse msg (some (cString (bytesOf (chars! "k \"\\u0000\"")))) {} = .ok ⟨some d, none⟩ h1 ∧
    documentGet (some d) (some (bytesOf (chars! "k"))) h1 = .ok (some p) h1 ∧
    valuePayloadKind (some p) h1 = .ok .scalar h1 ∧ valueScalar (some p) h1 = .ok none h1 := by
  have hd : parseDocument (chars! "k \"\\u0000\"") = some (.ok (.object nulEntries none)) := rfl
  refine ⟨0, { docs := [(0, .object nulEntries none)], strs := [], next := 1 }, ⟨0, [.value 0]⟩, ?_, ?_, rfl, rfl⟩
  · rw [cString_bytesOf (by decide)]; exact parse_bytesOf hd
  · exact documentGet_bytesOf (es := nulEntries) (sp := none) rfl

/-- A document with objects, sequences, tags and texts. -/
def ffiSample : List Char := chars! "a {b x}\n/// d\nc (1 @t @u\"é\" @)"

/-- Its tree. -/
def ffiEntries : List Entry :=
  [.mk (.mk none (some (.scalar ['a'] .bare (some ⟨0, 1⟩))) (some ⟨0, 1⟩))
    (.mk none (some (.object [.mk (.mk none (some (.scalar ['b'] .bare (some ⟨3, 4⟩))) (some ⟨3, 4⟩))
      (.mk none (some (.scalar ['x'] .bare (some ⟨5, 6⟩))) (some ⟨5, 6⟩)) none] (some ⟨2, 7⟩))) (some ⟨2, 7⟩)) none,
   .mk (.mk none (some (.scalar ['c'] .bare (some ⟨14, 15⟩))) (some ⟨14, 15⟩))
    (.mk none (some (.sequence [.mk none (some (.scalar ['1'] .bare (some ⟨17, 18⟩))) (some ⟨17, 18⟩),
      .mk (some ⟨['t'], some ⟨19, 21⟩⟩) none (some ⟨19, 21⟩),
      .mk (some ⟨['u'], some ⟨22, 28⟩⟩) (some (.scalar ['é'] .quoted (some ⟨24, 28⟩))) (some ⟨24, 28⟩),
      .mk none none (some ⟨29, 30⟩)] (some ⟨16, 31⟩))) (some ⟨16, 31⟩)) (some ['d'])]

theorem ffiSample_tree : parseTree ffiSample = some (.ok (.mk none (some (.object ffiEntries none)) none)) := rfl

/-- The hypotheses of `C68_document` can be met, and what the client reads is not trivial. -/
example (msg : BuildError → List Char) : Char.ofNat 0 ∉ ffiSample ∧
    parseTree ffiSample = some (.ok (.mk none (some (.object ffiEntries none)) none)) ∧ NoNulEntries ffiEntries ∧
    Reachable msg {} ∧ visibleEntries ffiEntries =
      [.mk (.mk none (some (.scalar ['a'] .bare none)) none)
        (.mk none (some (.object [.mk (.mk none (some (.scalar ['b'] .bare none)) none)
          (.mk none (some (.scalar ['x'] .bare none)) none) none] none)) none) none,
       .mk (.mk none (some (.scalar ['c'] .bare none)) none)
        (.mk none (some (.sequence [.mk none (some (.scalar ['1'] .bare none)) none, .mk (some ⟨['t'], none⟩) none none,
          .mk (some ⟨['u'], none⟩) (some (.scalar ['é'] .bare none)) none, .mk none none none] none)) none) none] := by
  refine ⟨by decide, ffiSample_tree, ?_, ⟨[], [], trivial, rfl⟩, rfl⟩
  simp [ffiEntries, NoNulEntries, NoNul, NoNulAll]

/-- `C68_error` for a text with an error, and for bytes that are no text. -/
example : (∃ r h1, parse (fun _ => chars! "bad") (some (cString (bytesOf (chars! "a {b 1 2 3}")))) {} = .ok r h1 ∧
      r.error = some 0 ∧ h1.strs.map (toStr ·.2) = [some (chars! "bad")]) ∧
    ∃ r h1, parse (fun _ => []) (some (cString [97, 255])) {} = .ok r h1 ∧ r.error = some 0 := by
  refine ⟨⟨⟨none, some 0⟩, ⟨[], [(0, bytesOf (chars! "bad"))], 1⟩, ?_, rfl, by simp [toStr_bytesOf]⟩,
    ⟨⟨none, some 0⟩, ⟨[], [(0, bytesOf (chars! "source is not valid UTF-8"))], 1⟩, ?_, rfl⟩⟩
  · have hd : parseDocument (chars! "a {b 1 2 3}") = some (.error (.parse .tooManyAtoms ⟨7, 8⟩)) := rfl
    rw [cString_bytesOf (by decide)]
    simp only [parse, toStr_bytesOf, hd]
    rfl
  · have : toStr (cString [97, 255]) = none := by decide +kernel
    simp only [parse, this]
    rfl

/-- The hypotheses of the other theorems of C68 can be met. -/
example : ∃ h, parse (fun _ => []) (some (bytesOf ffiSample)) {} = .ok ⟨some 0, none⟩ h ∧
    h.docs.lookup 0 = some (.object ffiEntries none) ∧
    (∃ v, PointsTo h ⟨0, [.value 1, .item 2]⟩ v ∧ v.tag = some ⟨['u'], some ⟨22, 28⟩⟩) ∧
    (∃ es sp, PointsIn h ⟨0, [.value 0]⟩ (.object es sp) ∧ es.length = 1) ∧
    ∃ vs sp, PointsIn h ⟨0, [.value 1]⟩ (.sequence vs sp) ∧ vs.length = 4 := by
  have hd : parseDocument ffiSample = some (.ok (.object ffiEntries none)) := by simp only [parseDocument, ffiSample_tree]
  exact ⟨_, parse_bytesOf hd, rfl, ⟨_, ⟨_, rfl, rfl⟩, rfl⟩, ⟨_, _, ⟨_, rfl, rfl⟩, rfl⟩, ⟨_, _, ⟨_, rfl, rfl⟩, rfl⟩⟩

/-! ## C69 -/

theorem exec_abort {msg : BuildError → List Char} {pre : List Op} {log : List Ret} {h : Heap} {op : Op}
    (inv : Inv pre log h) (ha : Allowed pre op) (he : exec msg log op h = .abort) :
    ∃ bs text, op = .parse (some bs) ∧ toStr bs = some text ∧ parseTree text = none := by
  have look : (∃ k ty, op.looks = some (k, ty)) → False := by
    rintro ⟨k, ty, hl⟩
    obtain ⟨r, h', g1, -⟩ := inv_look (msg := msg) inv hl ha
    rw [g1] at he; cases he
  cases op with
  | parse s =>
    have hp : parse msg s h = .abort := by
      simp only [exec, Bind.bind, CM.bind] at he
      split at he
      · cases he
      · cases he
      · assumption
    cases s with
    | none =>
      simp only [parse] at hp
      rw [bind_ok (newString_const (by decide) h)] at hp; cases hp
    | some bs =>
      simp only [parse] at hp
      cases ht : toStr bs with
      | none =>
        simp only [ht] at hp
        rw [bind_ok (newString_const (by decide) h)] at hp; cases hp
      | some text =>
        refine ⟨bs, text, rfl, ht, ?_⟩
        simp only [ht, parseDocument] at hp
        cases hT : parseTree text with
        | none => rfl
        | some x =>
          cases x with
          | ok v =>
            obtain ⟨es, rfl⟩ := parseTree_root hT
            simp only [hT] at hp; cases hp
          | error e =>
            simp only [hT] at hp
            rcases newString_cases (msg e) h with g | g
            · rw [bind_ok g] at hp
              simp only at hp
              have g2 := newString_const (t := chars! "unknown error") (by decide) h
              rw [bind_ok g2] at hp; cases hp
            · rw [bind_ok g] at hp; cases hp
  | freeDocument k =>
    obtain ⟨h', g1, -⟩ := inv_freeDocument (msg := msg) inv ha
    rw [g1] at he; cases he
  | freeString k =>
    obtain ⟨h', g1, -⟩ := inv_freeString (msg := msg) inv ha
    rw [g1] at he; cases he
  | _ => exact (look ⟨_, _, rfl⟩).elim

theorem run_abort {msg : BuildError → List Char} : ∀ (ops pre : List Op) (log : List Ret) (h : Heap),
    Inv pre log h → Legal pre ops → run msg log ops h = .abort →
    ∃ bs text, .parse (some bs) ∈ ops ∧ toStr bs = some text ∧ parseTree text = none := by
  intro ops
  induction ops with
  | nil => intro pre log h _ _ hr; cases hr
  | cons op ops ih =>
    intro pre log h inv hl hr
    rcases inv_step msg inv hl.1 with g | ⟨r, h1, g1, g2, g3⟩
    · obtain ⟨bs, text, rfl, k1, k2⟩ := exec_abort inv hl.1 g
      exact ⟨bs, text, by simp, k1, k2⟩
    · simp only [run, g1] at hr
      have : run msg (log ++ [r]) ops h1 = .abort := by
        split at hr
        · cases hr
        · cases hr
        · assumption
      obtain ⟨bs, text, k0, k1, k2⟩ := ih _ _ _ g2 hl.2 this
      exact ⟨bs, text, by simp [k0], k1, k2⟩

/-- **C69**, no undefined behaviour: in no history of calls that follows the rules a call uses something that is not
there; null pointers may be passed everywhere.  The process ends only when `styx_parse` gets a text on which the parser
panics. -/
theorem C69_defined (msg : BuildError → List Char) (ops : List Op) (hL : Legal [] ops) :
    run msg [] ops {} ≠ .undefined ∧
    (run msg [] ops {} = .abort → ∃ bs text, .parse (some bs) ∈ ops ∧ toStr bs = some text ∧ parseTree text = none) := by
  refine ⟨?_, run_abort ops [] [] {} inv_nil hL⟩
  rcases run_inv msg ops [] [] {} inv_nil hL with e | ⟨rs, h', g, -⟩
  · rw [e]; simp
  · rw [g]; simp

/-- **C69**, stability: in such a history, two equal calls that look into a document give the same answer, whatever
happens between them (other documents and strings may come and go): the same pointer, number or kind, or strings with
the same bytes. -/
theorem C69_stable (msg : BuildError → List Char) (ops : List Op) (hL : Legal [] ops) (rs : List (Ret × Heap)) (h : Heap)
    (hr : run msg [] ops {} = .ok rs h) (i j : Nat) (hij : i < j) (op : Op) (hop : op.looks.isSome)
    (hi : ops[i]? = some op) (hj : ops[j]? = some op) (r r' : Ret) (h1 h2 : Heap) (hri : rs[i]? = some (r, h1))
    (hrj : rs[j]? = some (r', h2)) : SameAnswer h1 r h2 r' :=
  stable msg hL hr hij hop hi hj hri hrj

/-- **C69**, ownership: in such a history every string that is returned is different from all others, and has its
bytes until it is freed (so until the end if it is not); the same for documents. -/
theorem C69_owned (msg : BuildError → List Char) (ops : List Op) (hL : Legal [] ops) (rs : List (Ret × Heap)) (h : Heap)
    (hr : run msg [] ops {} = .ok rs h) (i j : Nat) (r r' : Ret) (h1 h2 : Heap) (hri : rs[i]? = some (r, h1))
    (hrj : rs[j]? = some (r', h2)) :
    (∀ s, (r = .string (some s) ∨ ∃ d, r = .parsed ⟨d, some s⟩) →
      ((r' = .string (some s) ∨ ∃ d, r' = .parsed ⟨d, some s⟩) → i = j) ∧
      (.freeString i ∉ ops → ∃ bs, h1.strs.lookup s = some bs ∧ h.strs.lookup s = some bs)) ∧
    (∀ d e, r = .parsed ⟨some d, e⟩ →
      (∀ e', r' = .parsed ⟨some d, e'⟩ → i = j) ∧
      (.freeDocument i ∉ ops → ∃ root, h1.docs.lookup d = some root ∧ h.docs.lookup d = some root)) := by
  have hlog : ∀ {i : Nat} {r : Ret} {h1 : Heap}, rs[i]? = some (r, h1) → (rs.map Prod.fst)[i]? = some r := by
    intro i r h1 hh; simp [hh]
  rcases run_inv msg ops [] [] {} inv_nil hL with e | ⟨rs', h', g, -, inv, -⟩
  · rw [e] at hr; cases hr
  rw [g] at hr; cases hr
  simp only [List.nil_append] at inv
  have hstr : ∀ {s : Nat} {r : Ret}, (r = .string (some s) ∨ ∃ d, r = .parsed ⟨d, some s⟩) → r.strOf = some s := by
    rintro s r (rfl | ⟨d, rfl⟩) <;> rfl
  refine ⟨fun s hs => ⟨fun hs' => ?_, fun hf => ?_⟩, fun d e hd => ⟨fun e' hd' => ?_, fun hf => ?_⟩⟩
  · exact inv.strsInj i j r r' s (hlog hri) (hlog hrj) (hstr hs) (hstr hs')
  · exact string_kept msg hL g hri hf (hstr hs)
  · subst hd hd'
    exact inv.docsInj i j d e e' (hlog hri) (hlog hrj)
  · subst hd
    exact document_kept msg hL g hri hf

/-- **C69**, no leak: if in such a history every result of `styx_parse` is freed (both parts) and every string is, then
nothing is left. -/
theorem C69_leak (msg : BuildError → List Char) (ops : List Op) (hL : Legal [] ops) (rs : List (Ret × Heap)) (h : Heap)
    (hr : run msg [] ops {} = .ok rs h)
    (hd : ∀ (k : Nat) s, ops[k]? = some (.parse s) → Op.freeDocument k ∈ ops)
    (hs : ∀ (k : Nat) o, ops[k]? = some o → o.ty = .parsed ∨ o.ty = .string → Op.freeString k ∈ ops) :
    h.docs = [] ∧ h.strs = [] := by
  rcases run_inv msg ops [] [] {} inv_nil hL with e | ⟨rs', h', g, hlen, inv, -⟩
  · rw [e] at hr; cases hr
  rw [g] at hr; cases hr
  simp only [List.nil_append] at inv
  have op : ∀ {k : Nat} {r : Ret}, (rs.map Prod.fst)[k]? = some r → ∃ o, ops[k]? = some o ∧ r.ty = o.ty := by
    intro k r hk
    have hlt := (List.getElem?_eq_some_iff.1 hk).1
    rw [inv.len] at hlt
    exact ⟨ops[k], List.getElem?_eq_getElem hlt, inv.ty k _ r (List.getElem?_eq_getElem hlt) hk⟩
  constructor
  · apply List.eq_nil_iff_forall_not_mem.2
    intro x hx
    obtain ⟨k, e, g1, g2⟩ := inv.liveDocs x hx
    obtain ⟨o, g3, g4⟩ := op g1
    cases o <;> simp only [Ret.ty, Op.ty, reduceCtorEq] at g4
    exact g2 (hd k _ g3)
  · apply List.eq_nil_iff_forall_not_mem.2
    intro x hx
    obtain ⟨k, r, g1, g2, g3⟩ := inv.liveStrs x hx
    obtain ⟨o, g4, g5⟩ := op g1
    apply g3 (hs k o g4 _)
    rw [← g5]
    cases r <;> simp [Ret.strOf] at g2 <;> simp [Ret.ty]

theorem run_cons {msg : BuildError → List Char} {log : List Ret} {op : Op} {ops : List Op} {h h1 h2 : Heap} {r : Ret}
    {rs : List (Ret × Heap)} (he : exec msg log op h = .ok r h1) (hr : run msg (log ++ [r]) ops h1 = .ok rs h2) :
    run msg log (op :: ops) h = .ok ((r, h1) :: rs) h2 := by
  simp only [run, he, hr]

/-- A history that follows the rules. -/
def ffiHistory : List Op :=
  [.parse (some (bytesOf ffiSample)), .documentGet 0 (some (bytesOf (chars! "a.b"))), .parse none, .scalar 1,
   .freeString 2, .scalar 1, .freeString 5, .freeString 3, .freeString 0, .freeDocument 0, .freeDocument 2]

theorem ffiHistory_legal : Legal [] ffiHistory := by
  simp [Legal, ffiHistory, Allowed, Op.looks, Op.ty]

/-- The hypotheses of the theorems of C69 are met by this history; two calls of `styx_value_scalar` give different
pointers to the same text, and at the end nothing is left. -/
example (msg : BuildError → List Char) : Legal [] ffiHistory ∧ ∃ rs h, run msg [] ffiHistory {} = .ok rs h ∧
    (∃ h1 h2, rs[3]? = some (.string (some 2), h1) ∧ rs[5]? = some (.string (some 3), h2) ∧
      h1.strs.lookup 2 = some (bytesOf ['x']) ∧ h2.strs.lookup 3 = some (bytesOf ['x'])) ∧ h.docs = [] ∧ h.strs = [] := by
  have hd : parseDocument ffiSample = some (.ok (.object ffiEntries none)) := by simp only [parseDocument, ffiSample_tree]
  exact ⟨ffiHistory_legal, _, _, run_cons (bind_ok (parse_bytesOf hd)) <|
    run_cons (bind_ok (documentGet_bytesOf (es := ffiEntries) (sp := none) rfl)) rfl,
    ⟨_, _, rfl, rfl, rfl, rfl⟩, rfl, rfl⟩

/-- The rules are needed: a document that is used after it has been freed, and a string that is freed twice. -/
theorem C69_rules (msg : BuildError → List Char) :
    run msg [] [.parse (some (bytesOf ffiSample)), .freeDocument 0, .documentRoot 0] {} = .undefined ∧
    run msg [] [.parse none, .freeString 0, .freeString 0] {} = .undefined := by
  refine ⟨?_, rfl⟩
  have hd : parseDocument ffiSample = some (.ok (.object ffiEntries none)) := by simp only [parseDocument, ffiSample_tree]
  have : exec msg [] (.parse (some (bytesOf ffiSample))) {} = _ := bind_ok (parse_bytesOf hd)
  simp only [run, this]
  rfl

/-- **C69**, the exception occurs: a text can make the parser panic and so end the process. -/
theorem C69_abort (msg : BuildError → List Char) : ∃ bs, Legal [] [.parse (some (cString bs))] ∧
    run msg [] [.parse (some (cString bs))] {} = .abort :=
  ⟨bytesOf (chars! "a \"\\u{ééééééé}\""), by simp [Legal, Allowed, Op.looks], by
    have : parse msg (some (bytesOf (chars! "a \"\\u{ééééééé}\""))) {} = .abort := by
      have hd : parseDocument (chars! "a \"\\u{ééééééé}\"") = none := rfl
      simp only [parse, toStr_bytesOf, hd]
    rw [cString_bytesOf (by decide)]
    simp only [run, exec, Bind.bind, CM.bind, this]⟩

end Styx.Props
