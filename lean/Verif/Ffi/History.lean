import Verif.Ffi.Path

/-! # Histories of calls -/

namespace Styx.Ffi

/-- The type of a result. -/
def Ret.ty : Ret → Ty
  | .parsed _ => .parsed
  | .object _ => .object
  | .value _ => .value
  | .sequence _ => .sequence
  | .string _ => .string
  | .done | .kind _ | .bool _ | .len _ => .other

/-- The document that a result points into. -/
def Ret.docOf : Ret → Option Nat
  | .parsed r => r.document
  | .object p | .value p | .sequence p => p.map Ptr.doc
  | _ => none

/-- The string that a result points to. -/
def Ret.strOf : Ret → Option Nat
  | .parsed r => r.error
  | .string s => s
  | _ => none

/-- The result points to something of its type, or nowhere. -/
def Handle (h : Heap) : Ret → Prop
  | .parsed ⟨some d, _⟩ => ∃ es sp, h.docs.lookup d = some (.object es sp)
  | .value (some p) => ∃ v, PointsTo h p v
  | .object (some p) => ∃ es sp, PointsIn h p (.object es sp)
  | .sequence (some p) => ∃ vs sp, PointsIn h p (.sequence vs sp)
  | _ => True

theorem Handle.of_none {h : Heap} {r : Ret} (hr : r.docOf = none) : Handle h r := by
  cases r with
  | parsed r => obtain ⟨d, e⟩ := r; simp only [Ret.docOf] at hr; subst hr; trivial
  | object p | value p | sequence p => cases p <;> simp_all [Ret.docOf, Handle]
  | _ => trivial

theorem Handle.same {h h' : Heap} {r : Ret} (hh : Handle h r)
    (hl : ∀ i, r.docOf = some i → h'.docs.lookup i = h.docs.lookup i) : Handle h' r := by
  cases r with
  | parsed r =>
    obtain ⟨d, e⟩ := r
    cases d with
    | none => trivial
    | some d => obtain ⟨es, sp, g⟩ := hh; exact ⟨es, sp, by rw [hl d rfl, g]⟩
  | object p =>
    cases p with
    | none => trivial
    | some p => obtain ⟨es, sp, r, g, g'⟩ := hh; exact ⟨es, sp, r, by rw [hl p.doc rfl, g], g'⟩
  | value p =>
    cases p with
    | none => trivial
    | some p => obtain ⟨v, r, g, g'⟩ := hh; exact ⟨v, r, by rw [hl p.doc rfl, g], g'⟩
  | sequence p =>
    cases p with
    | none => trivial
    | some p => obtain ⟨es, sp, r, g, g'⟩ := hh; exact ⟨es, sp, r, by rw [hl p.doc rfl, g], g'⟩
  | _ => trivial

/-- What a call does to the strings: nothing, or it returns a new one. -/
def Strs (h h' : Heap) (r : Ret) : Prop :=
  (h'.strs = h.strs ∧ h'.next = h.next ∧ r.strOf = none) ∨
  ∃ bs, h'.strs = (h.next, bs) :: h.strs ∧ h'.next = h.next + 1 ∧ r.strOf = some h.next

/-- What a call that looks into a document does. -/
structure Looked (h h' : Heap) (ty : Ty) (from_ r : Ret) : Prop where
  ty : r.ty = ty
  docs : h'.docs = h.docs
  strs : Strs h h' r
  handle : Handle h' r
  doc : ∀ i, r.docOf = some i → from_.docOf = some i

theorem looked_pure {h : Heap} {ty : Ty} {r0 r : Ret} (h1 : r.ty = ty) (h2 : r.strOf = none) (h3 : Handle h r)
    (h4 : ∀ i, r.docOf = some i → r0.docOf = some i) : Looked h h ty r0 r :=
  ⟨h1, rfl, .inl ⟨rfl, rfl, h2⟩, h3, h4⟩

theorem newString_cases (t : List Char) (h : Heap) :
    (newString t h = .ok none h) ∨
    (newString t h = .ok (some h.next) { h with strs := (h.next, bytesOf t) :: h.strs, next := h.next + 1 }) := by
  unfold newString
  split
  · exact .inl rfl
  · exact .inr rfl

theorem looked_string {h : Heap} {r0 : Ret} (t : List Char) :
    ∃ s h', newString t h = .ok s h' ∧ Looked h h' .string r0 (.string s) := by
  rcases newString_cases t h with g | g
  · exact ⟨none, h, g, looked_pure rfl rfl trivial (by simp [Ret.docOf])⟩
  · exact ⟨some h.next, _, g, rfl, rfl, .inr ⟨_, rfl, rfl, rfl⟩, trivial, by simp [Ret.docOf]⟩

theorem look_ok (msg : BuildError → List Char) {op : Op} {k : Nat} {ty : Ty} (hl : op.looks = some (k, ty))
    {log : List Ret} {r0 : Ret} (hk : log[k]? = some r0) (hty : r0.ty = ty) {h : Heap} (hh : Handle h r0) :
    ∃ r h', exec msg log op h = .ok r h' ∧ Looked h h' op.ty r0 r := by
  cases op <;> simp only [Op.looks, Option.some.injEq, Prod.mk.injEq, reduceCtorEq] at hl <;>
    obtain ⟨rfl, rfl⟩ := hl <;> cases r0 <;> simp only [Ret.ty, reduceCtorEq] at hty <;> simp only [exec, hk]
  case documentRoot.parsed k r =>
    obtain ⟨d, e⟩ := r
    cases d with
    | none => exact ⟨_, h, rfl, looked_pure rfl rfl trivial (by simp [Ret.docOf])⟩
    | some d =>
      obtain ⟨es, sp, g⟩ := hh
      refine ⟨.object (some ⟨d, []⟩), h, ?_, looked_pure rfl rfl ⟨es, sp, _, g, rfl⟩ (by simp [Ret.docOf])⟩
      rw [documentRoot, bind_ok (a := some ⟨d, []⟩) (h' := h)]
      · rfl
      · rw [bind_ok (a := .object es sp) (h' := h)]
        · rfl
        · simp [derefDoc, g]
  case documentGet.parsed k path r =>
    obtain ⟨d, e⟩ := r
    cases d with
    | none => exact ⟨_, h, rfl, looked_pure rfl rfl trivial (by simp [Ret.docOf])⟩
    | some d =>
      cases path with
      | none => exact ⟨_, h, rfl, looked_pure rfl rfl trivial (by simp [Ret.docOf])⟩
      | some bs =>
        obtain ⟨es, sp, g⟩ := hh
        cases ht : toStr bs with
        | none =>
          refine ⟨.value none, h, ?_, looked_pure rfl rfl trivial (by simp [Ret.docOf])⟩
          rw [bind_ok (a := none) (h' := h)]
          · rfl
          · rw [documentGet, bind_ok (a := .object es sp) (h' := h)]
            · simp only [ht]; rfl
            · simp [derefDoc, g]
        | some path =>
          obtain ⟨r, g1, g2⟩ := documentGet_ok ht g
          refine ⟨.value r, h, bind_ok g1, looked_pure rfl rfl ?_ ?_⟩
          · split at g2
            · rw [g2]; trivial
            · obtain ⟨p, rfl, g3, g4⟩ := g2; exact ⟨_, g4⟩
          · split at g2
            · rw [g2]; simp [Ret.docOf]
            · obtain ⟨p, rfl, g3, g4⟩ := g2; simp [Ret.docOf, g3]
  case payloadKind.value k p =>
    cases p with
    | none => exact ⟨_, h, rfl, looked_pure rfl rfl trivial (by simp [Ret.docOf])⟩
    | some p =>
      obtain ⟨v, g⟩ := hh
      have : ∃ x, valuePayloadKind (some p) h = .ok x h := by
        rw [valuePayloadKind, bind_ok g.deref]
        obtain ⟨t, _ | _ | _ | _, s⟩ := v <;> exact ⟨_, rfl⟩
      obtain ⟨x, hx⟩ := this
      exact ⟨.kind x, h, bind_ok hx, looked_pure rfl rfl trivial (by simp [Ret.docOf])⟩
  case isUnit.value k p =>
    cases p with
    | none => exact ⟨_, h, rfl, looked_pure rfl rfl trivial (by simp [Ret.docOf])⟩
    | some p =>
      obtain ⟨v, g⟩ := hh
      have : valueIsUnit (some p) h = .ok v.isUnit h := by
        rw [valueIsUnit, bind_ok g.deref]; rfl
      exact ⟨_, h, bind_ok this, looked_pure rfl rfl trivial (by simp [Ret.docOf])⟩
  case tag.value k p =>
    cases p with
    | none => exact ⟨_, h, rfl, looked_pure rfl rfl trivial (by simp [Ret.docOf])⟩
    | some p =>
      obtain ⟨v, g⟩ := hh
      cases ht : v.tagName with
      | none =>
        have : valueTag (some p) h = .ok none h := by
          rw [valueTag, bind_ok g.deref]; simp only [ht]; rfl
        exact ⟨_, h, bind_ok this, looked_pure rfl rfl trivial (by simp [Ret.docOf])⟩
      | some n =>
        obtain ⟨s, h', g1, g2⟩ := looked_string (h := h) (r0 := .value (some p)) n
        have : valueTag (some p) h = .ok s h' := by
          rw [valueTag, bind_ok g.deref]; simp only [ht]; exact g1
        exact ⟨_, h', bind_ok this, g2⟩
  case scalar.value k p =>
    cases p with
    | none => exact ⟨_, h, rfl, looked_pure rfl rfl trivial (by simp [Ret.docOf])⟩
    | some p =>
      obtain ⟨v, g⟩ := hh
      by_cases hs : ∃ t k sp, v.payload = some (.scalar t k sp)
      · obtain ⟨t, k, sp, hs⟩ := hs
        obtain ⟨s, h', g1, g2⟩ := looked_string (h := h) (r0 := .value (some p)) t
        have : valueScalar (some p) h = .ok s h' := by
          rw [valueScalar, bind_ok g.deref]; simp only [hs]; exact g1
        exact ⟨_, h', bind_ok this, g2⟩
      · have : valueScalar (some p) h = .ok none h := by
          rw [valueScalar, bind_ok g.deref]
          obtain ⟨t, _ | _ | _ | _, s⟩ := v
          case some.scalar => exact absurd ⟨_, _, _, rfl⟩ hs
          all_goals rfl
        exact ⟨_, h, bind_ok this, looked_pure rfl rfl trivial (by simp [Ret.docOf])⟩
  case asObject.value k p =>
    cases p with
    | none => exact ⟨_, h, rfl, looked_pure rfl rfl trivial (by simp [Ret.docOf])⟩
    | some p =>
      obtain ⟨v, g⟩ := hh
      obtain ⟨t, pl, s⟩ := v
      by_cases hs : ∃ es sp, pl = some (.object es sp)
      · obtain ⟨es, sp, rfl⟩ := hs
        have : valueAsObject (some p) h = .ok (some p) h := by
          rw [valueAsObject, bind_ok g.deref]; rfl
        exact ⟨_, h, bind_ok this, looked_pure rfl rfl ⟨es, sp, g.payload⟩ (by simp [Ret.docOf])⟩
      · have : valueAsObject (some p) h = .ok none h := by
          rw [valueAsObject, bind_ok g.deref]
          rcases pl with _ | _ | _ | _
          case some.object => exact absurd ⟨_, _, rfl⟩ hs
          all_goals rfl
        exact ⟨_, h, bind_ok this, looked_pure rfl rfl trivial (by simp [Ret.docOf])⟩
  case asSequence.value k p =>
    cases p with
    | none => exact ⟨_, h, rfl, looked_pure rfl rfl trivial (by simp [Ret.docOf])⟩
    | some p =>
      obtain ⟨v, g⟩ := hh
      obtain ⟨t, pl, s⟩ := v
      by_cases hs : ∃ es sp, pl = some (.sequence es sp)
      · obtain ⟨es, sp, rfl⟩ := hs
        have : valueAsSequence (some p) h = .ok (some p) h := by
          rw [valueAsSequence, bind_ok g.deref]; rfl
        exact ⟨_, h, bind_ok this, looked_pure rfl rfl ⟨es, sp, g.payload⟩ (by simp [Ret.docOf])⟩
      · have : valueAsSequence (some p) h = .ok none h := by
          rw [valueAsSequence, bind_ok g.deref]
          rcases pl with _ | _ | _ | _
          case some.sequence => exact absurd ⟨_, _, rfl⟩ hs
          all_goals rfl
        exact ⟨_, h, bind_ok this, looked_pure rfl rfl trivial (by simp [Ret.docOf])⟩
  case valueGet.value k path p =>
    cases p with
    | none => exact ⟨_, h, rfl, looked_pure rfl rfl trivial (by simp [Ret.docOf])⟩
    | some p =>
      cases path with
      | none => exact ⟨_, h, rfl, looked_pure rfl rfl trivial (by simp [Ret.docOf])⟩
      | some bs =>
        obtain ⟨v, g⟩ := hh
        cases ht : toStr bs with
        | none =>
          have : valueGet (some p) (some bs) h = .ok none h := by
            rw [valueGet, bind_ok g.deref]; simp only [ht]; rfl
          exact ⟨.value none, h, bind_ok this, looked_pure rfl rfl trivial (by simp [Ret.docOf])⟩
        | some path =>
          obtain ⟨r, g1, g2⟩ := valueGet_ok ht g
          refine ⟨.value r, h, bind_ok g1, looked_pure rfl rfl ?_ ?_⟩
          · split at g2
            · rw [g2]; trivial
            · obtain ⟨p, rfl, g3, g4⟩ := g2; exact ⟨_, g4⟩
          · split at g2
            · rw [g2]; simp [Ret.docOf]
            · obtain ⟨p, rfl, g3, g4⟩ := g2; simp [Ret.docOf, g3]
  case objectLen.object k p =>
    cases p with
    | none => exact ⟨_, h, rfl, looked_pure rfl rfl trivial (by simp [Ret.docOf])⟩
    | some p =>
      obtain ⟨es, sp, g⟩ := hh
      have : objectLen (some p) h = .ok es.length h := by
        rw [objectLen, bind_ok g.deref]; rfl
      exact ⟨_, h, bind_ok this, looked_pure rfl rfl trivial (by simp [Ret.docOf])⟩
  case objectGet.object k key p =>
    cases p with
    | none => exact ⟨_, h, rfl, looked_pure rfl rfl trivial (by simp [Ret.docOf])⟩
    | some p =>
      cases key with
      | none => exact ⟨_, h, rfl, looked_pure rfl rfl trivial (by simp [Ret.docOf])⟩
      | some bs =>
        obtain ⟨es, sp, g⟩ := hh
        cases ht : toStr bs with
        | none =>
          have : objectGet (some p) (some bs) h = .ok none h := by
            rw [objectGet, bind_ok g.deref]; simp only [ht]; rfl
          exact ⟨.value none, h, bind_ok this, looked_pure rfl rfl trivial (by simp [Ret.docOf])⟩
        | some key =>
          have : objectGet (some p) (some bs) h = .ok ((es.findIdx? fun e => e.key.asStr == some key).map
              fun i => ⟨p.doc, p.way ++ [.value i]⟩) h := by
            rw [objectGet, bind_ok g.deref]; simp only [ht]; rfl
          refine ⟨_, h, bind_ok this, looked_pure rfl rfl ?_ ?_⟩
          · cases hi : es.findIdx? fun e => e.key.asStr == some key with
            | none => trivial
            | some i =>
              obtain ⟨hlt, -, -⟩ := List.findIdx?_eq_some_iff_getElem.1 hi
              exact ⟨es[i].value, g.step (by simp [step, hlt])⟩
          · cases hi : es.findIdx? fun e => e.key.asStr == some key <;> simp [Ret.docOf]
  case objectKeyAt.object k i p =>
    cases p with
    | none => exact ⟨_, h, rfl, looked_pure rfl rfl trivial (by simp [Ret.docOf])⟩
    | some p =>
      obtain ⟨es, sp, g⟩ := hh
      by_cases hi : i < es.length
      · obtain ⟨g1, g2⟩ := objectKeyAt_ok g hi
        exact ⟨_, h, bind_ok g1, looked_pure rfl rfl ⟨_, g2⟩ (by simp [Ret.docOf])⟩
      · have : objectKeyAt (some p) i h = .ok none h := by
          rw [objectKeyAt, bind_ok g.deref, if_neg hi]; rfl
        exact ⟨_, h, bind_ok this, looked_pure rfl rfl trivial (by simp [Ret.docOf])⟩
  case objectValueAt.object k i p =>
    cases p with
    | none => exact ⟨_, h, rfl, looked_pure rfl rfl trivial (by simp [Ret.docOf])⟩
    | some p =>
      obtain ⟨es, sp, g⟩ := hh
      by_cases hi : i < es.length
      · obtain ⟨g1, g2⟩ := objectValueAt_ok g hi
        exact ⟨_, h, bind_ok g1, looked_pure rfl rfl ⟨_, g2⟩ (by simp [Ret.docOf])⟩
      · have : objectValueAt (some p) i h = .ok none h := by
          rw [objectValueAt, bind_ok g.deref, if_neg hi]; rfl
        exact ⟨_, h, bind_ok this, looked_pure rfl rfl trivial (by simp [Ret.docOf])⟩
  case sequenceLen.sequence k p =>
    cases p with
    | none => exact ⟨_, h, rfl, looked_pure rfl rfl trivial (by simp [Ret.docOf])⟩
    | some p =>
      obtain ⟨es, sp, g⟩ := hh
      have : sequenceLen (some p) h = .ok es.length h := by
        rw [sequenceLen, bind_ok g.derefSeq]; rfl
      exact ⟨_, h, bind_ok this, looked_pure rfl rfl trivial (by simp [Ret.docOf])⟩
  case sequenceGet.sequence k i p =>
    cases p with
    | none => exact ⟨_, h, rfl, looked_pure rfl rfl trivial (by simp [Ret.docOf])⟩
    | some p =>
      obtain ⟨es, sp, g⟩ := hh
      by_cases hi : i < es.length
      · obtain ⟨g1, g2⟩ := sequenceGet_ok g hi
        exact ⟨_, h, bind_ok g1, looked_pure rfl rfl ⟨_, g2⟩ (by simp [Ret.docOf])⟩
      · have : sequenceGet (some p) i h = .ok none h := by
          rw [sequenceGet, bind_ok g.derefSeq, if_neg hi]; rfl
        exact ⟨_, h, bind_ok this, looked_pure rfl rfl trivial (by simp [Ret.docOf])⟩

/-! ## Parsing -/

/-- What `styx_parse` does if it returns: a new document, or a new string. -/
def Parsed (h h' : Heap) (r : ParseResult) : Prop :=
  (∃ es sp, r = ⟨some h.next, none⟩ ∧ h' = { h with docs := (h.next, .object es sp) :: h.docs, next := h.next + 1 }) ∨
  ∃ bs, r = ⟨none, some h.next⟩ ∧ h' = { h with strs := (h.next, bs) :: h.strs, next := h.next + 1 }

theorem newString_const {t : List Char} (hn : Char.ofNat 0 ∉ t) (h : Heap) :
    newString t h = .ok (some h.next) { h with strs := (h.next, bytesOf t) :: h.strs, next := h.next + 1 } := by
  have hz : (0 : UInt8) ∉ bytesOf t := by rw [zero_mem_bytesOf]; exact hn
  simp [newString, hz]

theorem parse_cases (msg : BuildError → List Char) (src : Option (List UInt8)) (h : Heap) :
    parse msg src h = .abort ∨ ∃ r h', parse msg src h = .ok r h' ∧ Parsed h h' r := by
  cases src with
  | none =>
    refine .inr ⟨⟨none, some h.next⟩, _, bind_ok (newString_const (by decide) h), .inr ⟨_, rfl, rfl⟩⟩
  | some bs =>
    simp only [parse]
    cases toStr bs with
    | none => exact .inr ⟨⟨none, some h.next⟩, _, bind_ok (newString_const (by decide) h), .inr ⟨_, rfl, rfl⟩⟩
    | some text =>
      simp only
      cases hp : parseDocument text with
      | none => exact .inl rfl
      | some x =>
        cases x with
        | ok root =>
          have : ∃ es sp, root = .object es sp := by
            unfold parseDocument at hp
            split at hp <;> cases hp
            exact ⟨_, _, rfl⟩
          obtain ⟨es, sp, rfl⟩ := this
          exact .inr ⟨_, _, rfl, .inl ⟨es, sp, rfl, rfl⟩⟩
        | error e =>
          simp only
          rcases newString_cases (msg e) h with g | g
          · refine .inr ⟨⟨none, some h.next⟩, _, ?_, .inr ⟨bytesOf (chars! "unknown error"), rfl, rfl⟩⟩
            rw [bind_ok g]; exact bind_ok (newString_const (by decide) h)
          · refine .inr ⟨⟨none, some h.next⟩, _, ?_, .inr ⟨bytesOf (msg e), rfl, rfl⟩⟩
            rw [bind_ok g]; rfl

/-! ## The invariant -/

/-- What holds after the calls `ops` with the results `log`. -/
structure Inv (ops : List Op) (log : List Ret) (h : Heap) : Prop where
  len : log.length = ops.length
  ty : ∀ (k : Nat) (o : Op) (r : Ret), ops[k]? = some o → log[k]? = some r → r.ty = o.ty
  fresh : Fresh h
  freed : ∀ k, Op.freeDocument k ∈ ops ∨ Op.freeString k ∈ ops → k < ops.length
  docs : ∀ (k : Nat) (r : Ret), log[k]? = some r → ∀ i, r.docOf = some i → i < h.next ∧ ∃ d e, From ops k d ∧
    log[d]? = some (.parsed ⟨some i, e⟩) ∧ (Op.freeDocument d ∉ ops → Handle h r)
  docsInj : ∀ (k k' i : Nat) e e', log[k]? = some (Ret.parsed ⟨some i, e⟩) →
    log[k']? = some (Ret.parsed ⟨some i, e'⟩) → k = k'
  strs : ∀ (k : Nat) (r : Ret), log[k]? = some r → ∀ i, r.strOf = some i → i < h.next ∧
    (Op.freeString k ∉ ops → (h.strs.lookup i).isSome)
  strsInj : ∀ (k k' : Nat) (r r' : Ret) i, log[k]? = some r → log[k']? = some r' → r.strOf = some i →
    r'.strOf = some i → k = k'
  liveDocs : ∀ x ∈ h.docs, ∃ (k : Nat) (e : _), log[k]? = some (Ret.parsed ⟨some x.1, e⟩) ∧ Op.freeDocument k ∉ ops
  liveStrs : ∀ x ∈ h.strs, ∃ (k : Nat) (r : Ret), log[k]? = some r ∧ r.strOf = some x.1 ∧ Op.freeString k ∉ ops

theorem inv_nil : Inv [] [] {} where
  len := rfl
  ty := by simp
  fresh := ⟨by simp, by simp⟩
  freed := by simp
  docs := by simp
  docsInj := by simp
  strs := by simp
  strsInj := by simp
  liveDocs := by simp
  liveStrs := by simp

theorem From.append {ops : List Op} {k d : Nat} (h : From ops k d) (more : List Op) : From (ops ++ more) k d := by
  induction h with
  | parse h => exact .parse (by rw [List.getElem?_append_left (List.getElem?_eq_some_iff.1 h).1]; exact h)
  | look h h2 _ ih => exact .look (by rw [List.getElem?_append_left (List.getElem?_eq_some_iff.1 h).1]; exact h) h2 ih

theorem snoc_cases {α : Type} {l : List α} {x y : α} {k : Nat} (h : (l ++ [x])[k]? = some y) :
    l[k]? = some y ∨ (k = l.length ∧ y = x) := by
  rcases Nat.lt_trichotomy k l.length with hk | hk | hk
  · rw [List.getElem?_append_left hk] at h; exact .inl h
  · subst hk; simp at h; exact .inr ⟨rfl, h.symm⟩
  · have : (l ++ [x]).length ≤ k := by simp; omega
    rw [List.getElem?_eq_none this] at h; cases h

theorem snoc_old {α : Type} {l : List α} {x y : α} {k : Nat} (h : l[k]? = some y) : (l ++ [x])[k]? = some y := by
  rw [List.getElem?_append_left (List.getElem?_eq_some_iff.1 h).1]; exact h

theorem lookup_push {α : Type} {l : List (Nat × α)} {n i : Nat} {a : α} (h : i < n) :
    List.lookup i ((n, a) :: l) = l.lookup i := by
  rw [List.lookup_cons]
  have : (i == n) = false := by simp; omega
  rw [this]

theorem lookup_filter {α : Type} {l : List (Nat × α)} {i j : Nat} (h : i ≠ j) :
    List.lookup i (l.filter fun x => x.1 != j) = l.lookup i := by
  induction l with
  | nil => rfl
  | cons x l ih =>
    obtain ⟨a, b⟩ := x
    rw [List.filter_cons]
    by_cases haj : a = j
    · subst haj
      simp only [bne_self_eq_false, Bool.false_eq_true, if_false, ih]
      rw [List.lookup_cons]
      have : (i == a) = false := by simp; exact h
      rw [this]
    · have : (a != j) = true := by simp; exact haj
      simp only [this, if_true, List.lookup_cons, ih]

theorem Strs.old {h h' : Heap} {r : Ret} (hs : Strs h h' r) {i : Nat} (hi : i < h.next) :
    i < h'.next ∧ h'.strs.lookup i = h.strs.lookup i := by
  rcases hs with ⟨g1, g2, -⟩ | ⟨bs, g1, g2, -⟩
  · rw [g1, g2]; exact ⟨hi, rfl⟩
  · rw [g1, g2, lookup_push hi]; exact ⟨by omega, rfl⟩

theorem Strs.new {h h' : Heap} {r : Ret} (hs : Strs h h' r) {i : Nat} (hi : r.strOf = some i) :
    i = h.next ∧ i < h'.next ∧ (h'.strs.lookup i).isSome := by
  rcases hs with ⟨g1, g2, g3⟩ | ⟨bs, g1, g2, g3⟩
  · rw [g3] at hi; cases hi
  · rw [g3] at hi; cases hi
    refine ⟨rfl, by omega, ?_⟩
    rw [g1, List.lookup_cons_self]; rfl

theorem Strs.next_le {h h' : Heap} {r : Ret} (hs : Strs h h' r) : h.next ≤ h'.next := by
  rcases hs with ⟨g1, g2, -⟩ | ⟨bs, g1, g2, -⟩ <;> omega

/-- A call that frees nothing keeps the part of the invariant about strings. -/
theorem inv_strs {pre : List Op} {log : List Ret} {h h' : Heap} {op : Op} {r : Ret} (inv : Inv pre log h)
    (hs : Strs h h' r) (hop : ∀ k, op ≠ .freeString k) :
    (∀ x ∈ h'.strs, x.1 < h'.next) ∧
    (∀ (k : Nat) (r' : Ret), (log ++ [r])[k]? = some r' → ∀ i, r'.strOf = some i → i < h'.next ∧
      (Op.freeString k ∉ pre ++ [op] → (h'.strs.lookup i).isSome)) ∧
    (∀ (k k' : Nat) (r1 r2 : Ret) i, (log ++ [r])[k]? = some r1 → (log ++ [r])[k']? = some r2 → r1.strOf = some i →
      r2.strOf = some i → k = k') ∧
    (∀ x ∈ h'.strs, ∃ (k : Nat) (r' : Ret), (log ++ [r])[k]? = some r' ∧ r'.strOf = some x.1 ∧ Op.freeString k ∉ pre ++ [op]) := by
  refine ⟨?_, ?_, ?_, ?_⟩
  · intro x hx
    rcases hs with ⟨g1, g2, -⟩ | ⟨bs, g1, g2, -⟩
    · rw [g1] at hx; rw [g2]; exact inv.fresh.2 x hx
    · rw [g1, List.mem_cons] at hx; rw [g2]
      rcases hx with rfl | hx
      · simp
      · have := inv.fresh.2 x hx; omega
  · intro k r' hk i hi
    rcases snoc_cases hk with hk | ⟨rfl, rfl⟩
    · obtain ⟨g1, g2⟩ := inv.strs k r' hk i hi
      obtain ⟨g3, g4⟩ := hs.old g1
      refine ⟨g3, fun hn => ?_⟩
      rw [g4]
      exact g2 (fun hc => hn (by simp [hc]))
    · obtain ⟨-, g1, g2⟩ := hs.new hi
      exact ⟨g1, fun _ => g2⟩
  · intro k k' r1 r2 i hk hk' h1 h2
    rcases snoc_cases hk with hk | ⟨rfl, rfl⟩ <;> rcases snoc_cases hk' with hk' | ⟨rfl, rfl⟩
    · exact inv.strsInj k k' r1 r2 i hk hk' h1 h2
    · have := (inv.strs k r1 ‹_› i h1).1; have := (hs.new h2).1; omega
    · have := (inv.strs k' r2 ‹_› i h2).1; have := (hs.new h1).1; omega
    · rfl
  · intro x hx
    have old : x ∈ h.strs → ∃ (k : Nat) (r' : Ret), (log ++ [r])[k]? = some r' ∧ r'.strOf = some x.1 ∧ Op.freeString k ∉ pre ++ [op] := by
      intro hx
      obtain ⟨k, r', g1, g2, g3⟩ := inv.liveStrs x hx
      refine ⟨k, r', snoc_old g1, g2, ?_⟩
      rw [List.mem_append, List.mem_singleton]
      rintro (hc | hc)
      · exact g3 hc
      · exact hop k hc.symm
    rcases hs with ⟨g1, g2, -⟩ | ⟨bs, g1, g2, g3⟩
    · rw [g1] at hx; exact old hx
    · rw [g1, List.mem_cons] at hx
      rcases hx with rfl | hx
      · refine ⟨log.length, r, by simp, g3, ?_⟩
        rw [List.mem_append, List.mem_singleton]
        rintro (hc | hc)
        · have := inv.freed _ (.inr hc); have := inv.len; omega
        · exact hop _ hc.symm
      · exact old hx

theorem inv_look {msg : BuildError → List Char} {pre : List Op} {log : List Ret} {h : Heap} {op : Op} {k : Nat} {ty : Ty}
    (inv : Inv pre log h) (hl : op.looks = some (k, ty)) (ha : Allowed pre op) :
    ∃ r h', exec msg log op h = .ok r h' ∧ Inv (pre ++ [op]) (log ++ [r]) h' ∧ h'.docs = h.docs ∧ Strs h h' r := by
  obtain ⟨o, g1, g2, g3⟩ := ha.1 k ty hl
  have hklt : k < log.length := by rw [inv.len]; exact (List.getElem?_eq_some_iff.1 g1).1
  have hk : log[k]? = some log[k] := List.getElem?_eq_getElem hklt
  generalize log[k] = r0 at hk
  have hty : r0.ty = ty := by rw [inv.ty k o r0 g1 hk, g2]
  have hh : Handle h r0 := by
    cases hd : r0.docOf with
    | none => exact .of_none hd
    | some i =>
      obtain ⟨-, d, e, k1, -, k3⟩ := inv.docs k r0 hk i hd
      exact k3 (g3 d k1)
  obtain ⟨r, h', k1, k2⟩ := look_ok msg hl hk hty hh
  have hf1 : ∀ j, op ≠ .freeDocument j := by intro j hj; subst hj; cases hl
  have hf2 : ∀ j, op ≠ .freeString j := by intro j hj; subst hj; cases hl
  have hp : ∀ x, r ≠ .parsed x := by
    intro x hx
    have := k2.ty
    rw [hx] at this
    cases op <;> simp [Ret.ty, Op.ty, Op.looks] at this hl
  obtain ⟨s1, s2, s3, s4⟩ := inv_strs (op := op) inv k2.strs hf2
  have hn := k2.strs.next_le
  refine ⟨r, h', k1, ?_, k2.docs, k2.strs⟩
  refine ⟨by simp [inv.len], ?_, ⟨?_, s1⟩, ?_, ?_, ?_, s2, s3, ?_, s4⟩
  · intro j o' r' h1 h2
    rcases snoc_cases h1 with h1 | ⟨rfl, rfl⟩
    · rcases snoc_cases h2 with h2 | ⟨rfl, rfl⟩
      · exact inv.ty j o' r' h1 h2
      · have := (List.getElem?_eq_some_iff.1 h1).1; have := inv.len; omega
    · rcases snoc_cases h2 with h2 | ⟨h3, rfl⟩
      · have := (List.getElem?_eq_some_iff.1 h2).1; have := inv.len; omega
      · exact k2.ty
  · intro x hx
    rw [k2.docs] at hx
    have := inv.fresh.1 x hx; omega
  · intro j hj
    have := inv.freed j (by
      rcases hj with hj | hj <;> rw [List.mem_append, List.mem_singleton] at hj
      · exact .inl (hj.resolve_right fun h => hf1 j h.symm)
      · exact .inr (hj.resolve_right fun h => hf2 j h.symm))
    simp; omega
  · intro j r' hj i hi
    rcases snoc_cases hj with hj | ⟨rfl, rfl⟩
    · obtain ⟨m1, d, e, m2, m3, m4⟩ := inv.docs j r' hj i hi
      refine ⟨by omega, d, e, m2.append _, snoc_old m3, fun hfr => ?_⟩
      exact (m4 fun hc => hfr (by simp [hc])).same fun i _ => by rw [k2.docs]
    · obtain ⟨m1, d, e, m2, m3, m4⟩ := inv.docs k r0 hk i (k2.doc i hi)
      refine ⟨by omega, d, e, .look (op := op) (by rw [inv.len]; simp) hl (m2.append _), snoc_old m3, fun _ => k2.handle⟩
  · intro j j' i e e' h1 h2
    rcases snoc_cases h1 with h1 | ⟨h4, h3⟩
    · rcases snoc_cases h2 with h2 | ⟨h6, h5⟩
      · exact inv.docsInj j j' i e e' h1 h2
      · exact absurd h5.symm (hp _)
    · exact absurd h3.symm (hp _)
  · intro x hx
    rw [k2.docs] at hx
    obtain ⟨j, e, m1, m2⟩ := inv.liveDocs x hx
    refine ⟨j, e, snoc_old m1, ?_⟩
    rw [List.mem_append, List.mem_singleton]
    rintro (hc | hc)
    · exact m2 hc
    · exact hf1 j hc.symm

/-- Types of results after one more call. -/
theorem inv_ty {pre : List Op} {log : List Ret} {h : Heap} {op : Op} {r : Ret} (inv : Inv pre log h) (hr : r.ty = op.ty) :
    ∀ (k : Nat) (o : Op) (r' : Ret), (pre ++ [op])[k]? = some o → (log ++ [r])[k]? = some r' → r'.ty = o.ty := by
  intro j o' r' h1 h2
  rcases snoc_cases h1 with h1 | ⟨rfl, rfl⟩
  · rcases snoc_cases h2 with h2 | ⟨rfl, rfl⟩
    · exact inv.ty j o' r' h1 h2
    · have := (List.getElem?_eq_some_iff.1 h1).1; have := inv.len; omega
  · rcases snoc_cases h2 with h2 | ⟨h3, rfl⟩
    · have := (List.getElem?_eq_some_iff.1 h2).1; have := inv.len; omega
    · exact hr

theorem inv_parse {msg : BuildError → List Char} {pre : List Op} {log : List Ret} {h : Heap}
    {src : Option (List UInt8)} (inv : Inv pre log h) :
    exec msg log (.parse src) h = .abort ∨ ∃ r h', exec msg log (.parse src) h = .ok r h' ∧
      Inv (pre ++ [.parse src]) (log ++ [r]) h' ∧ (∀ i < h.next, h'.docs.lookup i = h.docs.lookup i) ∧
      (∀ i < h.next, h'.strs.lookup i = h.strs.lookup i) ∧ h.next ≤ h'.next := by
  rcases parse_cases msg src h with g | ⟨r, h', g, hp⟩
  · left
    show CM.bind _ _ h = _
    rw [CM.bind, g]
  right
  refine ⟨.parsed r, h', bind_ok g, ?_⟩
  have freed : ∀ k, Op.freeDocument k ∈ pre ++ [Op.parse src] ∨ Op.freeString k ∈ pre ++ [Op.parse src] →
      k < (pre ++ [Op.parse src]).length := by
    intro j hj
    have := inv.freed j (by simpa using hj)
    simp; omega
  have nofree : ∀ k, Op.freeDocument k ∈ pre ++ [Op.parse src] ↔ Op.freeDocument k ∈ pre := by simp
  have hfrom : From (pre ++ [.parse src]) log.length log.length := .parse (s := src) (by rw [inv.len]; simp)
  rcases hp with ⟨es, sp, rfl, rfl⟩ | ⟨bs, rfl, rfl⟩
  · refine ⟨⟨by simp [inv.len], inv_ty inv rfl, ⟨?_, ?_⟩, freed, ?_, ?_, ?_, ?_, ?_, ?_⟩, ?_⟩
    · intro x hx
      simp only [List.mem_cons] at hx
      rcases hx with rfl | hx
      · simp
      · have := inv.fresh.1 x hx; simp only; omega
    · intro x hx
      have := inv.fresh.2 x hx; simp only; omega
    · intro j r' hj i hi
      rcases snoc_cases hj with hj | ⟨rfl, rfl⟩
      · obtain ⟨m1, d, e, m2, m3, m4⟩ := inv.docs j r' hj i hi
        refine ⟨by simp only; omega, d, e, m2.append _, snoc_old m3, fun hfr => ?_⟩
        refine (m4 fun hc => hfr (by simp [hc])).same fun i' hi' => ?_
        rw [hi] at hi'; cases hi'
        exact lookup_push m1
      · cases hi
        exact ⟨by simp, log.length, none, hfrom, by simp, fun _ => ⟨es, sp, List.lookup_cons_self⟩⟩
    · intro j j' i e e' h1 h2
      rcases snoc_cases h1 with h1 | ⟨h4, h3⟩ <;> rcases snoc_cases h2 with h2 | ⟨h6, h5⟩
      · exact inv.docsInj j j' i e e' h1 h2
      · cases h5; have := (inv.docs j _ h1 _ rfl).1; omega
      · cases h3; have := (inv.docs j' _ h2 _ rfl).1; omega
      · omega
    · intro k r' hk i hi
      rcases snoc_cases hk with hk | ⟨rfl, rfl⟩
      · obtain ⟨g1, g2⟩ := inv.strs k r' hk i hi
        exact ⟨by simp only; omega, fun hn => g2 fun hc => hn (by simp [hc])⟩
      · cases hi
    · intro k k' r1 r2 i hk hk' h1 h2
      rcases snoc_cases hk with hk | ⟨rfl, rfl⟩ <;> rcases snoc_cases hk' with hk' | ⟨rfl, rfl⟩
      · exact inv.strsInj k k' r1 r2 i hk hk' h1 h2
      · cases h2
      · cases h1
      · rfl
    · intro x hx
      simp only [List.mem_cons] at hx
      rcases hx with rfl | hx
      · refine ⟨log.length, none, by simp, ?_⟩
        rw [nofree]
        intro hc
        have := inv.freed _ (.inl hc); have := inv.len; omega
      · obtain ⟨j, e, m1, m2⟩ := inv.liveDocs x hx
        exact ⟨j, e, snoc_old m1, by rw [nofree]; exact m2⟩
    · intro x hx
      obtain ⟨j, r', m1, m2, m3⟩ := inv.liveStrs x hx
      exact ⟨j, r', snoc_old m1, m2, by simpa using m3⟩
    · exact ⟨fun i hi => lookup_push hi, fun _ _ => rfl, Nat.le_succ _⟩
  · obtain ⟨s1, s2, s3, s4⟩ := inv_strs (op := .parse src) (r := .parsed ⟨none, some h.next⟩)
      (h' := { h with strs := (h.next, bs) :: h.strs, next := h.next + 1 }) inv (.inr ⟨bs, rfl, rfl, rfl⟩) (by simp)
    refine ⟨⟨by simp [inv.len], inv_ty inv rfl, ⟨?_, s1⟩, freed, ?_, ?_, s2, s3, ?_, s4⟩, fun _ _ => rfl, fun i hi => lookup_push hi, Nat.le_succ _⟩
    · intro x hx
      have := inv.fresh.1 x hx; simp only; omega
    · intro j r' hj i hi
      rcases snoc_cases hj with hj | ⟨rfl, rfl⟩
      · obtain ⟨m1, d, e, m2, m3, m4⟩ := inv.docs j r' hj i hi
        refine ⟨by simp only; omega, d, e, m2.append _, snoc_old m3, fun hfr => ?_⟩
        exact (m4 fun hc => hfr (by simp [hc])).same fun i' hi' => rfl
      · cases hi
    · intro j j' i e e' h1 h2
      rcases snoc_cases h1 with h1 | ⟨h4, h3⟩ <;> rcases snoc_cases h2 with h2 | ⟨h6, h5⟩
      · exact inv.docsInj j j' i e e' h1 h2
      · cases h5
      · cases h3
      · omega
    · intro x hx
      obtain ⟨j, e, m1, m2⟩ := inv.liveDocs x hx
      exact ⟨j, e, snoc_old m1, by rw [nofree]; exact m2⟩

theorem inv_freeDocument {msg : BuildError → List Char} {pre : List Op} {log : List Ret} {h : Heap} {k : Nat}
    (inv : Inv pre log h) (ha : Allowed pre (.freeDocument k)) :
    ∃ h', exec msg log (.freeDocument k) h = .ok .done h' ∧ Inv (pre ++ [.freeDocument k]) (log ++ [.done]) h' ∧
      (∀ i, (∀ e, log[k]? ≠ some (.parsed ⟨some i, e⟩)) → h'.docs.lookup i = h.docs.lookup i) ∧
      h'.strs = h.strs ∧ h'.next = h.next := by
  obtain ⟨⟨s, g1⟩, g2⟩ := ha.2.1 k rfl
  have hklt : k < log.length := by rw [inv.len]; exact (List.getElem?_eq_some_iff.1 g1).1
  have hk : log[k]? = some log[k] := List.getElem?_eq_getElem hklt
  generalize log[k] = r0 at hk
  have hty := inv.ty k _ r0 g1 hk
  cases r0 <;> simp only [Ret.ty, Op.ty, reduceCtorEq] at hty
  rename_i r0
  obtain ⟨d, e⟩ := r0
  have key : ∀ h' : Heap, h'.strs = h.strs → h'.next = h.next → (∀ x ∈ h'.docs, x ∈ h.docs ∧ d ≠ some x.1) →
      (∀ i, d ≠ some i → h'.docs.lookup i = h.docs.lookup i) →
      Inv (pre ++ [.freeDocument k]) (log ++ [.done]) h' := by
    intro h' e1 e2 e3 e4
    refine ⟨by simp [inv.len], inv_ty inv rfl, ⟨?_, ?_⟩, ?_, ?_, ?_, ?_, ?_, ?_, ?_⟩
    · intro x hx; rw [e2]; exact inv.fresh.1 x (e3 x hx).1
    · intro x hx; rw [e1] at hx; rw [e2]; exact inv.fresh.2 x hx
    · intro j hj
      have : j < pre.length ∨ j = k := by
        rcases hj with hj | hj <;> rw [List.mem_append, List.mem_singleton] at hj
        · rcases hj with hj | hj
          · exact .inl (inv.freed j (.inl hj))
          · cases hj; exact .inr rfl
        · rcases hj with hj | hj
          · exact .inl (inv.freed j (.inr hj))
          · cases hj
      have := inv.len
      simp; omega
    · intro j r' hj i hi
      rcases snoc_cases hj with hj | ⟨h6, rfl⟩
      · obtain ⟨m1, d', e', m2, m3, m4⟩ := inv.docs j r' hj i hi
        refine ⟨by omega, d', e', m2.append _, snoc_old m3, fun hfr => ?_⟩
        refine (m4 fun hc => hfr (by simp [hc])).same fun i' hi' => ?_
        rw [hi] at hi'; cases hi'
        apply e4
        rintro rfl
        have := inv.docsInj _ _ _ _ _ m3 hk
        subst this
        exact hfr (by simp)
      · cases hi
    · intro j j' i e e' h1 h2
      rcases snoc_cases h1 with h1 | ⟨h4, h3⟩ <;> rcases snoc_cases h2 with h2 | ⟨h6, h5⟩
      · exact inv.docsInj j j' i e e' h1 h2
      · cases h5
      · cases h3
      · omega
    · intro j r' hj i hi
      rcases snoc_cases hj with hj | ⟨h6, rfl⟩
      · obtain ⟨g1, g2⟩ := inv.strs j r' hj i hi
        rw [e1, e2]
        exact ⟨g1, fun hn => g2 fun hc => hn (by simp [hc])⟩
      · cases hi
    · intro j j' r1 r2 i hj hj' h1 h2
      rcases snoc_cases hj with hj | ⟨h6, rfl⟩ <;> rcases snoc_cases hj' with hj' | ⟨h7, rfl⟩
      · exact inv.strsInj j j' r1 r2 i hj hj' h1 h2
      · cases h2
      · cases h1
      · omega
    · intro x hx
      obtain ⟨j, e, m1, m2⟩ := inv.liveDocs x (e3 x hx).1
      refine ⟨j, e, snoc_old m1, ?_⟩
      rw [List.mem_append, List.mem_singleton]
      rintro (hc | hc)
      · exact m2 hc
      · cases hc
        rw [hk] at m1; cases m1
        exact (e3 x hx).2 rfl
    · intro x hx
      rw [e1] at hx
      obtain ⟨j, r', m1, m2, m3⟩ := inv.liveStrs x hx
      exact ⟨j, r', snoc_old m1, m2, by simpa using m3⟩
  simp only [exec, hk]
  cases d with
  | none => exact ⟨h, bind_ok (m := freeDocument none) (a := ()) rfl, key h rfl rfl (by simp) (by simp), fun _ _ => rfl, rfl, rfl⟩
  | some d =>
    obtain ⟨-, d', e', m2, m3, m4⟩ := inv.docs k _ hk d rfl
    have := inv.docsInj _ _ _ _ _ m3 hk
    subst this
    obtain ⟨es, sp, hl⟩ := m4 g2
    refine ⟨{ h with docs := h.docs.filter fun x => x.1 != d }, bind_ok (m := freeDocument (some d)) (a := ()) ?_,
      key _ rfl rfl ?_ ?_, ?_, rfl, rfl⟩
    · simp only [freeDocument, hl]
    · intro x hx
      simp only [List.mem_filter, bne_iff_ne, ne_eq] at hx
      exact ⟨hx.1, fun hc => hx.2 (by cases hc; rfl)⟩
    · intro i hi
      exact lookup_filter (by rintro rfl; exact hi rfl)
    · intro i hi
      refine lookup_filter ?_
      rintro rfl
      exact hi _ rfl

theorem inv_freeString {msg : BuildError → List Char} {pre : List Op} {log : List Ret} {h : Heap} {k : Nat}
    (inv : Inv pre log h) (ha : Allowed pre (.freeString k)) :
    ∃ h', exec msg log (.freeString k) h = .ok .done h' ∧ Inv (pre ++ [.freeString k]) (log ++ [.done]) h' ∧
      h'.docs = h.docs ∧ h'.next = h.next ∧
      ∀ i, (∀ r, log[k]? = some r → r.strOf ≠ some i) → h'.strs.lookup i = h.strs.lookup i := by
  obtain ⟨⟨o, g1, g3⟩, g2⟩ := ha.2.2 k rfl
  have hklt : k < log.length := by rw [inv.len]; exact (List.getElem?_eq_some_iff.1 g1).1
  have hk : log[k]? = some log[k] := List.getElem?_eq_getElem hklt
  generalize log[k] = r0 at hk
  have hty := inv.ty k _ r0 g1 hk
  have hex : exec msg log (.freeString k) h = (freeString r0.strOf >>= fun _ => pure .done) h := by
    simp only [exec, hk]
    rw [← hty] at g3
    cases r0 <;> simp [Ret.ty] at g3 <;> rfl
  have key : ∀ h' : Heap, h'.docs = h.docs → h'.next = h.next → (∀ x ∈ h'.strs, x ∈ h.strs ∧ r0.strOf ≠ some x.1) →
      (∀ i, r0.strOf ≠ some i → h'.strs.lookup i = h.strs.lookup i) →
      Inv (pre ++ [.freeString k]) (log ++ [.done]) h' := by
    intro h' e1 e2 e3 e4
    refine ⟨by simp [inv.len], inv_ty inv rfl, ⟨?_, ?_⟩, ?_, ?_, ?_, ?_, ?_, ?_, ?_⟩
    · intro x hx; rw [e1] at hx; rw [e2]; exact inv.fresh.1 x hx
    · intro x hx; rw [e2]; exact inv.fresh.2 x (e3 x hx).1
    · intro j hj
      have : j < pre.length ∨ j = k := by
        rcases hj with hj | hj <;> rw [List.mem_append, List.mem_singleton] at hj
        · rcases hj with hj | hj
          · exact .inl (inv.freed j (.inl hj))
          · cases hj
        · rcases hj with hj | hj
          · exact .inl (inv.freed j (.inr hj))
          · cases hj; exact .inr rfl
      have := inv.len
      simp; omega
    · intro j r' hj i hi
      rcases snoc_cases hj with hj | ⟨h6, rfl⟩
      · obtain ⟨m1, d', e', m2, m3, m4⟩ := inv.docs j r' hj i hi
        refine ⟨by omega, d', e', m2.append _, snoc_old m3, fun hfr => ?_⟩
        exact (m4 fun hc => hfr (by simp [hc])).same fun i' hi' => by rw [e1]
      · cases hi
    · intro j j' i e e' h1 h2
      rcases snoc_cases h1 with h1 | ⟨h4, h3⟩ <;> rcases snoc_cases h2 with h2 | ⟨h6, h5⟩
      · exact inv.docsInj j j' i e e' h1 h2
      · cases h5
      · cases h3
      · omega
    · intro j r' hj i hi
      rcases snoc_cases hj with hj | ⟨h6, rfl⟩
      · obtain ⟨g1, g2⟩ := inv.strs j r' hj i hi
        rw [e2]
        refine ⟨g1, fun hn => ?_⟩
        rw [e4]
        · exact g2 fun hc => hn (by simp [hc])
        · intro hc
          have := inv.strsInj _ _ _ _ _ hj hk hi hc
          subst this
          exact hn (by simp)
      · cases hi
    · intro j j' r1 r2 i hj hj' h1 h2
      rcases snoc_cases hj with hj | ⟨h6, rfl⟩ <;> rcases snoc_cases hj' with hj' | ⟨h7, rfl⟩
      · exact inv.strsInj j j' r1 r2 i hj hj' h1 h2
      · cases h2
      · cases h1
      · omega
    · intro x hx
      rw [e1] at hx
      obtain ⟨j, e, m1, m2⟩ := inv.liveDocs x hx
      exact ⟨j, e, snoc_old m1, by simpa using m2⟩
    · intro x hx
      obtain ⟨j, r', m1, m2, m3⟩ := inv.liveStrs x (e3 x hx).1
      refine ⟨j, r', snoc_old m1, m2, ?_⟩
      rw [List.mem_append, List.mem_singleton]
      rintro (hc | hc)
      · exact m3 hc
      · cases hc
        rw [hk] at m1; cases m1
        exact (e3 x hx).2 m2
  rw [hex]
  cases hs : r0.strOf with
  | none =>
    rw [hs] at key
    exact ⟨h, bind_ok (m := freeString none) (a := ()) rfl, key h rfl rfl (by simp) (by simp), rfl, rfl, fun _ _ => rfl⟩
  | some d =>
    rw [hs] at key
    obtain ⟨-, m⟩ := inv.strs k _ hk d hs
    obtain ⟨bs, hl⟩ := Option.isSome_iff_exists.1 (m g2)
    refine ⟨{ h with strs := h.strs.filter fun x => x.1 != d }, bind_ok (m := freeString (some d)) (a := ()) ?_,
      key _ rfl rfl ?_ ?_, rfl, rfl, ?_⟩
    · simp only [freeString, hl]
    · intro x hx
      simp only [List.mem_filter, bne_iff_ne, ne_eq] at hx
      exact ⟨hx.1, fun hc => hx.2 (by cases hc; rfl)⟩
    · intro i hi
      exact lookup_filter (by rintro rfl; exact hi rfl)
    · intro i hi
      exact lookup_filter (by rintro rfl; exact hi _ hk hs)

/-! ## One call -/

/-- What a call leaves as it was: the documents and strings that it does not free. -/
structure Kept (log : List Ret) (op : Op) (h h' : Heap) : Prop where
  next : h.next ≤ h'.next
  docs : ∀ i < h.next, (∀ k e, op = .freeDocument k → log[k]? ≠ some (.parsed ⟨some i, e⟩)) →
    h'.docs.lookup i = h.docs.lookup i
  strs : ∀ i < h.next, (∀ k r, op = .freeString k → log[k]? = some r → r.strOf ≠ some i) →
    h'.strs.lookup i = h.strs.lookup i

theorem inv_step (msg : BuildError → List Char) {pre : List Op} {log : List Ret} {h : Heap} {op : Op}
    (inv : Inv pre log h) (ha : Allowed pre op) :
    exec msg log op h = .abort ∨ ∃ r h', exec msg log op h = .ok r h' ∧ Inv (pre ++ [op]) (log ++ [r]) h' ∧
      Kept log op h h' := by
  have look : (∃ k ty, op.looks = some (k, ty)) → exec msg log op h = .abort ∨ ∃ r h', exec msg log op h = .ok r h' ∧
      Inv (pre ++ [op]) (log ++ [r]) h' ∧ Kept log op h h' := by
    rintro ⟨k, ty, hl⟩
    obtain ⟨r, h', g1, g2, g3, g4⟩ := inv_look (msg := msg) inv hl ha
    exact .inr ⟨r, h', g1, g2, g4.next_le, fun i _ _ => by rw [g3], fun i hi _ => (g4.old hi).2⟩
  cases op with
  | parse s =>
    rcases inv_parse (msg := msg) (src := s) inv with g | ⟨r, h', g1, g2, g3, g4, g5⟩
    · exact .inl g
    · exact .inr ⟨r, h', g1, g2, g5, fun i hi _ => g3 i hi, fun i hi _ => g4 i hi⟩
  | freeDocument k =>
    obtain ⟨h', g1, g2, g3, g4, g5⟩ := inv_freeDocument (msg := msg) inv ha
    exact .inr ⟨_, h', g1, g2, by omega, fun i hi hn => g3 i fun e => hn k e rfl, fun i hi _ => by rw [g4]⟩
  | freeString k =>
    obtain ⟨h', g1, g2, g3, g4, g5⟩ := inv_freeString (msg := msg) inv ha
    exact .inr ⟨_, h', g1, g2, by omega, fun i hi _ => by rw [g3], fun i hi hn => g5 i fun r => hn k r rfl⟩
  | _ => exact look ⟨_, _, rfl⟩

end Styx.Ffi
