import Verif.Ffi.Read

/-! # Looking up paths -/

namespace Styx.Ffi

/-- The end of a way from a value. -/
def target (v : Value) (w : List Step) : Option Value :=
  if w = [] then some v else v.payload.bind (valueAt · w)

theorem valueAt_cons (p : Payload) (s : Step) (w : List Step) : valueAt p (s :: w) = (step p s).bind (target · w) := by
  cases w with
  | nil => simp only [valueAt, target, if_true]; cases step p s <;> rfl
  | cons y w =>
    simp only [valueAt, target, reduceCtorEq, if_false]
    cases step p s with
    | none => rfl
    | some v => obtain ⟨t, q, sp⟩ := v; cases q <;> rfl

/-- The way `w?` leads to the result `r`. -/
def Leads (w? : Option (List Step)) (r : Option Value) (to : List Step → Option Value) : Prop :=
  match w? with
  | none => r = none
  | some w => ∃ u, r = some u ∧ to w = some u

mutual
theorem wayOf_leads (path : List Char) : ∀ v : Value, Leads (wayOf path v) (v.get path) (target v)
  | .mk t p s => by
    unfold wayOf Value.get
    by_cases hp : path = []
    · simp [hp, Leads, target]
    simp only [if_neg hp]
    cases hs : splitPath path with
    | mk seg rest =>
      match p with
      | none => exact rfl
      | some (.scalar ..) => exact rfl
      | some (.object es sp) =>
        simp only
        have := wayInEntries_leads seg rest 0 es
        cases hw : wayInEntries seg rest 0 es with
        | none => rw [hw] at this; exact this
        | some w =>
          rw [hw] at this
          obtain ⟨u, h1, h2, h3⟩ := this
          exact ⟨u, h1, by simp [target, h2, Value.payload, h3 es sp rfl]⟩
      | some (.sequence vs sp) =>
        simp only
        cases hb : bracketIndex seg with
        | none => exact rfl
        | some ds =>
          simp only
          cases hu : parseUsize ds with
          | none => exact rfl
          | some idx =>
            simp only
            have := wayInItems_leads rest idx vs
            cases hw : wayInItems rest idx vs with
            | none => rw [hw] at this; exact this
            | some w =>
              rw [hw] at this
              obtain ⟨u, x, h1, h2, h3⟩ := this
              refine ⟨u, h1, ?_⟩
              simp only [target, reduceCtorEq, if_false, Value.payload, Option.bind_some]
              rw [valueAt_cons]
              simp [step, h2, h3]
theorem wayInEntries_leads (seg rest : List Char) : ∀ (i : Nat) (es : List Entry),
    match wayInEntries seg rest i es with
    | none => getInEntries seg rest es = none
    | some w => ∃ u, getInEntries seg rest es = some u ∧ w ≠ [] ∧
        ∀ all sp, all.drop i = es → valueAt (.object all sp) w = some u
  | _, [] => rfl
  | i, .mk k v d :: es => by
    unfold wayInEntries getInEntries
    have hat : ∀ all : List Entry, all.drop i = .mk k v d :: es → all[i]? = some (.mk k v d) := by
      intro all h
      have := congrArg (·[0]?) h; simpa using this
    by_cases hk : (k.asStr == some seg) = true
    · simp only [hk, if_true]
      by_cases hr : rest = []
      · simp only [hr, if_true]
        refine ⟨v, rfl, by simp, fun all sp h => ?_⟩
        simp [valueAt, step, hat all h, Entry.value]
      · simp only [if_neg hr]
        have := wayOf_leads rest v
        cases hw : wayOf rest v with
        | none => rw [hw] at this; exact this
        | some w =>
          rw [hw] at this
          obtain ⟨u, h1, h2⟩ := this
          refine ⟨u, h1, by simp, fun all sp h => ?_⟩
          rw [valueAt_cons]
          simp [step, hat all h, Entry.value, h2]
    · simp only [if_neg hk]
      have := wayInEntries_leads seg rest (i + 1) es
      cases hw : wayInEntries seg rest (i + 1) es with
      | none => rw [hw] at this; exact this
      | some w =>
        rw [hw] at this
        obtain ⟨u, h1, h2, h3⟩ := this
        exact ⟨u, h1, h2, fun all sp h => h3 all sp (by rw [← List.tail_drop, h]; rfl)⟩
theorem wayInItems_leads (rest : List Char) : ∀ (idx : Nat) (vs : List Value),
    match wayInItems rest idx vs with
    | none => getInItems rest idx vs = none
    | some w => ∃ u x, getInItems rest idx vs = some u ∧ vs[idx]? = some x ∧ target x w = some u
  | _, [] => by simp [wayInItems, getInItems]
  | 0, v :: vs => by
    unfold wayInItems getInItems
    by_cases hr : rest = []
    · simp [hr, target]
    · simp only [if_neg hr]
      have := wayOf_leads rest v
      cases hw : wayOf rest v with
      | none => rw [hw] at this; exact this
      | some w =>
        rw [hw] at this
        obtain ⟨u, h1, h2⟩ := this
        exact ⟨u, v, h1, rfl, h2⟩
  | n + 1, v :: vs => by
    unfold wayInItems getInItems
    have := wayInItems_leads rest n vs
    simpa using this
end

theorem docWay_leads (es : List Entry) (sp : Option Span) (path : List Char) :
    Leads (docWay es path) (docGet es path) (valueAt (.object es sp)) := by
  unfold docWay docGet
  by_cases hp : path = []
  · simp [hp, Leads]
  simp only [if_neg hp]
  cases hs : splitPath path with
  | mk seg rest =>
    simp only [objGet, List.find?_eq_bind_findIdx?_getElem?]
    cases hi : es.findIdx? (fun e => e.key.asStr == some seg) with
    | none => exact rfl
    | some i =>
      obtain ⟨hlt, -, -⟩ := List.findIdx?_eq_some_iff_getElem.1 hi
      simp only [Option.bind_some, List.getElem?_eq_getElem hlt, Option.map_some]
      by_cases hr : rest = []
      · simp only [hr, if_true]
        exact ⟨_, rfl, by simp [valueAt, step, hlt]⟩
      · simp only [if_neg hr]
        have := wayOf_leads rest es[i].value
        cases hw : wayOf rest es[i].value with
        | none => rw [hw] at this; exact this
        | some w =>
          rw [hw] at this
          obtain ⟨u, h1, h2⟩ := this
          refine ⟨u, h1, ?_⟩
          rw [valueAt_cons]
          simp [step, hlt, h2]

theorem documentGet_ok {h : Heap} {d : Nat} {es : List Entry} {sp : Option Span} {bs : List UInt8}
    {path : List Char} (ht : toStr bs = some path) (hd : h.docs.lookup d = some (.object es sp)) :
    ∃ r, documentGet (some d) (some bs) h = .ok r h ∧
      match docGet es path with
      | none => r = none
      | some v => ∃ p, r = some p ∧ p.doc = d ∧ PointsTo h p v := by
  refine ⟨(docWay es path).map (⟨d, ·⟩), ?_, ?_⟩
  · rw [documentGet, bind_ok (a := .object es sp) (h' := h)]
    · simp only [ht]; rfl
    · simp [derefDoc, hd]
  · have := docWay_leads es sp path
    cases hw : docWay es path with
    | none => rw [hw] at this; simp only [Leads] at this; simp [this]
    | some w =>
      rw [hw] at this
      obtain ⟨u, h1, h2⟩ := this
      simp only [h1]
      exact ⟨_, rfl, rfl, _, hd, h2⟩

theorem valueGet_ok {h : Heap} {p : Ptr} {v : Value} {bs : List UInt8} {path : List Char} (ht : toStr bs = some path)
    (hp : PointsTo h p v) :
    ∃ r, valueGet (some p) (some bs) h = .ok r h ∧
      match v.get path with
      | none => r = none
      | some u => ∃ q, r = some q ∧ q.doc = p.doc ∧ PointsTo h q u := by
  refine ⟨(wayOf path v).map fun w => ⟨p.doc, p.way ++ w⟩, ?_, ?_⟩
  · rw [valueGet, bind_ok hp.deref]
    simp only [ht]; rfl
  · have := wayOf_leads path v
    cases hw : wayOf path v with
    | none => rw [hw] at this; simp only [Leads] at this; simp [this]
    | some w =>
      rw [hw] at this
      obtain ⟨u, h1, h2⟩ := this
      simp only [h1]
      refine ⟨_, rfl, rfl, ?_⟩
      cases w with
      | nil => simp [target] at h2; subst h2; simpa using hp
      | cons s w =>
        obtain ⟨t, q, sp⟩ := v
        cases q with
        | none => simp [target, Value.payload] at h2
        | some q =>
          obtain ⟨root, k1, k2⟩ := hp.payload
          refine ⟨root, k1, ?_⟩
          rw [valueAt_append p.way root q s w k2]
          simpa [target, Value.payload] using h2

end Styx.Ffi
