import Verif.Ffi.History

/-! # Whole histories -/

namespace Styx.Ffi

/-- What a history leaves as it was. -/
structure KeptAll (log : List Ret) (ops : List Op) (h h' : Heap) : Prop where
  next : h.next ≤ h'.next
  docs : ∀ i < h.next, (∀ k e, Op.freeDocument k ∈ ops → log[k]? ≠ some (.parsed ⟨some i, e⟩)) →
    h'.docs.lookup i = h.docs.lookup i
  strs : ∀ i < h.next, (∀ k r, Op.freeString k ∈ ops → log[k]? = some r → r.strOf ≠ some i) →
    h'.strs.lookup i = h.strs.lookup i

theorem run_inv (msg : BuildError → List Char) : ∀ (ops pre : List Op) (log : List Ret) (h : Heap),
    Inv pre log h → Legal pre ops →
    run msg log ops h = .abort ∨ ∃ rs h', run msg log ops h = .ok rs h' ∧ rs.length = ops.length ∧
      Inv (pre ++ ops) (log ++ rs.map Prod.fst) h' ∧ KeptAll (log ++ rs.map Prod.fst) ops h h' := by
  intro ops
  induction ops with
  | nil =>
    intro pre log h inv _
    exact .inr ⟨[], h, rfl, rfl, by simpa using inv, Nat.le_refl _, fun _ _ _ => rfl, fun _ _ _ => rfl⟩
  | cons op ops ih =>
    intro pre log h inv hl
    rcases inv_step msg inv hl.1 with g | ⟨r, h1, g1, g2, g3⟩
    · left; simp [run, g]
    · rcases ih _ _ _ g2 hl.2 with g | ⟨rs, h', k1, k2, k3, k4⟩
      · left; simp [run, g1, g]
      · right
        refine ⟨(r, h1) :: rs, h', by simp [run, g1, k1], by simp [k2], by simpa using k3, ?_⟩
        have hlog : ∀ (k : Nat) (r' : Ret), log[k]? = some r' → (log ++ ((r, h1) :: rs).map Prod.fst)[k]? = some r' := by
          intro k r' hk
          rw [List.getElem?_append_left (List.getElem?_eq_some_iff.1 hk).1]; exact hk
        have heq : log ++ ((r, h1) :: rs).map Prod.fst = log ++ [r] ++ rs.map Prod.fst := by simp
        refine ⟨Nat.le_trans g3.next k4.next, ?_, ?_⟩
        · intro i hi hn
          rw [k4.docs i (by have := g3.next; omega), g3.docs i hi]
          · intro k e hop hk
            exact hn k e (by simp [hop]) (hlog _ _ hk)
          · intro k e hop
            rw [← heq]
            exact hn k e (by simp [hop])
        · intro i hi hn
          rw [k4.strs i (by have := g3.next; omega), g3.strs i hi]
          · intro k e hop hk
            exact hn k e (by simp [hop]) (hlog _ _ hk)
          · intro k e hop
            rw [← heq]
            exact hn k e (by simp [hop])

theorem run_append (msg : BuildError → List Char) : ∀ (a b : List Op) (log : List Ret) (h h' : Heap) (rs : List (Ret × Heap)),
    run msg log (a ++ b) h = .ok rs h' → ∃ rs1 rs2 h1, run msg log a h = .ok rs1 h1 ∧
      run msg (log ++ rs1.map Prod.fst) b h1 = .ok rs2 h' ∧ rs = rs1 ++ rs2 := by
  intro a
  induction a with
  | nil => intro b log h h' rs hr; exact ⟨[], rs, h, rfl, by simpa using hr, rfl⟩
  | cons op a ih =>
    intro b log h h' rs hr
    simp only [List.cons_append, run] at hr ⊢
    cases he : exec msg log op h with
    | ok r h1 =>
      simp only [he] at hr ⊢
      cases hr2 : run msg (log ++ [r]) (a ++ b) h1 with
      | ok rs' h2 =>
        simp only [hr2, Out.ok.injEq] at hr
        obtain ⟨rfl, rfl⟩ := hr
        obtain ⟨rs1, rs2, h3, k1, k2, k3⟩ := ih b _ _ _ _ hr2
        exact ⟨(r, h1) :: rs1, rs2, h3, by simp [k1], by simpa using k2, by simp [k3]⟩
      | undefined => simp [hr2] at hr
      | abort => simp [hr2] at hr
    | undefined => simp [he] at hr
    | abort => simp [he] at hr

theorem run_length (msg : BuildError → List Char) : ∀ (ops : List Op) (log : List Ret) (h h' : Heap) (rs : List (Ret × Heap)),
    run msg log ops h = .ok rs h' → rs.length = ops.length := by
  intro a
  induction a with
  | nil => intro log h h' rs hr; cases hr; rfl
  | cons op a ih =>
    intro log h h' rs hr
    simp only [run] at hr
    cases he : exec msg log op h with
    | ok r h1 =>
      simp only [he] at hr
      cases hr2 : run msg (log ++ [r]) a h1 with
      | ok rs' h2 =>
        simp only [hr2, Out.ok.injEq] at hr
        obtain ⟨rfl, rfl⟩ := hr
        simp [ih _ _ _ _ hr2]
      | undefined => simp [hr2] at hr
      | abort => simp [hr2] at hr
    | undefined => simp [he] at hr
    | abort => simp [he] at hr

theorem legal_append : ∀ (a b pre : List Op), Legal pre (a ++ b) ↔ Legal pre a ∧ Legal (pre ++ a) b
  | [], b, pre => by simp [Legal]
  | op :: a, b, pre => by
    simp only [List.cons_append, Legal, legal_append a b]
    simp [and_assoc]

/-! ## Looking twice -/

/-- The call depends only on the document `d`, and changes nothing. -/
def Quiet {α : Type} (d : Nat) (m : CM α) : Prop :=
  ∀ h h' : Heap, h'.docs.lookup d = h.docs.lookup d →
    (∃ a, m h = .ok a h ∧ m h' = .ok a h') ∨ (m h = .undefined ∧ m h' = .undefined)

theorem quiet_ret {α : Type} {d : Nat} (a : α) : Quiet d (ret a) := fun _ _ _ => .inl ⟨a, rfl, rfl⟩

theorem quiet_pure {α : Type} {d : Nat} (a : α) : Quiet d (pure a : CM α) := fun _ _ _ => .inl ⟨a, rfl, rfl⟩

theorem Quiet.bind {α β : Type} {d : Nat} {m : CM α} {f : α → CM β} (hm : Quiet d m) (hf : ∀ a, Quiet d (f a)) :
    Quiet d (m >>= f) := by
  intro h h' hl
  rcases hm h h' hl with ⟨a, g1, g2⟩ | ⟨g1, g2⟩
  · rw [bind_ok g1, bind_ok g2]; exact hf a h h' hl
  · right
    constructor
    · show CM.bind _ _ _ = _; rw [CM.bind, g1]
    · show CM.bind _ _ _ = _; rw [CM.bind, g2]

theorem quiet_derefDoc (d : Nat) : Quiet d (derefDoc d) := by
  intro h h' hl
  simp only [derefDoc, hl]
  split
  · exact .inl ⟨_, rfl, rfl⟩
  · exact .inr ⟨rfl, rfl⟩

theorem quiet_derefValue (p : Ptr) : Quiet p.doc (derefValue p) := by
  intro h h' hl
  simp only [derefValue, hl]
  split
  · split
    · exact .inl ⟨_, rfl, rfl⟩
    · exact .inr ⟨rfl, rfl⟩
  · exact .inr ⟨rfl, rfl⟩

theorem quiet_derefObject (p : Ptr) : Quiet p.doc (derefObject p) := by
  intro h h' hl
  simp only [derefObject, hl]
  split
  · split
    · exact .inl ⟨_, rfl, rfl⟩
    · exact .inr ⟨rfl, rfl⟩
  · exact .inr ⟨rfl, rfl⟩

theorem quiet_derefSequence (p : Ptr) : Quiet p.doc (derefSequence p) := by
  intro h h' hl
  simp only [derefSequence, hl]
  split
  · split
    · exact .inl ⟨_, rfl, rfl⟩
    · exact .inr ⟨rfl, rfl⟩
  · exact .inr ⟨rfl, rfl⟩

/-- Both calls give the same answer, or both are undefined. -/
def Same (m m' : CM Ret) (h h' : Heap) : Prop :=
  ∀ r h1 r' h1', m h = .ok r h1 → m' h' = .ok r' h1' → SameAnswer h1 r h1' r'

theorem sameAnswer_self {h h' : Heap} {r : Ret} (hs : ∀ s, r ≠ .string (some s)) : SameAnswer h r h' r := by
  unfold SameAnswer
  split
  · exact absurd rfl (hs _)
  · rfl

theorem same_of_quiet {α : Type} {d : Nat} {m : CM α} {f : α → Ret} (hq : Quiet d m) (hf : ∀ a s, f a ≠ .string (some s))
    {h h' : Heap} (hl : h'.docs.lookup d = h.docs.lookup d) : Same (do return f (← m)) (do return f (← m)) h h' := by
  intro r h1 r' h1' e1 e2
  rcases hq h h' hl with ⟨a, g1, g2⟩ | ⟨g1, g2⟩
  · rw [bind_ok g1] at e1; rw [bind_ok g2] at e2
    cases e1; cases e2
    exact sameAnswer_self (hf a)
  · have : (do return f (← m) : CM Ret) h = .undefined := by show CM.bind _ _ _ = _; rw [CM.bind, g1]
    rw [this] at e1; cases e1

theorem newString_same (t : List Char) (h h' : Heap) :
    (newString t h = .ok none h ∧ newString t h' = .ok none h') ∨
    ∃ bs, newString t h = .ok (some h.next) { h with strs := (h.next, bs) :: h.strs, next := h.next + 1 } ∧
      newString t h' = .ok (some h'.next) { h' with strs := (h'.next, bs) :: h'.strs, next := h'.next + 1 } := by
  simp only [newString]
  split
  · exact .inl ⟨rfl, rfl⟩
  · exact .inr ⟨_, rfl, rfl⟩

theorem same_string {d : Nat} {m : CM (Option (List Char))} (hq : Quiet d m)
    {h h' : Heap} (hl : h'.docs.lookup d = h.docs.lookup d) :
    Same (do match ← m with
             | some t => do return .string (← newString t)
             | none => return .string none)
         (do match ← m with
             | some t => do return .string (← newString t)
             | none => return .string none) h h' := by
  intro r h1 r' h1' e1 e2
  rcases hq h h' hl with ⟨a, g1, g2⟩ | ⟨g1, g2⟩
  · rw [bind_ok g1] at e1; rw [bind_ok g2] at e2
    cases a with
    | none => cases e1; cases e2; exact sameAnswer_self (by simp)
    | some t =>
      simp only at e1 e2
      rcases newString_same t h h' with ⟨k1, k2⟩ | ⟨bs, k1, k2⟩
      · rw [bind_ok k1] at e1; rw [bind_ok k2] at e2
        cases e1; cases e2; exact sameAnswer_self (by simp)
      · rw [bind_ok k1] at e1; rw [bind_ok k2] at e2
        cases e1; cases e2
        exact ⟨bs, List.lookup_cons_self, List.lookup_cons_self⟩
  · have e3 := e1
    simp only [Bind.bind, CM.bind, g1] at e3
    cases e3

theorem same_abs {m : CM Ret} {d : Nat} {h h' : Heap} (m' : CM (Option (List Char))) (hq : Quiet d m')
    (hm : m = (do match ← m' with
             | some t => do return .string (← newString t)
             | none => return .string none))
    (hl : h'.docs.lookup d = h.docs.lookup d) : Same m m h h' := by
  rw [hm]; exact same_string hq hl

theorem cm_bind_assoc {α β γ : Type} (m : CM α) (f : α → CM β) (g : β → CM γ) :
    (m >>= f) >>= g = m >>= fun a => f a >>= g := by
  funext h
  show CM.bind (CM.bind m f) g h = CM.bind m (fun a => CM.bind (f a) g) h
  simp only [CM.bind]
  cases m h <;> rfl

theorem cm_pure_bind {α β : Type} (a : α) (f : α → CM β) : (pure a >>= f : CM β) = f a := rfl

theorem look_same (msg : BuildError → List Char) {op : Op} {k : Nat} {ty : Ty} (hl : op.looks = some (k, ty))
    {log log' : List Ret} {r0 : Ret} (hk : log[k]? = some r0) (hk' : log'[k]? = some r0) {h h' : Heap}
    (hd : ∀ i, r0.docOf = some i → h'.docs.lookup i = h.docs.lookup i) :
    Same (exec msg log op) (exec msg log' op) h h' := by
  have undef : Same (fun _ => .undefined) (fun _ => .undefined) h h' := by
    intro r h1 r' h1' e1; cases e1
  have const : ∀ (d : Nat) {α : Type} (a : α) (f : α → Ret), (∀ a s, f a ≠ .string (some s)) →
      Same (do return f (← ret a)) (do return f (← ret a)) h h' := by
    intro d α a f hf r h1 r' h1' e1 e2
    cases e1; cases e2; exact sameAnswer_self (hf a)
  cases op <;> simp only [Op.looks, Option.some.injEq, Prod.mk.injEq, reduceCtorEq] at hl <;>
    obtain ⟨rfl, rfl⟩ := hl <;> simp only [exec, hk, hk'] <;> cases r0 <;> try exact undef
  case documentRoot.parsed k r =>
    obtain ⟨d, e⟩ := r
    cases d with
    | none => exact const 0 _ _ (by simp)
    | some d =>
      exact same_of_quiet (d := d) ((quiet_derefDoc d).bind fun _ => quiet_pure _) (by simp) (hd d rfl)
  case documentGet.parsed k path r =>
    obtain ⟨d, e⟩ := r
    cases d with
    | none => exact const 0 _ _ (by simp)
    | some d =>
      cases path with
      | none => exact const 0 _ _ (by simp)
      | some bs =>
        refine same_of_quiet (d := d) ((quiet_derefDoc d).bind fun _ => ?_) (by simp) (hd d rfl)
        split <;> exact quiet_pure _
  case payloadKind.value k p =>
    cases p with
    | none => exact const 0 _ _ (by simp)
    | some p =>
      refine same_of_quiet (d := p.doc) ((quiet_derefValue p).bind fun _ => ?_) (by simp) (hd _ rfl)
      split <;> exact quiet_pure _
  case isUnit.value k p =>
    cases p with
    | none => exact const 0 _ _ (by simp)
    | some p =>
      exact same_of_quiet (d := p.doc) ((quiet_derefValue p).bind fun _ => quiet_pure _) (by simp) (hd _ rfl)
  case tag.value k p =>
    cases p with
    | none =>
      intro r h1 r' h1' e1 e2
      cases e1; cases e2; exact sameAnswer_self (by simp)
    | some p =>
      refine same_abs (do return (← derefValue p).tagName) ((quiet_derefValue p).bind fun _ => quiet_pure _) ?_ (hd _ rfl)
      simp only [valueTag, cm_bind_assoc, cm_pure_bind]
      congr 1; funext v
      cases v.tagName <;> rfl
  case scalar.value k p =>
    cases p with
    | none =>
      intro r h1 r' h1' e1 e2
      cases e1; cases e2; exact sameAnswer_self (by simp)
    | some p =>
      refine same_abs (do return match (← derefValue p).payload with | some (.scalar t _ _) => some t | _ => none)
        ((quiet_derefValue p).bind fun _ => quiet_pure _) ?_ (hd _ rfl)
      simp only [valueScalar, cm_bind_assoc, cm_pure_bind]
      congr 1; funext v
      cases v.payload with
      | none => rfl
      | some pl => cases pl <;> rfl
  case asObject.value k p =>
    cases p with
    | none => exact const 0 _ _ (by simp)
    | some p =>
      refine same_of_quiet (d := p.doc) ((quiet_derefValue p).bind fun _ => ?_) (by simp) (hd _ rfl)
      split <;> exact quiet_pure _
  case asSequence.value k p =>
    cases p with
    | none => exact const 0 _ _ (by simp)
    | some p =>
      refine same_of_quiet (d := p.doc) ((quiet_derefValue p).bind fun _ => ?_) (by simp) (hd _ rfl)
      split <;> exact quiet_pure _
  case valueGet.value k path p =>
    cases p with
    | none => exact const 0 _ _ (by simp)
    | some p =>
      cases path with
      | none => exact const 0 _ _ (by simp)
      | some bs =>
        refine same_of_quiet (d := p.doc) ((quiet_derefValue p).bind fun _ => ?_) (by simp) (hd _ rfl)
        split <;> exact quiet_pure _
  case objectLen.object k p =>
    cases p with
    | none => exact const 0 _ _ (by simp)
    | some p =>
      exact same_of_quiet (d := p.doc) ((quiet_derefObject p).bind fun _ => quiet_pure _) (by simp) (hd _ rfl)
  case objectGet.object k key p =>
    cases p with
    | none => exact const 0 _ _ (by simp)
    | some p =>
      cases key with
      | none => exact const 0 _ _ (by simp)
      | some bs =>
        refine same_of_quiet (d := p.doc) ((quiet_derefObject p).bind fun _ => ?_) (by simp) (hd _ rfl)
        split <;> exact quiet_pure _
  case objectKeyAt.object k i p =>
    cases p with
    | none => exact const 0 _ _ (by simp)
    | some p =>
      exact same_of_quiet (d := p.doc) ((quiet_derefObject p).bind fun _ => quiet_pure _) (by simp) (hd _ rfl)
  case objectValueAt.object k i p =>
    cases p with
    | none => exact const 0 _ _ (by simp)
    | some p =>
      exact same_of_quiet (d := p.doc) ((quiet_derefObject p).bind fun _ => quiet_pure _) (by simp) (hd _ rfl)
  case sequenceLen.sequence k p =>
    cases p with
    | none => exact const 0 _ _ (by simp)
    | some p =>
      exact same_of_quiet (d := p.doc) ((quiet_derefSequence p).bind fun _ => quiet_pure _) (by simp) (hd _ rfl)
  case sequenceGet.sequence k i p =>
    cases p with
    | none => exact const 0 _ _ (by simp)
    | some p =>
      exact same_of_quiet (d := p.doc) ((quiet_derefSequence p).bind fun _ => quiet_pure _) (by simp) (hd _ rfl)

/-- A history split before a call. -/
theorem split_at {ops : List Op} {i : Nat} {op : Op} (hi : ops[i]? = some op) :
    ∃ a b, ops = a ++ op :: b ∧ a.length = i := by
  obtain ⟨hlt, he⟩ := List.getElem?_eq_some_iff.1 hi
  refine ⟨ops.take i, ops.drop (i + 1), ?_, by simp; omega⟩
  rw [← he, List.getElem_cons_drop hlt, List.take_append_drop]

/-- The two calls at the ends of a part of a history. -/
theorem run_two (msg : BuildError → List Char) {ops : List Op} (hL : Legal [] ops) {rs : List (Ret × Heap)} {h' : Heap}
    (hr : run msg [] ops {} = .ok rs h') {i : Nat} {op : Op} {r : Ret} {h1 : Heap} (hi : ops[i]? = some op)
    (hri : rs[i]? = some (r, h1)) :
    ∃ a b, ops = a ++ op :: b ∧ a.length = i ∧ ∃ rsa ha rsb, rs = rsa ++ (r, h1) :: rsb ∧ rsa.length = i ∧
      Inv a (rsa.map Prod.fst) ha ∧ Allowed a op ∧ exec msg (rsa.map Prod.fst) op ha = .ok r h1 ∧
      Inv (a ++ [op]) (rsa.map Prod.fst ++ [r]) h1 ∧ Legal (a ++ [op]) b ∧
      run msg (rsa.map Prod.fst ++ [r]) b h1 = .ok rsb h' := by
  obtain ⟨a, b, rfl, ha⟩ := split_at hi
  obtain ⟨rsa, rs2, hA, g1, g2, rfl⟩ := run_append msg a (op :: b) [] {} h' rs hr
  obtain ⟨l1, l2⟩ := (legal_append a (op :: b) []).1 hL
  simp only [List.nil_append] at g2 l2
  have hlen := run_length msg _ _ _ _ _ g1
  rcases run_inv msg a [] [] {} inv_nil l1 with e | ⟨rs', hA', k1, -, k3, -⟩
  · rw [e] at g1; cases g1
  rw [k1] at g1; cases g1
  simp only [List.nil_append] at k3
  rcases inv_step msg k3 l2.1 with e | ⟨r', h1', m1, m2, m3⟩
  · simp [run, e] at g2
  simp only [run, m1] at g2
  cases hr2 : run msg (List.map Prod.fst rsa ++ [r']) b h1' with
  | ok rsb h2 =>
    simp only [hr2, Out.ok.injEq] at g2
    obtain ⟨rfl, rfl⟩ := g2
    have : (r', h1') = (r, h1) := by
      have : rsa.length = i := by omega
      subst this
      simpa using hri
    cases this
    exact ⟨a, b, rfl, ha, rsa, hA, rsb, rfl, by omega, k3, l2.1, m1, m2, l2.2, hr2⟩
  | undefined => simp [hr2] at g2
  | abort => simp [hr2] at g2

theorem stable (msg : BuildError → List Char) {ops : List Op} (hL : Legal [] ops) {rs : List (Ret × Heap)} {h' : Heap}
    (hr : run msg [] ops {} = .ok rs h') {i j : Nat} (hij : i < j) {op : Op} (hop : op.looks.isSome)
    (hi : ops[i]? = some op) (hj : ops[j]? = some op) {r r' : Ret} {h1 h2 : Heap} (hri : rs[i]? = some (r, h1))
    (hrj : rs[j]? = some (r', h2)) : SameAnswer h1 r h2 r' := by
  obtain ⟨⟨k, ty⟩, hl⟩ := Option.isSome_iff_exists.1 hop
  obtain ⟨a, b, rfl, ha, rsa, hA, rsb, rfl, hla, invA, alA, exA, invA', lB, rB⟩ := run_two msg hL hr hi hri
  -- the part between the calls
  obtain ⟨m, rfl⟩ : ∃ m, j = i + 1 + m := ⟨j - (i + 1), by omega⟩
  have hjb : b[m]? = some op := by
    rw [List.getElem?_append_right (by omega), show i + 1 + m - a.length = m + 1 by omega] at hj
    simpa using hj
  have hrjb : rsb[m]? = some (r', h2) := by
    rw [List.getElem?_append_right (by omega), show i + 1 + m - rsa.length = m + 1 by omega] at hrj
    simpa using hrj
  obtain ⟨b1, b2, rfl, hb⟩ := split_at hjb
  obtain ⟨rs1, rs2, hB, g1, g2, rfl⟩ := run_append msg b1 (op :: b2) _ _ _ _ rB
  obtain ⟨l1, l2⟩ := (legal_append b1 (op :: b2) _).1 lB
  rcases run_inv msg b1 _ _ _ invA' l1 with e | ⟨rs', hB', k1, k2, k3, k4⟩
  · rw [e] at g1; cases g1
  rw [k1] at g1; cases g1
  rcases inv_step msg k3 l2.1 with e | ⟨r'', h2', m1, m2, m3⟩
  · simp only [run, e] at g2; cases g2
  have e2 : exec msg (rsa.map Prod.fst ++ [r] ++ rs1.map Prod.fst) op hB = .ok r' h2 := by
    simp only [run, m1] at g2
    cases hr2 : run msg (rsa.map Prod.fst ++ [r] ++ rs1.map Prod.fst ++ [r'']) b2 h2' with
    | ok rsb h3 =>
      simp only [hr2, Out.ok.injEq] at g2
      obtain ⟨rfl, rfl⟩ := g2
      have : (r'', h2') = (r', h2) := by
        have : m = rs1.length := by omega
        subst this
        simpa using hrjb
      cases this
      exact m1
    | undefined => simp only [hr2] at g2; cases g2
    | abort => simp only [hr2] at g2; cases g2
  -- the handle
  obtain ⟨o, q1, q2, q3⟩ := alA.1 k ty hl
  have hklt : k < (rsa.map Prod.fst).length := by rw [invA.len]; exact (List.getElem?_eq_some_iff.1 q1).1
  have hk : (rsa.map Prod.fst)[k]? = some (rsa.map Prod.fst)[k] := List.getElem?_eq_getElem hklt
  generalize (rsa.map Prod.fst)[k] = r0 at hk
  have hk' : (rsa.map Prod.fst ++ [r] ++ rs1.map Prod.fst)[k]? = some r0 := by
    rw [List.append_assoc, List.getElem?_append_left hklt]; exact hk
  obtain ⟨_, -, -, q3'⟩ := l2.1.1 k ty hl
  refine look_same msg hl hk hk' (fun d hd => ?_) _ _ _ _ exA e2
  obtain ⟨u1, p, e, u2, u3, u4⟩ := invA.docs k r0 hk d hd
  have hnf : Op.freeDocument p ∉ a ++ [op] ++ b1 := q3' p ((u2.append _).append _)
  rcases inv_look (msg := msg) invA hl alA with ⟨r3, h3, v1, -, v3, v4⟩
  rw [v1] at exA; cases exA
  rw [k4.docs d (by have := v4.next_le; omega), v3]
  intro k' e' hf hc
  have hp : (rsa.map Prod.fst ++ [r] ++ rs1.map Prod.fst)[p]? = some (.parsed ⟨some d, e⟩) := by
    rw [List.append_assoc, List.getElem?_append_left (List.getElem?_eq_some_iff.1 u3).1]; exact u3
  have := k3.docsInj _ _ _ _ _ hp hc
  subst this
  exact hnf (by simp [hf])

/-- A string keeps its bytes until it is freed. -/
theorem string_kept (msg : BuildError → List Char) {ops : List Op} (hL : Legal [] ops) {rs : List (Ret × Heap)} {h' : Heap}
    (hr : run msg [] ops {} = .ok rs h') {i : Nat} {r : Ret} {h1 : Heap} (hri : rs[i]? = some (r, h1))
    (hf : Op.freeString i ∉ ops) {s : Nat} (hs : r.strOf = some s) :
    ∃ bs, h1.strs.lookup s = some bs ∧ h'.strs.lookup s = some bs := by
  have hlt : i < ops.length := by
    rw [← run_length msg _ _ _ _ _ hr]; exact (List.getElem?_eq_some_iff.1 hri).1
  obtain ⟨op, hi⟩ : ∃ op, ops[i]? = some op := ⟨_, List.getElem?_eq_getElem hlt⟩
  obtain ⟨a, b, rfl, ha, rsa, hA, rsb, rfl, hla, invA, alA, exA, invA', lB, rB⟩ := run_two msg hL hr hi hri
  have hlog : (rsa.map Prod.fst ++ [r])[i]? = some r := by subst hla; simp
  obtain ⟨g1, g2⟩ := invA'.strs i r hlog s hs
  obtain ⟨bs, hbs⟩ := Option.isSome_iff_exists.1 (g2 fun hc => hf (by simp at hc ⊢; grind))
  refine ⟨bs, hbs, ?_⟩
  rcases run_inv msg b _ _ _ invA' lB with e | ⟨rs', hB', k1, k2, k3, k4⟩
  · rw [e] at rB; cases rB
  rw [k1] at rB; cases rB
  rw [k4.strs s g1, hbs]
  intro k r' hfk hk hc
  have : (rsa.map Prod.fst ++ [r] ++ rsb.map Prod.fst)[i]? = some r := by
    rw [List.getElem?_append_left (by simp; omega)]; exact hlog
  have := k3.strsInj _ _ _ _ _ this hk hs hc
  subst this
  exact hf (by simp [hfk])

/-- A document stays until it is freed. -/
theorem document_kept (msg : BuildError → List Char) {ops : List Op} (hL : Legal [] ops) {rs : List (Ret × Heap)} {h' : Heap}
    (hr : run msg [] ops {} = .ok rs h') {i d : Nat} {e : Option Nat} {h1 : Heap}
    (hri : rs[i]? = some (.parsed ⟨some d, e⟩, h1)) (hf : Op.freeDocument i ∉ ops) :
    ∃ root, h1.docs.lookup d = some root ∧ h'.docs.lookup d = some root := by
  have hlt : i < ops.length := by
    rw [← run_length msg _ _ _ _ _ hr]; exact (List.getElem?_eq_some_iff.1 hri).1
  obtain ⟨op, hi⟩ : ∃ op, ops[i]? = some op := ⟨_, List.getElem?_eq_getElem hlt⟩
  obtain ⟨a, b, rfl, ha, rsa, hA, rsb, rfl, hla, invA, alA, exA, invA', lB, rB⟩ := run_two msg hL hr hi hri
  have hlog : (rsa.map Prod.fst ++ [.parsed ⟨some d, e⟩])[i]? = some (.parsed ⟨some d, e⟩) := by subst hla; simp
  obtain ⟨g1, k, e', g2, g3, g4⟩ := invA'.docs i _ hlog d rfl
  have := invA'.docsInj _ _ _ _ _ g3 hlog
  subst this
  obtain ⟨es, sp, hl⟩ := g4 fun hc => hf (by simp at hc ⊢; grind)
  refine ⟨_, hl, ?_⟩
  rcases run_inv msg b _ _ _ invA' lB with e | ⟨rs', hB', k1, k2, k3, k4⟩
  · rw [e] at rB; cases rB
  rw [k1] at rB; cases rB
  rw [k4.docs d g1, hl]
  intro k' e2 hfk hk
  have : (rsa.map Prod.fst ++ [.parsed ⟨some d, e⟩] ++ rsb.map Prod.fst)[k]? = some (.parsed ⟨some d, e⟩) := by
    rw [List.getElem?_append_left (by simp; omega)]; exact hlog
  have := k3.docsInj _ _ _ _ _ this hk
  subst this
  exact hf (by simp [hfk])

end Styx.Ffi
