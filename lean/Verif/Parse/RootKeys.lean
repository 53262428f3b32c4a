import Verif.Parse.DupLemmas

/-! # Keys of the implicit root object -/

namespace Styx

open Spec

theorem noError_onlyDup {evs : List Event} (h : NoError evs) : OnlyDup evs :=
  fun e he => ⟨(h e he).2, fun k hk => absurd hk ((h e he).1 k)⟩

/-- The string the path tracker uses for a key. -/
def keyStr (a : Atom) : List Char := (KeyValue.fromAtom a).toKeyString

theorem check_single {path path' : PathState} {k : List Char} {sp : Span} {kind : PathValueKind}
    (hp : path = [] ∨ ∃ seg, path = [seg]) (h : path.checkAndUpdate [k] sp kind = (path', none)) :
    (∃ seg, path' = [seg] ∧ seg.key = k) ∧ ∀ seg ∈ path, seg.key ≠ k := by
  rcases hp with rfl | ⟨seg, rfl⟩
  · simp [PathState.checkAndUpdate, commonLen, truncateTo, pushSegments, setLastKind] at h
    subst h
    exact ⟨⟨_, rfl, rfl⟩, by simp⟩
  · by_cases hk : seg.key = k
    · simp [PathState.checkAndUpdate, commonLen, hk] at h
    · simp [PathState.checkAndUpdate, commonLen, hk, truncateTo, pushSegments, setLastKind] at h
      subst h
      exact ⟨⟨_, rfl, rfl⟩, by simpa using hk⟩

theorem emitEntryAtRoot_simple {s : List Char} {key : Atom} {rest : List Atom} {path : PathState}
    (h : NoError (emitEntryAtRoot s key rest path).1)
    (hd : ∀ sp v, key = .scalar sp v .bare → '.' ∉ v) :
    (emitEntryAtRoot s key rest path).1 = emitSimpleEntry key rest ∧
    ∃ sp kind, path.checkAndUpdate [keyStr key] sp kind = ((emitEntryAtRoot s key rest path).2, none) := by
  have gen : ∀ (pre : List Event) (sp : Span) (r : PathState × Option PathError),
      (pre = [] ∨ ∃ e es, pre = e :: es ∧ (e.kind = .panic ∨ ∃ k, e.kind = .error k)) →
      NoError (pre ++ pathErrEvents sp r.2 ++ emitSimpleEntry key rest) →
      pre ++ pathErrEvents sp r.2 ++ emitSimpleEntry key rest = emitSimpleEntry key rest ∧ r.2 = none := by
    intro pre sp r hp hn
    have h1 : pre = [] := by
      rcases hp with hp | ⟨e, es, rfl, he⟩
      · exact hp
      · exfalso
        have := hn e (by simp)
        rcases he with he | ⟨k, he⟩
        · exact this.2 he
        · exact this.1 k he
    subst h1
    have h2 : r.2 = none := by
      cases hr : r.2 with
      | none => rfl
      | some e =>
        exfalso
        rw [hr] at hn
        cases e <;> exact noErr_err hn
    rw [h2]
    exact ⟨rfl, rfl⟩
  have main : ∀ (pre : List Event) (sp : Span),
      (pre = [] ∨ ∃ e es, pre = e :: es ∧ (e.kind = .panic ∨ ∃ k, e.kind = .error k)) →
      emitEntryAtRoot s key rest path =
        (let (path', e) := path.checkAndUpdate [keyStr key] sp (pathValueKind rest)
         (pre ++ pathErrEvents sp e ++ emitSimpleEntry key rest, path')) →
      (emitEntryAtRoot s key rest path).1 = emitSimpleEntry key rest ∧
      ∃ sp kind, path.checkAndUpdate [keyStr key] sp kind = ((emitEntryAtRoot s key rest path).2, none) := by
    intro pre sp hp he
    rw [he] at h ⊢
    generalize hr : path.checkAndUpdate [keyStr key] sp (pathValueKind rest) = r at *
    obtain ⟨p', e⟩ := r
    obtain ⟨g1, g2⟩ := gen pre sp (p', e) hp h
    simp only at g2
    subst g2
    exact ⟨g1, sp, _, hr⟩
  cases key with
  | scalar sp v k =>
    cases k with
    | bare =>
      refine main [] sp (Or.inl rfl) ?_
      unfold emitEntryAtRoot
      simp only
      rw [if_neg (hd sp v rfl)]
      rfl
    | heredoc =>
      refine main (match heredocStartSpan s sp with
        | some sp' => [errEv sp' .invalidKey]
        | none => [⟨sp, .panic⟩]) sp ?_ rfl
      split
      · exact Or.inr ⟨_, _, rfl, Or.inr ⟨_, rfl⟩⟩
      · exact Or.inr ⟨_, _, rfl, Or.inl rfl⟩
    | quoted => exact main [] sp (Or.inl rfl) rfl
    | raw => exact main [] sp (Or.inl rfl) rfl
  | _ => exact main [] _ (Or.inl rfl) rfl

/-- Neighbours differ. -/
def Consec : List (List Char) → Prop
  | a :: b :: l => a ≠ b ∧ Consec (b :: l)
  | _ => True

theorem Consec.infix {l a b : List (List Char)} {x y : List Char} (h : Consec l) (he : a ++ x :: y :: b = l) : x ≠ y := by
  induction a generalizing l with
  | nil => subst he; exact h.1
  | cons z a ih =>
    cases l with
    | nil => cases he
    | cons w l =>
      cases l with
      | nil => simp at he
      | cons v l => 
        simp only [List.cons_append, List.cons.injEq] at he
        exact ih h.2 he.2

/-- What holds of the events from a state of the implicit root. -/
def ChainOK (path : PathState) (d : Nat) (evs : List Event) : Prop :=
  (path = [] ∨ ∃ seg, path = [seg]) →
  (∀ e, e ∈ atDepth 0 d evs ∨ e ∈ atDepth 1 d evs → e.kind = .objectStart → e.span = ⟨0, 0⟩) →
  ∃ ks : List Atom, (atDepth 2 d evs).filter isKey = ks.map keyEvent ∧ (∀ k ∈ ks, GoodKey k) ∧
    Consec (path.map (·.key) ++ ks.map keyStr)

theorem ChainOK.skip {path : PathState} {d : Nat} {a b : List Event} (ha : Balanced a)
    (hk : (atDepth 2 d a).filter isKey = []) (h : ChainOK path d b) : ChainOK path d (a ++ b) := by
  intro hp hi
  obtain ⟨ks, h1, h2, h3⟩ := h hp fun e he => hi e (by
    rw [ha.atDepth_append, ha.atDepth_append]
    rcases he with he | he
    · exact Or.inl (by simp [he])
    · exact Or.inr (by simp [he]))
  exact ⟨ks, by rw [ha.atDepth_append, List.filter_append, hk, h1]; rfl, h2, h3⟩

theorem ChainOK.implicit {path : PathState} {started : Bool} {b : List Event} (h : ChainOK path 1 b) :
    ChainOK path (if started then 1 else 0) (implicitStart started ++ b) := by
  cases started with
  | true => exact h
  | false =>
    intro hp hi
    have hi : ∀ e, e ∈ atDepth 0 0 (⟨⟨0, 0⟩, .objectStart⟩ :: b) ∨ e ∈ atDepth 1 0 (⟨⟨0, 0⟩, .objectStart⟩ :: b) →
      e.kind = .objectStart → e.span = ⟨0, 0⟩ := hi
    show ∃ ks : List Atom, (atDepth 2 0 (⟨⟨0, 0⟩, .objectStart⟩ :: b)).filter isKey = _ ∧ _
    obtain ⟨ks, h1, h2, h3⟩ := h hp fun e he => hi e (by
      simp only [atDepth, depthStep]
      rcases he with he | he
      · exact Or.inl (by simp [he])
      · exact Or.inr (by simp [he]))
    exact ⟨ks, by simpa [atDepth, depthStep] using h1, h2, h3⟩

/-- Shifting the depth. -/
theorem nest_shift (n k : Nat) (a : List Event) : ∀ {st st' : List Opened}, nest st a = some st' →
    atDepth (n + k) (st.length + k) a = atDepth n st.length a := by
  induction a with
  | nil => intro st st' h; rfl
  | cons e es ih =>
    intro st st' h
    rw [nest] at h
    cases hs : nestStep st e.kind with
    | none => rw [hs] at h; cases h
    | some st1 =>
      rw [hs] at h
      have hd : ∀ k, depthStep (st.length + k) e.kind = st1.length + k := by
        intro k
        have hclose : ∀ o, Spec.close o st = some st1 → st.length + k - 1 = st1.length + k := by
          intro o ho
          cases st with
          | nil => cases ho
          | cons x xs =>
            rw [Spec.close] at ho
            split at ho
            · cases ho; simp only [List.length_cons]; omega
            · cases ho
        revert hs
        cases e.kind <;> simp only [nestStep, depthStep, Option.some.injEq] <;> intro hs
        all_goals first
          | exact hclose _ hs
          | (subst hs; simp only [List.length_cons]; omega)
          | (subst hs; rfl)
      have hd0 := hd 0
      simp only [Nat.add_zero] at hd0
      rw [atDepth, atDepth, hd k, hd0, ih h]
      simp

theorem Balanced.shift {a : List Event} (h : Balanced a) (n d : Nat) : atDepth (n + d) d a = atDepth n 0 a := by
  have := nest_shift n d a (h [])
  simpa using this

theorem quiet_noKey {evs : List Event} (h : Quiet evs) (n d : Nat) : (atDepth n d evs).filter isKey = [] := by
  have : ∀ e, e ∈ atDepth n d evs → e ∈ evs := by
    induction evs generalizing d with
    | nil => simp [atDepth]
    | cons a b ih =>
      intro e he
      rw [atDepth] at he
      rcases List.mem_append.1 he with he | he
      · split at he
        · simp at he; simp [he]
        · cases he
      · exact List.mem_cons_of_mem _ (ih (fun x hx => h x (by simp [hx])) _ e he)
  rw [List.filter_eq_nil_iff]
  intro e he
  have := h e (this e he)
  obtain ⟨sp, k⟩ := e
  revert this
  cases k <;> simp [quietKind, isKey]

/-- Events that are neither keys nor starts. -/
theorem plain_noKey {evs : List Event} (h : ∀ e ∈ evs, isKey e = false) (n d : Nat) :
    (atDepth n d evs).filter isKey = [] := by
  have : ∀ e, e ∈ atDepth n d evs → e ∈ evs := by
    clear h
    induction evs generalizing d with
    | nil => simp [atDepth]
    | cons a b ih =>
      intro e he
      rw [atDepth] at he
      rcases List.mem_append.1 he with he | he
      · split at he
        · simp at he; simp [he]
        · cases he
      · exact List.mem_cons_of_mem _ (ih _ e he)
  rw [List.filter_eq_nil_iff]
  intro e he
  simp [h e (this e he)]

/-- `ChainOK` for the parser states at the root. -/
def RootOK (st : PState) (evs : List Event) : Prop :=
  match st with
  | .beforeDocument => ChainOK [] 0 evs
  | .documentRoot _ path started => ChainOK path (if started then 1 else 0) evs
  | _ => True

theorem run_chain {s : List Char} (hn : ProperUni s) (hdot : '.' ∉ s) {st : PState} {ls : List Lexeme} {evs : List Event}
    (h : RunR s st ls evs) : ∀ p, Chain s p ls → NoError evs →
    RootOK st evs := by
  induction h with
  | start _ ih =>
    intro p hc ho
    exact ChainOK.skip (a := [_]) (balanced_one rfl) rfl (ih p hc ho.tail)
  | rootEof =>
    rename_i doc path started
    intro p hc ho hp hi
    refine ⟨[], ?_, by simp, ?_⟩
    · refine plain_noKey ?_ _ _
      intro e he
      simp only [List.mem_append, List.mem_singleton] at he
      rcases he with (he | he) | rfl
      · cases doc with
        | none => cases he
        | some sp => simp [danglingEv, errEv] at he; subst he; rfl
      · cases started
        · cases he
        · simp at he; subst he; rfl
      · rfl
    · rcases hp with rfl | ⟨seg, rfl⟩ <;> trivial
  | rootSkip _ _ ih => intro p hc ho; exact ih _ hc.2.2.2.1 ho
  | rootComment _ ih =>
    intro p hc ho
    exact ChainOK.skip (a := [_]) (balanced_one rfl) (plain_noKey (by simp [isKey]) _ _) (ih _ hc.2.2.2.1 ho.tail)
  | rootDoc _ ih =>
    intro p hc ho
    exact ChainOK.implicit (ChainOK.skip (a := [_]) (balanced_one rfl) (plain_noKey (by simp [isKey]) _ _)
      (ih _ hc.2.2.2.1 ho.right.tail))
  | rootBrace hr ih =>
    rename_i doc path started sp ls more
    intro p hc ho hp hi
    exfalso
    have htext : HasText s sp ['{'] := hc.2.1
    have hsp : sp = ⟨0, 0⟩ := by
      refine hi ⟨sp, .objectStart⟩ ?_ rfl
      cases started
      · left; simp [atDepth]
      · right; simp [atDepth]
    obtain ⟨a, b, -, h2, h3⟩ := htext
    subst hsp
    have e : '{'.utf8Size = 1 := rfl
    simp [e] at h2 h3
  | rootEntry _ hcol _ ih =>
    intro p hc ho
    rename_i doc path started l ls key rest evs ls' more _ _
    obtain ⟨g1, g2, g3, q, g4⟩ := collectGood hcol hc
    have hq := collect_quiet hcol
    rw [List.append_assoc, List.append_assoc]
    have hoe := ho.left.right
    have hvd : ∀ sp v, key = .scalar sp v .bare → '.' ∉ v := by
      rintro sp v rfl hv
      have := (g1.2.1 rfl).isInfix
      exact hdot (this.subset hv)
    obtain ⟨e1, sp, kind, e2⟩ := emitEntryAtRoot_simple hoe hvd
    refine ChainOK.implicit (ChainOK.skip (quiet_balanced hq) (quiet_noKey hq _ _) ?_)
    intro hp hi
    obtain ⟨⟨seg, s1, s2⟩, s3⟩ := check_single hp e2
    have hbal : Balanced (emitEntryAtRoot s key rest path).1 := emitEntryAtRoot_balanced _ _ _ _
    obtain ⟨ks, k1, k2, k3⟩ := ih _ g4 ho.right (Or.inr ⟨seg, s1⟩) (fun e he => hi e (by
      rw [hbal.atDepth_append, hbal.atDepth_append]
      rcases he with he | he
      · exact Or.inl (by simp; exact Or.inr he)
      · exact Or.inr (by simp; exact Or.inr he)))
    have hkey : GoodKey key := by
      have : OnlyDup (emitKey key) := by
        have h1 : NoError (emitSimpleEntry key rest) := by rw [← e1]; exact hoe
        unfold emitSimpleEntry at h1
        simp only [List.cons_append] at h1
        exact noError_onlyDup h1.tail.left.left.left
      exact emitKey_of hn g1 this
    refine ⟨key :: ks, ?_, ?_, ?_⟩
    · rw [hbal.atDepth_append, List.filter_append]
      have h1 : atDepth 2 1 (emitEntryAtRoot s key rest path).1 = atDepth 1 0 (emitEntryAtRoot s key rest path).1 :=
        hbal.shift 1 1
      have h2 := (simpleEntry_own hkey rest).1
      rw [← e1] at h2
      unfold ownKeys at h2
      rw [h1, h2]
      simp only [List.map_cons, List.singleton_append, List.cons.injEq, true_and]
      exact k1
    · intro k hk
      rcases List.mem_cons.1 hk with rfl | hk
      · exact hkey
      · exact k2 k hk
    · rw [s1] at k3
      simp only [List.map_cons, List.map_nil, List.singleton_append, s2] at k3 ⊢
      rcases hp with rfl | ⟨seg0, rfl⟩
      · exact k3
      · exact ⟨s3 seg0 (by simp), k3⟩
  | _ => intros; trivial

end Styx
