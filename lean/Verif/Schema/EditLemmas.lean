import Verif.Schema.Suggest
import Verif.Schema.EditSpec

/-!
# The dynamic program computes the edit distance

Alignments are a normal form of edit sequences; `ed` is the textbook recursion.
-/

namespace Styx.Schema

/-- Alignments of two texts with their cost.  Proof device. -/
inductive Align : Nat → List Char → List Char → Prop where
  | nil : Align 0 [] []
  | keep {n a b} (c : Char) : Align n a b → Align n (c :: a) (c :: b)
  | sub {n a b} (c d : Char) : Align n a b → Align (n + 1) (c :: a) (d :: b)
  | ins {n a b} (c : Char) : Align n a b → Align (n + 1) a (c :: b)
  | del {n a b} (c : Char) : Align n a b → Align (n + 1) (c :: a) b

theorem Align.append {m n a b c d} (h : Align m a b) (g : Align n c d) :
    Align (m + n) (a ++ c) (b ++ d) := by
  induction h with
  | nil => simpa using g
  | keep c _ ih => exact .keep c ih
  | sub c d _ ih => have := Align.sub c d ih; simpa [Nat.add_right_comm] using this
  | ins c _ ih => have := Align.ins c ih; simpa [Nat.add_right_comm] using this
  | del c _ ih => have := Align.del c ih; simpa [Nat.add_right_comm] using this

theorem Align.refl : ∀ a, Align 0 a a
  | [] => .nil
  | c :: a => .keep c (Align.refl a)

theorem Align.reverse {n a b} (h : Align n a b) : Align n a.reverse b.reverse := by
  induction h with
  | nil => exact .nil
  | keep c _ ih => simpa using ih.append (Align.refl [c])
  | sub c d _ ih => simpa using ih.append (Align.sub c d .nil)
  | ins c _ ih => simpa using ih.append (Align.ins c .nil)
  | del c _ ih => simpa using ih.append (Align.del c .nil)

theorem Align.ofEdit {a b} (h : Edit a b) : Align 1 a b := by
  cases h with
  | insert l r c => simpa using (Align.refl l).append (.ins c (.refl r))
  | delete l r c => simpa using (Align.refl l).append (.del c (.refl r))
  | replace l r c d => simpa using (Align.refl l).append (.sub c d (.refl r))

theorem Align.trans : ∀ (N m n : Nat) (a b c : List Char), a.length + b.length + c.length ≤ N →
    Align m a b → Align n b c → ∃ k, k ≤ m + n ∧ Align k a c := by
  intro N
  induction N with
  | zero =>
    intro m n a b c hl h g
    have ha : a = [] := List.length_eq_zero_iff.mp (by omega)
    have hc : c = [] := List.length_eq_zero_iff.mp (by omega)
    subst ha hc
    exact ⟨0, by omega, .nil⟩
  | succ N ih =>
    intro m n a b c hl h g
    cases g with
    | nil => exact ⟨m, by omega, h⟩
    | @ins n' _ c' x g' =>
      obtain ⟨k, hk, e⟩ := ih m n' a b c' (by simp at hl; omega) h g'
      exact ⟨k + 1, by omega, .ins x e⟩
    | @keep _ b' c' x g' =>
      cases h with
      | keep _ h' =>
        obtain ⟨k, hk, e⟩ := ih _ _ _ _ _ (by simp at hl; omega) h' g'
        exact ⟨k, hk, .keep _ e⟩
      | sub y _ h' =>
        obtain ⟨k, hk, e⟩ := ih _ _ _ _ _ (by simp at hl; omega) h' g'
        exact ⟨k + 1, by omega, .sub _ _ e⟩
      | ins _ h' =>
        obtain ⟨k, hk, e⟩ := ih _ _ _ _ _ (by simp at hl; omega) h' g'
        exact ⟨k + 1, by omega, .ins _ e⟩
      | del y h' =>
        obtain ⟨k, hk, e⟩ := ih _ _ _ _ _ (by simp at hl ⊢; omega) h' (Align.keep x g')
        exact ⟨k + 1, by omega, .del _ e⟩
    | @sub n' b' c' x z g' =>
      cases h with
      | keep _ h' =>
        obtain ⟨k, hk, e⟩ := ih _ _ _ _ _ (by simp at hl; omega) h' g'
        exact ⟨k + 1, by omega, .sub _ _ e⟩
      | sub y _ h' =>
        obtain ⟨k, hk, e⟩ := ih _ _ _ _ _ (by simp at hl; omega) h' g'
        exact ⟨k + 1, by omega, .sub _ _ e⟩
      | ins _ h' =>
        obtain ⟨k, hk, e⟩ := ih _ _ _ _ _ (by simp at hl; omega) h' g'
        exact ⟨k + 1, by omega, .ins _ e⟩
      | del y h' =>
        obtain ⟨k, hk, e⟩ := ih _ _ _ _ _ (by simp at hl ⊢; omega) h' (Align.sub x z g')
        exact ⟨k + 1, by omega, .del _ e⟩
    | @del n' b' _ x g' =>
      cases h with
      | keep _ h' =>
        obtain ⟨k, hk, e⟩ := ih _ _ _ _ _ (by simp at hl; omega) h' g'
        exact ⟨k + 1, by omega, .del _ e⟩
      | sub y _ h' =>
        obtain ⟨k, hk, e⟩ := ih _ _ _ _ _ (by simp at hl; omega) h' g'
        exact ⟨k + 1, by omega, .del _ e⟩
      | ins _ h' =>
        obtain ⟨k, hk, e⟩ := ih _ _ _ _ _ (by simp at hl; omega) h' g'
        exact ⟨k, by omega, e⟩
      | del y h' =>
        obtain ⟨k, hk, e⟩ := ih _ _ _ _ _ (by simp at hl ⊢; omega) h' (Align.del x g')
        exact ⟨k + 1, by omega, .del _ e⟩

/-- Edit sequences give alignments at most as costly. -/
theorem Align.ofEdits {n a b} (h : Edits n a b) : ∃ k, k ≤ n ∧ Align k a b := by
  induction h with
  | done a => exact ⟨0, Nat.le_refl _, .refl a⟩
  | step e _ ih =>
    obtain ⟨k, hk, al⟩ := ih
    obtain ⟨j, hj, al'⟩ := Align.trans _ _ _ _ _ _ (Nat.le_refl _) (Align.ofEdit e) al
    exact ⟨j, by omega, al'⟩

theorem Edits.trans {m n a b c} (h : Edits m a b) (g : Edits n b c) : Edits (m + n) a c := by
  induction h with
  | done a => simpa using g
  | step e _ ih => have := Edits.step e (ih g); simpa [Nat.add_right_comm] using this

theorem Edits.cons {n a b} (c : Char) (h : Edits n a b) : Edits n (c :: a) (c :: b) := by
  induction h with
  | done a => exact .done _
  | step e _ ih =>
    refine .step ?_ ih
    cases e with
    | insert l r d => exact Edit.insert (c :: l) r d
    | delete l r d => exact Edit.delete (c :: l) r d
    | replace l r d d' => exact Edit.replace (c :: l) r d d'

/-- Alignments give edit sequences of the same cost. -/
theorem Align.edits {n a b} (h : Align n a b) : Edits n a b := by
  induction h with
  | nil => exact .done _
  | keep c _ ih => exact ih.cons c
  | @sub n a b c d _ ih => exact .step (Edit.replace [] a c d) (ih.cons d)
  | @ins n a b c _ ih => exact .step (Edit.insert [] a c) (ih.cons c)
  | @del n a b c _ ih => exact .step (Edit.delete [] a c) ih

/-- The textbook recursion.  Proof device. -/
def ed : List Char → List Char → Nat
  | [], b => b.length
  | a, [] => a.length
  | x :: a, y :: b =>
    min (min (ed a (y :: b) + 1) (ed (x :: a) b + 1)) (ed a b + if x = y then 0 else 1)
termination_by a b => a.length + b.length

theorem ed_nil_left (b : List Char) : ed [] b = b.length := by simp [ed]

theorem ed_nil_right (a : List Char) : ed a [] = a.length := by cases a <;> simp [ed]

theorem ed_cons (x y : Char) (a b : List Char) : ed (x :: a) (y :: b) =
    min (min (ed a (y :: b) + 1) (ed (x :: a) b + 1)) (ed a b + if x = y then 0 else 1) := by
  rw [ed]

theorem align_ins_all : ∀ b, Align b.length [] b
  | [] => .nil
  | c :: b => .ins c (align_ins_all b)

theorem align_del_all : ∀ a, Align a.length a []
  | [] => .nil
  | c :: a => .del c (align_del_all a)

theorem align_ed : ∀ a b, Align (ed a b) a b
  | [], b => by rw [ed_nil_left]; exact align_ins_all b
  | x :: a, [] => by rw [ed_nil_right]; exact align_del_all _
  | x :: a, y :: b => by
    rw [ed_cons]
    have h1 := align_ed a (y :: b)
    have h2 := align_ed (x :: a) b
    have h3 := align_ed a b
    by_cases hx : x = y
    · subst hx
      simp only [if_true, Nat.add_zero]
      rcases Nat.le_total (ed a b) (min (ed a (x :: b) + 1) (ed (x :: a) b + 1)) with h | h
      · rw [Nat.min_eq_right h]; exact .keep x h3
      · rw [Nat.min_eq_left h]
        rcases Nat.le_total (ed a (x :: b) + 1) (ed (x :: a) b + 1) with g | g
        · rw [Nat.min_eq_left g]; exact .del x h1
        · rw [Nat.min_eq_right g]; exact .ins x h2
    · simp only [hx, if_false]
      rcases Nat.le_total (ed a b + 1) (min (ed a (y :: b) + 1) (ed (x :: a) b + 1)) with h | h
      · rw [Nat.min_eq_right h]; exact .sub x y h3
      · rw [Nat.min_eq_left h]
        rcases Nat.le_total (ed a (y :: b) + 1) (ed (x :: a) b + 1) with g | g
        · rw [Nat.min_eq_left g]; exact .del x h1
        · rw [Nat.min_eq_right g]; exact .ins y h2
termination_by a b => a.length + b.length

theorem ed_le {n a b} (h : Align n a b) : ed a b ≤ n := by
  induction h with
  | nil => simp [ed]
  | keep c _ ih => rw [ed_cons]; simp only [if_true]; omega
  | sub c d _ ih => rw [ed_cons]; split <;> omega
  | @ins n a b c _ ih =>
    cases a with
    | nil => simp only [ed_nil_left, List.length_cons] at ih ⊢; omega
    | cons x a => rw [ed_cons]; omega
  | @del n a b c _ ih =>
    cases b with
    | nil => simp only [ed_nil_right, List.length_cons] at ih ⊢; omega
    | cons x b => rw [ed_cons]; omega

theorem ed_distance (a b : List Char) : EditDistance a b (ed a b) :=
  ⟨(align_ed a b).edits, fun m h => by
    obtain ⟨k, hk, al⟩ := Align.ofEdits h
    exact Nat.le_trans (ed_le al) hk⟩

theorem ed_reverse (a b : List Char) : ed a.reverse b.reverse = ed a b := by
  apply Nat.le_antisymm
  · exact ed_le (align_ed a b).reverse
  · have := ed_le (align_ed a.reverse b.reverse).reverse
    simpa using this

theorem levInner_row (ac : Char) (ra b : List Char) (prev : List Nat)
    (hp : ∀ k, k ≤ b.length → prev.getD k 0 = ed ra (b.take k).reverse) :
    ∀ (bs : List Char) (j : Nat) (curr : List Nat), j + bs.length = b.length → b.drop j = bs →
      curr.length = b.length + 1 →
      (∀ k, k ≤ j → curr.getD k 0 = ed (ac :: ra) (b.take k).reverse) →
      (levInner ac prev bs j curr).length = b.length + 1 ∧
      ∀ k, k ≤ b.length → (levInner ac prev bs j curr).getD k 0 = ed (ac :: ra) (b.take k).reverse := by
  intro bs
  induction bs with
  | nil =>
    intro j curr hj _ hl hc
    simp only [List.length_nil, Nat.add_zero] at hj
    subst hj
    exact ⟨hl, hc⟩
  | cons bc bs ih =>
    intro j curr hj hd hl hc
    simp only [List.length_cons] at hj
    rw [levInner]
    have hd' : b.drop (j + 1) = bs := by
      rw [← List.tail_drop, hd]; rfl
    have hget : b[j]? = some bc := by
      have := congrArg List.head? hd
      simpa [List.head?_drop] using this
    have htake : (b.take (j + 1)).reverse = bc :: (b.take j).reverse := by
      rw [List.take_add_one, hget]; simp
    refine ih (j + 1) _ (by omega) hd' (by simpa using hl) ?_
    intro k hk
    rcases Nat.lt_or_ge k (j + 1) with h | h
    · rw [List.getD_eq_getElem?_getD, List.getElem?_set_ne (by omega), ← List.getD_eq_getElem?_getD]
      exact hc k (by omega)
    · have hk' : k = j + 1 := by omega
      subst hk'
      rw [List.getD_eq_getElem?_getD, List.getElem?_set_self (by omega), Option.getD_some, htake,
        ed_cons, ← htake, hp (j + 1) (by omega), hp j (by omega), hc j (Nat.le_refl _)]

theorem levOuter_row (b : List Char) : ∀ (as : List Char) (i : Nat) (ra : List Char)
    (prev curr : List Nat), ra.length = i → prev.length = b.length + 1 →
    curr.length = b.length + 1 →
    (∀ k, k ≤ b.length → prev.getD k 0 = ed ra (b.take k).reverse) →
    ∀ k, k ≤ b.length →
      (levOuter b as i prev curr).getD k 0 = ed (as.reverse ++ ra) (b.take k).reverse := by
  intro as
  induction as with
  | nil => intro i ra prev curr _ _ _ hp; simpa [levOuter] using hp
  | cons ac as ih =>
    intro i ra prev curr hi hpl hcl hp k hk
    rw [levOuter]
    have hrow := levInner_row ac ra b prev hp b 0 (curr.set 0 (i + 1)) (by omega) (by simp)
      (by simpa using hcl) (by
        intro k hk
        have : k = 0 := by omega
        subst this
        rw [List.getD_eq_getElem?_getD, List.getElem?_set_self (by omega)]
        simp [ed_nil_right, hi])
    have := ih (i + 1) (ac :: ra) _ prev (by simp [hi]) hrow.1 hpl hrow.2 k hk
    simpa using this

theorem levenshtein_eq (a b : List Char) : levenshtein a b = ed a b := by
  rw [levenshtein]
  split
  · next h =>
    have : a = [] := List.length_eq_zero_iff.mp h
    subst this; rw [ed_nil_left]
  · split
    · next h =>
      have : b = [] := List.length_eq_zero_iff.mp h
      subst this; rw [ed_nil_right]
    · have := levOuter_row b a 0 [] (List.range (b.length + 1)) (List.replicate (b.length + 1) 0) rfl
        (by simp) (by simp) (by
          intro k hk
          rw [List.getD_eq_getElem?_getD, List.getElem?_range (by omega), ed_nil_left]
          simp; omega) b.length (Nat.le_refl _)
      rw [this]
      simp only [List.append_nil, List.take_length]
      exact ed_reverse a b

theorem levenshtein_distance (a b : List Char) : EditDistance a b (levenshtein a b) := by
  rw [levenshtein_eq]; exact ed_distance a b

theorem minByDist_none : ∀ {l}, minByDist l = none → l = []
  | [], _ => rfl
  | x :: xs, h => by
    rw [minByDist] at h
    split at h
    · simp at h
    · split at h <;> simp at h

/-- `minByDist` returns an element, no farther than any other, and strictly nearer than the earlier
ones. -/
theorem minByDist_some : ∀ {l x}, minByDist l = some x →
    ∃ before after, l = before ++ x :: after ∧ (∀ y ∈ before, x.2 < y.2) ∧ ∀ y ∈ after, x.2 ≤ y.2
  | [], x, h => by simp [minByDist] at h
  | y :: ys, x, h => by
    rw [minByDist] at h
    split at h
    · next hn =>
      obtain rfl := Option.some.inj h
      exact ⟨[], ys, rfl, by simp, by rw [minByDist_none hn]; simp⟩
    · next z hz =>
      obtain ⟨b, a, e, h1, h2⟩ := minByDist_some hz
      split at h
      · next hlt =>
        obtain rfl := Option.some.inj h
        refine ⟨y :: b, a, by simp [e], ?_, h2⟩
        intro w hw
        rcases List.mem_cons.mp hw with rfl | hw
        · exact hlt
        · exact h1 w hw
      · next hlt =>
        obtain rfl := Option.some.inj h
        refine ⟨[], ys, rfl, by simp, ?_⟩
        intro w hw
        rw [e] at hw
        rcases List.mem_append.mp hw with hw | hw
        · have := h1 w hw; omega
        · rcases List.mem_cons.mp hw with rfl | hw
          · omega
          · have := h2 w hw; omega

end Styx.Schema
