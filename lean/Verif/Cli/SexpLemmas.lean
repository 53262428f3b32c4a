import Verif.Cli.Sexp
import Verif.Cli.SexpSpec
import Verif.Tree.SpanRun

/-!
# Lemmas: S-expressions can be read back
-/

namespace Styx.Cli

open Styx Styx.Spec

theorem digitChar_inj {m n : Nat} (hm : m < 16) (hn : n < 16) (h : Nat.digitChar m = Nat.digitChar n) : m = n := by
  have key : ∀ m n : Fin 16, Nat.digitChar m = Nat.digitChar n → m = n := by decide
  exact congrArg Fin.val (key ⟨m, hm⟩ ⟨n, hn⟩ h)

theorem toDigits_inj {b : Nat} (h1 : 1 < b) (h2 : b ≤ 16) : ∀ {m n : Nat}, Nat.toDigits b m = Nat.toDigits b n → m = n := by
  intro m
  induction m using Nat.strongRecOn with
  | _ m ih =>
    intro n h
    by_cases hm : m < b <;> by_cases hn : n < b
    · rw [Nat.toDigits_of_lt_base hm, Nat.toDigits_of_lt_base hn] at h
      exact digitChar_inj (by omega) (by omega) (List.cons.inj h).1
    · rw [Nat.toDigits_of_lt_base hm, Nat.toDigits_of_base_le (n := n) h1 (by omega)] at h
      have := congrArg List.length h
      simp [Nat.toDigits_ne_nil] at this
    · rw [Nat.toDigits_of_lt_base hn, Nat.toDigits_of_base_le (n := m) h1 (by omega)] at h
      have := congrArg List.length h
      simp [Nat.toDigits_ne_nil] at this
    · rw [Nat.toDigits_of_base_le (n := m) h1 (by omega), Nat.toDigits_of_base_le (n := n) h1 (by omega)] at h
      obtain ⟨h3, h4⟩ := List.append_inj' h rfl
      have h5 := ih (m / b) (Nat.div_lt_self (by omega) h1) h3
      have h6 := digitChar_inj (Nat.lt_of_lt_of_le (Nat.mod_lt _ (by omega)) h2)
        (Nat.lt_of_lt_of_le (Nat.mod_lt _ (by omega)) h2) (List.cons.inj h4).1
      rw [← Nat.div_add_mod m b, ← Nat.div_add_mod n b, h5, h6]

theorem toDigits_mem {b : Nat} (h1 : 1 < b) (h2 : b ≤ 16) : ∀ {n : Nat}, ∀ c ∈ Nat.toDigits b n,
    c ∈ (chars! "0123456789abcdef") := by
  have key : ∀ n : Fin 16, Nat.digitChar n ∈ (chars! "0123456789abcdef") := by decide
  intro n
  induction n using Nat.strongRecOn with
  | _ n ih =>
    intro c hc
    by_cases hn : n < b
    · rw [Nat.toDigits_of_lt_base hn, List.mem_singleton] at hc
      rw [hc]; exact key ⟨n, by omega⟩
    · rw [Nat.toDigits_of_base_le h1 (by omega), List.mem_append, List.mem_singleton] at hc
      rcases hc with hc | rfl
      · exact ih _ (Nat.div_lt_self (by omega) h1) c hc
      · exact key ⟨n % b, Nat.lt_of_lt_of_le (Nat.mod_lt _ (by omega)) h2⟩

/-- Two texts end at the same place if a character that is in neither follows. -/
theorem split_unique {e : Char} : ∀ {a b r s : List Char}, e ∉ a → e ∉ b → a ++ e :: r = b ++ e :: s → a = b ∧ r = s
  | [], [], _, _, _, _, h => ⟨rfl, (List.cons.inj h).2⟩
  | [], y :: b, _, _, _, hb, h => absurd ((List.cons.inj h).1 ▸ List.mem_cons_self ..) hb
  | x :: a, [], _, _, ha, _, h => absurd ((List.cons.inj h).1 ▸ List.mem_cons_self ..) ha
  | x :: a, y :: b, r, s, ha, hb, h => by
    obtain ⟨h1, h2⟩ := List.cons.inj h
    obtain ⟨h3, h4⟩ := split_unique (fun h => ha (List.mem_cons_of_mem _ h)) (fun h => hb (List.mem_cons_of_mem _ h)) h2
    exact ⟨by rw [h1, h3], h4⟩

theorem digits_pre {b : Nat} (h1 : 1 < b) (h2 : b ≤ 16) {e : Char} (he : e ∉ (chars! "0123456789abcdef"))
    {m n : Nat} {r s : List Char} (h : Nat.toDigits b m ++ e :: r = Nat.toDigits b n ++ e :: s) : m = n ∧ r = s := by
  obtain ⟨h3, h4⟩ := split_unique (fun h => he (toDigits_mem h1 h2 _ h)) (fun h => he (toDigits_mem h1 h2 _ h)) h
  exact ⟨toDigits_inj h1 h2 h3, h4⟩

theorem spanText_pre {a b : Option Span} {r s : List Char} (h : spanText a ++ r = spanText b ++ s) : a = b ∧ r = s := by
  have head : ∀ {n : Nat} {r s : List Char}, Nat.toDigits 10 n ++ r ≠ '-' :: s := by
    intro n r s h
    cases hd : Nat.toDigits 10 n with
    | nil => exact absurd hd Nat.toDigits_ne_nil
    | cons c cs =>
      rw [hd] at h
      have := Nat.isDigit_of_mem_toDigits (b := 10) (n := n) (c := c) (by omega) (by omega) (by rw [hd]; simp)
      rw [(List.cons.inj h).1] at this
      revert this; decide
  cases a with
  | none =>
    cases b with
    | none => exact ⟨rfl, by simpa [spanText] using h⟩
    | some b =>
      simp only [spanText, List.cons_append, List.nil_append, List.append_assoc, List.cons.injEq, true_and] at h
      exact absurd h.symm head
  | some a =>
    cases b with
    | none =>
      simp only [spanText, List.cons_append, List.nil_append, List.append_assoc, List.cons.injEq, true_and] at h
      exact absurd h head
    | some b =>
      simp only [spanText, List.cons_append, List.nil_append, List.append_assoc, List.cons.injEq, true_and] at h
      obtain ⟨h1, h2⟩ := digits_pre (by omega) (by omega) (by decide) h
      obtain ⟨h3, h4⟩ := digits_pre (by omega) (by omega) (by decide) (List.cons.inj h2).2
      obtain ⟨x, y⟩ := a
      obtain ⟨z, w⟩ := b
      simp only at h1 h3
      subst h1 h3
      exact ⟨rfl, h4⟩

/-! ## Strings -/

theorem debugChar_shape (pr : Char → Bool) (c : Char) :
    (∃ e, debugChar pr c = ['\\', e] ∧ e ≠ 'u' ∧
      (c = '\x00' ∧ e = '0' ∨ c = '\t' ∧ e = 't' ∨ c = '\r' ∧ e = 'r' ∨ c = '\n' ∧ e = 'n' ∨ c = '"' ∧ e = '"' ∨
        c = '\\' ∧ e = '\\')) ∨
    (debugChar pr c = [c] ∧ c ≠ '\\' ∧ c ≠ '"') ∨
    debugChar pr c = '\\' :: 'u' :: '{' :: (Nat.toDigits 16 c.toNat ++ ['}']) := by
  unfold debugChar
  repeat' split
  all_goals simp_all

theorem debugChar_pre {pr : Char → Bool} {c d : Char} {r s : List Char}
    (h : debugChar pr c ++ r = debugChar pr d ++ s) : c = d ∧ r = s := by
  rcases debugChar_shape pr c with ⟨e, h1, h2, h3⟩ | ⟨h1, h2, h3⟩ | h1 <;>
    rcases debugChar_shape pr d with ⟨e', k1, k2, k3⟩ | ⟨k1, k2, k3⟩ | k1 <;> rw [h1, k1] at h <;>
    simp only [List.cons_append, List.nil_append, List.cons.injEq, true_and] at h
  · obtain ⟨rfl, h⟩ := h
    refine ⟨?_, h⟩
    grind
  · exact absurd h.1.symm k2
  · exact absurd h.1 h2
  · exact absurd h.1 h2
  · exact h
  · exact absurd h.1 h2
  · exact absurd h.1.symm k2
  · exact absurd h.1.symm k2
  · rw [List.append_assoc, List.append_assoc] at h
    obtain ⟨h4, h5⟩ := digits_pre (by omega) (by omega) (by decide) h
    exact ⟨Char.toNat_inj.1 h4, h5⟩

theorem debugChar_quote {pr : Char → Bool} {c : Char} {r s : List Char} : debugChar pr c ++ r ≠ '"' :: s := by
  intro h
  rcases debugChar_shape pr c with ⟨e, h1, h2, h3⟩ | ⟨h1, h2, h3⟩ | h1 <;> rw [h1] at h
  · exact absurd (List.cons.inj h).1 (by decide)
  · exact h3 (List.cons.inj h).1
  · exact absurd (List.cons.inj h).1 (by decide)

theorem debugChars_pre {pr : Char → Bool} : ∀ {a b r s : List Char},
    a.flatMap (debugChar pr) ++ '"' :: r = b.flatMap (debugChar pr) ++ '"' :: s → a = b ∧ r = s
  | [], [], _, _, h => ⟨rfl, (List.cons.inj h).2⟩
  | [], y :: b, _, _, h => by
    rw [List.flatMap_cons, List.append_assoc] at h
    exact absurd h.symm debugChar_quote
  | x :: a, [], _, _, h => by
    rw [List.flatMap_cons, List.append_assoc] at h
    exact absurd h debugChar_quote
  | x :: a, y :: b, r, s, h => by
    rw [List.flatMap_cons, List.flatMap_cons, List.append_assoc, List.append_assoc] at h
    obtain ⟨h1, h2⟩ := debugChar_pre h
    obtain ⟨h3, h4⟩ := debugChars_pre h2
    exact ⟨by rw [h1, h3], h4⟩

theorem debugStr_pre {pr : Char → Bool} {a b r s : List Char} (h : debugStr pr a ++ r = debugStr pr b ++ s) :
    a = b ∧ r = s := by
  simp only [debugStr, List.cons_append, List.append_assoc, List.cons.injEq, true_and, List.nil_append] at h
  exact debugChars_pre h

theorem kindName_pre {a b : ScalarKind} {r s : List Char} (h : kindName a ++ ' ' :: r = kindName b ++ ' ' :: s) :
    a = b ∧ r = s := by
  cases a <;> cases b <;> simp [kindName] at h ⊢ <;> exact h

/-! ## Values -/

/-- Every value that is not tagged is where its payload is. -/
def Placed (v : Value) : Prop :=
  ∀ x, Node x v → x.tag = none → ∀ p, x.payload = some p → payloadSpan p = x.span

theorem Placed.child {x v : Value} (h : Placed v) (hc : Child x v) : Placed x :=
  fun y hy => h y (.inside hc hy)

theorem sexpPayload_head (pr : Char → Bool) (ind : Nat) (sp : Option Span) (p : Payload) :
    ∃ c t, sexpPayload pr ind sp p = sexpPad ind ++ '(' :: c :: t ∧ (c = 's' ∨ c = 'o') := by
  match p with
  | .scalar .. => exact ⟨'s', _, by simp only [sexpPayload, List.append_assoc, List.cons_append, List.nil_append]; rfl, .inl rfl⟩
  | .sequence .. => exact ⟨'s', _, by simp only [sexpPayload, List.append_assoc, List.cons_append, List.nil_append]; rfl, .inl rfl⟩
  | .object [] _ => exact ⟨'o', _, by simp only [sexpPayload, List.append_assoc, List.cons_append, List.nil_append]; rfl, .inr rfl⟩
  | .object (_ :: _) _ => exact ⟨'o', _, by simp only [sexpPayload, List.append_assoc, List.cons_append, List.nil_append]; rfl, .inr rfl⟩

theorem sexpPad_succ (n : Nat) : sexpPad (n + 1) = sexpPad n ++ [' ', ' '] := by
  induction n with
  | zero => rfl
  | succ n ih => exact congrArg (fun l => ' ' :: ' ' :: l) ih

mutual
theorem sexpValue_pre (pr : Char → Bool) (ind : Nat) : ∀ (v w : Value) (r s : List Char), Placed v → Placed w →
    sexpValue pr ind v ++ r = sexpValue pr ind w ++ s → plainValue v = plainValue w ∧ r = s
  | .mk none none a, w, r, s, hv, hw, h => by
    match w with
    | .mk none none b =>
      simp only [sexpValue, List.append_assoc, List.append_right_inj, List.cons_append, List.nil_append, List.cons.injEq,
        true_and] at h
      obtain ⟨rfl, h1⟩ := spanText_pre h
      exact ⟨rfl, (List.cons.inj h1).2⟩
    | .mk (some t) none b => simp [sexpValue] at h
    | .mk (some t) (some q) b => simp [sexpValue] at h
    | .mk none (some q) b =>
      obtain ⟨c, t, h1, h2⟩ := sexpPayload_head pr ind b q
      simp only [sexpValue, h1] at h
      rcases h2 with rfl | rfl <;> simp at h
  | .mk (some t) none a, w, r, s, hv, hw, h => by
    match w with
    | .mk none none b => simp [sexpValue] at h
    | .mk (some t') none b =>
      simp only [sexpValue, List.append_assoc, List.append_right_inj, List.cons_append, List.nil_append, List.cons.injEq,
        true_and] at h
      obtain ⟨rfl, h1⟩ := spanText_pre h
      obtain ⟨h2, h3⟩ := debugStr_pre (List.cons.inj h1).2
      exact ⟨by simp [plainValue, h2], (List.cons.inj h3).2⟩
    | .mk (some t') (some q) b =>
      simp only [sexpValue, List.append_assoc, List.append_right_inj, List.cons_append, List.nil_append, List.cons.injEq,
        true_and] at h
      obtain ⟨rfl, h1⟩ := spanText_pre h
      obtain ⟨h2, h3⟩ := debugStr_pre (List.cons.inj h1).2
      exact absurd (List.cons.inj h3).1 (by decide)
    | .mk none (some q) b =>
      obtain ⟨c, t, h1, h2⟩ := sexpPayload_head pr ind b q
      simp only [sexpValue, h1] at h
      rcases h2 with rfl | rfl <;> simp at h
  | .mk (some t) (some p) a, w, r, s, hv, hw, h => by
    match w with
    | .mk none none b => simp [sexpValue] at h
    | .mk (some t') none b =>
      simp only [sexpValue, List.append_assoc, List.append_right_inj, List.cons_append, List.nil_append, List.cons.injEq,
        true_and] at h
      obtain ⟨rfl, h1⟩ := spanText_pre h
      obtain ⟨h2, h3⟩ := debugStr_pre (List.cons.inj h1).2
      exact absurd (List.cons.inj h3).1 (by decide)
    | .mk (some t') (some q) b =>
      simp only [sexpValue, List.append_assoc, List.append_right_inj, List.cons_append, List.nil_append, List.cons.injEq,
        true_and] at h
      obtain ⟨rfl, h1⟩ := spanText_pre h
      obtain ⟨h2, h3⟩ := debugStr_pre (List.cons.inj h1).2
      obtain ⟨h4, h5⟩ := sexpPayload_pre pr (ind + 1) p _ _ _ _ q _ _ _ _ rfl rfl hv hw (List.cons.inj h3).2
      exact ⟨by simp [plainValue, h2, h4], (List.cons.inj h5).2⟩
    | .mk none (some q) b =>
      obtain ⟨c, t, h1, h2⟩ := sexpPayload_head pr ind b q
      simp only [sexpValue, h1] at h
      rcases h2 with rfl | rfl <;> simp at h
  | .mk none (some p) a, w, r, s, hv, hw, h => by
    match w with
    | .mk none none b =>
      obtain ⟨c, t, h1, h2⟩ := sexpPayload_head pr ind a p
      simp only [sexpValue, h1] at h
      rcases h2 with rfl | rfl <;> simp at h
    | .mk (some t) none b =>
      obtain ⟨c, t, h1, h2⟩ := sexpPayload_head pr ind a p
      simp only [sexpValue, h1] at h
      rcases h2 with rfl | rfl <;> simp at h
    | .mk (some t) (some q) b =>
      obtain ⟨c, t, h1, h2⟩ := sexpPayload_head pr ind a p
      simp only [sexpValue, h1] at h
      rcases h2 with rfl | rfl <;> simp at h
    | .mk none (some q) b =>
      simp only [sexpValue] at h
      have e1 := hv _ .self rfl p rfl
      have e2 := hw _ .self rfl q rfl
      obtain ⟨h4, h5⟩ := sexpPayload_pre pr ind p _ _ _ _ q _ _ _ _ e1 e2 hv hw h
      refine ⟨?_, h5⟩
      have h6 : payloadSpan p = payloadSpan q := by
        match p, q, h4 with
        | .scalar .., .scalar .., h4 => simp only [plainPayload, Payload.scalar.injEq] at h4; exact h4.2.2
        | .sequence .., .sequence .., h4 => simp only [plainPayload, Payload.sequence.injEq] at h4; exact h4.2
        | .object .., .object .., h4 => simp only [plainPayload, Payload.object.injEq] at h4; exact h4.2
      simp only [plainValue, h4]
      rw [e1, e2] at h6
      simp only [Value.span] at h6
      rw [h6]
theorem sexpPayload_pre (pr : Char → Bool) (ind : Nat) : ∀ (p : Payload) (ta : Option Tag) (a a' : Option Span)
    (r : List Char) (q : Payload) (tb : Option Tag) (b b' : Option Span) (s : List Char), payloadSpan p = a →
    payloadSpan q = b → Placed (.mk ta (some p) a') → Placed (.mk tb (some q) b') →
    sexpPayload pr ind a p ++ r = sexpPayload pr ind b q ++ s → plainPayload p = plainPayload q ∧ r = s
  | .scalar text k sp, ta, a, a', r, q, tb, b, b', s, ha, hb, hv, hw, h => by
    match q with
    | .scalar text' k' sp' =>
      simp only [sexpPayload, List.append_assoc, List.append_right_inj, List.cons_append, List.nil_append, List.cons.injEq,
        true_and] at h
      obtain ⟨rfl, h1⟩ := spanText_pre h
      obtain ⟨rfl, h2⟩ := kindName_pre (List.cons.inj h1).2
      obtain ⟨rfl, h3⟩ := debugStr_pre h2
      simp only [payloadSpan] at ha hb
      exact ⟨by rw [ha, hb], (List.cons.inj h3).2⟩
    | .sequence .. => simp [sexpPayload] at h
    | .object [] _ => simp [sexpPayload] at h
    | .object (_ :: _) _ => simp [sexpPayload] at h
  | .sequence items sp, ta, a, a', r, q, tb, b, b', s, ha, hb, hv, hw, h => by
    match q with
    | .scalar .. => simp [sexpPayload] at h
    | .sequence items' sp' =>
      simp only [sexpPayload, List.append_assoc, List.append_right_inj, List.cons_append, List.nil_append, List.cons.injEq,
        true_and] at h
      obtain ⟨rfl, h1⟩ := spanText_pre h
      obtain ⟨h2, h3⟩ := sexpItems_pre pr (ind + 1) items items' r s (fun v hm => hv.child (.item hm))
        (fun v hm => hw.child (.item hm)) h1
      simp only [payloadSpan] at ha hb
      exact ⟨by rw [plainPayload, plainPayload, h2, ha, hb], h3⟩
    | .object [] _ => simp [sexpPayload] at h
    | .object (_ :: _) _ => simp [sexpPayload] at h
  | .object [] sp, ta, a, a', r, q, tb, b, b', s, ha, hb, hv, hw, h => by
    match q with
    | .scalar .. => simp [sexpPayload] at h
    | .sequence .. => simp [sexpPayload] at h
    | .object [] _ =>
      simp only [sexpPayload, List.append_assoc, List.append_right_inj, List.cons_append, List.nil_append, List.cons.injEq,
        true_and] at h
      obtain ⟨rfl, h1⟩ := spanText_pre h
      simp only [payloadSpan] at ha hb
      exact ⟨by rw [ha, hb], (List.cons.inj h1).2⟩
    | .object (_ :: _) _ =>
      simp only [sexpPayload, List.append_assoc, List.append_right_inj, List.cons_append, List.nil_append, List.cons.injEq,
        true_and] at h
      obtain ⟨rfl, h1⟩ := spanText_pre h
      exact absurd (List.cons.inj h1).1 (by decide)
  | .object (e :: es) sp, ta, a, a', r, q, tb, b, b', s, ha, hb, hv, hw, h => by
    match q with
    | .scalar .. => simp [sexpPayload] at h
    | .sequence .. => simp [sexpPayload] at h
    | .object [] _ =>
      simp only [sexpPayload, List.append_assoc, List.append_right_inj, List.cons_append, List.nil_append, List.cons.injEq,
        true_and] at h
      obtain ⟨rfl, h1⟩ := spanText_pre h
      exact absurd (List.cons.inj h1).1 (by decide)
    | .object (e' :: es') _ =>
      simp only [sexpPayload, List.append_assoc, List.append_right_inj, List.cons_append, List.nil_append, List.cons.injEq,
        true_and] at h
      obtain ⟨rfl, h1⟩ := spanText_pre h
      obtain ⟨h2, h3⟩ := sexpEntries_pre pr ind (e :: es) (e' :: es') r s
        (fun k v d hm => ⟨hv.child (.key hm), hv.child (.value hm)⟩)
        (fun k v d hm => ⟨hw.child (.key hm), hw.child (.value hm)⟩)
        (by simp only [sexpEntries, List.append_assoc]; exact (List.cons.inj h1).2)
      simp only [payloadSpan] at ha hb
      exact ⟨by rw [plainPayload, plainPayload, h2, ha, hb], h3⟩
theorem sexpItems_pre (pr : Char → Bool) (ind : Nat) : ∀ (vs ws : List Value) (r s : List Char), (∀ v ∈ vs, Placed v) →
    (∀ w ∈ ws, Placed w) → sexpItems pr ind vs ++ ')' :: r = sexpItems pr ind ws ++ ')' :: s →
    plainItems vs = plainItems ws ∧ r = s
  | [], [], r, s, _, _, h => ⟨rfl, (List.cons.inj h).2⟩
  | [], w :: ws, r, s, _, _, h => by simp [sexpItems] at h
  | v :: vs, [], r, s, _, _, h => by simp [sexpItems] at h
  | v :: vs, w :: ws, r, s, hv, hw, h => by
    simp only [sexpItems, List.cons_append, List.append_assoc, List.cons.injEq, true_and] at h
    obtain ⟨h1, h2⟩ := sexpValue_pre pr ind v w _ _ (hv v (List.mem_cons_self ..)) (hw w (List.mem_cons_self ..)) h
    obtain ⟨h3, h4⟩ := sexpItems_pre pr ind vs ws r s (fun x hx => hv x (List.mem_cons_of_mem _ hx))
      (fun x hx => hw x (List.mem_cons_of_mem _ hx)) h2
    exact ⟨by rw [plainItems, plainItems, h1, h3], h4⟩
theorem sexpEntries_pre (pr : Char → Bool) (ind : Nat) : ∀ (es fs : List Entry) (r s : List Char),
    (∀ k v d, Entry.mk k v d ∈ es → Placed k ∧ Placed v) → (∀ k v d, Entry.mk k v d ∈ fs → Placed k ∧ Placed v) →
    sexpEntries pr (ind + 1) es ++ (sexpPad ind ++ ')' :: r) = sexpEntries pr (ind + 1) fs ++ (sexpPad ind ++ ')' :: s) →
    plainEntries es = plainEntries fs ∧ r = s
  | [], [], r, s, _, _, h => by
    simp only [sexpEntries, List.nil_append, List.append_right_inj] at h
    exact ⟨rfl, (List.cons.inj h).2⟩
  | [], .mk k v d :: fs, r, s, _, _, h => by
    rw [sexpEntries, sexpEntries, sexpEntry, sexpPad_succ] at h
    simp only [List.append_assoc, List.cons_append, List.nil_append, List.append_right_inj] at h
    exact absurd (List.cons.inj h).1 (by decide)
  | .mk k v d :: es, [], r, s, _, _, h => by
    rw [sexpEntries, sexpEntries, sexpEntry, sexpPad_succ] at h
    simp only [List.append_assoc, List.cons_append, List.nil_append, List.append_right_inj] at h
    exact absurd (List.cons.inj h).1 (by decide)
  | .mk k v d :: es, .mk k' v' d' :: fs, r, s, hv, hw, h => by
    simp only [sexpEntries, sexpEntry, List.append_assoc, List.cons_append, List.nil_append, List.append_right_inj,
      List.cons.injEq, true_and] at h
    obtain ⟨p1, p2⟩ := hv k v d (List.mem_cons_self ..)
    obtain ⟨q1, q2⟩ := hw k' v' d' (List.mem_cons_self ..)
    obtain ⟨h1, h2⟩ := sexpValue_pre pr (ind + 2) k k' _ _ p1 q1 h
    obtain ⟨h3, h4⟩ := sexpValue_pre pr (ind + 2) v v' _ _ p2 q2 (List.cons.inj h2).2
    simp only [List.cons.injEq, true_and] at h4
    obtain ⟨h5, h6⟩ := sexpEntries_pre pr ind es fs r s (fun k v d hm => hv k v d (List.mem_cons_of_mem _ hm))
      (fun k v d hm => hw k v d (List.mem_cons_of_mem _ hm)) h4
    exact ⟨by rw [plainEntries, plainEntries, h1, h3, h5], h6⟩
end

end Styx.Cli
