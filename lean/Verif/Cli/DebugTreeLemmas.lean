import Verif.Cli.DebugTree
import Verif.Cli.DebugTreeSpec
import Verif.Cli.SexpLemmas
import Verif.Tree.TagNames

/-!
# Lemmas: what is shown of a tree can be read back from the debug tree
-/

namespace Styx.Cli

open Styx Styx.Spec

theorem tagName_pre {c d : Char} (hc : isTagChar c = false) (hd : isTagChar d = false) : ∀ {a b r s : List Char},
    (∀ x ∈ a, isTagChar x = true) → (∀ x ∈ b, isTagChar x = true) → a ++ c :: r = b ++ d :: s → a = b ∧ c = d ∧ r = s
  | [], [], _, _, _, _, h => ⟨rfl, (List.cons.inj h).1, (List.cons.inj h).2⟩
  | [], y :: b, _, _, _, hb, h => by
    have := hb y (List.mem_cons_self ..)
    rw [← (List.cons.inj h).1, hc] at this
    cases this
  | x :: a, [], _, _, ha, _, h => by
    have := ha x (List.mem_cons_self ..)
    rw [(List.cons.inj h).1, hd] at this
    cases this
  | x :: a, y :: b, r, s, ha, hb, h => by
    obtain ⟨h1, h2⟩ := List.cons.inj h
    obtain ⟨h3, h4⟩ := tagName_pre hc hd (fun z hz => ha z (List.mem_cons_of_mem _ hz))
      (fun z hz => hb z (List.mem_cons_of_mem _ hz)) h2
    exact ⟨by rw [h1, h3], h4⟩

theorem ownTag {t : Tag} {p : Option Payload} {sp : Option Span} (h : ValidTags (.mk (some t) p sp)) :
    ∀ c ∈ t.name, isTagChar c = true :=
  validName_chars (h _ .self t rfl)

theorem debugKind_pre {a b : ScalarKind} {r s : List Char} (h : debugKind a ++ ')' :: r = debugKind b ++ ')' :: s) :
    a = b ∧ r = s := by
  cases a <;> cases b <;> simp [debugKind] at h ⊢ <;> exact h

theorem treeInline_pre (pr : Char → Bool) {v w : Value} {r s : List Char} (hv : ValidTags v) (hw : ValidTags w)
    (h : treeInline pr v ++ '\n' :: r = treeInline pr w ++ '\n' :: s) : shownKey v = shownKey w ∧ r = s := by
  obtain ⟨t, p, sp⟩ := v
  obtain ⟨t', p', sp'⟩ := w
  cases t with
  | some t =>
    cases t' with
    | some t' =>
      cases p <;> cases p' <;>
        simp only [treeInline, List.append_assoc, List.cons_append, List.nil_append, List.cons.injEq, true_and] at h
      · obtain ⟨h1, -, h2⟩ := tagName_pre (by decide) (by decide) (ownTag hv) (ownTag hw) h
        exact ⟨by simp [shownKey, h1], h2⟩
      · obtain ⟨-, h1, -⟩ := tagName_pre (by decide) (by decide) (ownTag hv) (ownTag hw) h
        exact absurd h1 (by decide)
      · obtain ⟨-, h1, -⟩ := tagName_pre (by decide) (by decide) (ownTag hv) (ownTag hw) h
        exact absurd h1 (by decide)
      · obtain ⟨h1, -, h2⟩ := tagName_pre (by decide) (by decide) (ownTag hv) (ownTag hw) h
        simp only [List.cons.injEq, true_and] at h2
        exact ⟨by simp [shownKey, h1], h2⟩
    | none =>
      cases p <;> rcases p' with _ | (_ | _ | _) <;> simp [treeInline] at h
  | none =>
    cases t' with
    | some t' =>
      cases p' <;> rcases p with _ | (_ | _ | _) <;> simp [treeInline] at h
    | none =>
      rcases p with _ | (⟨text, k, a⟩ | _ | _) <;> rcases p' with _ | (⟨text', k', a'⟩ | _ | _)
      case some.scalar.some.scalar =>
        simp only [treeInline, List.append_assoc, List.cons_append, List.nil_append, List.cons.injEq, true_and] at h
        obtain ⟨h1, h2⟩ := debugStr_pre h
        simp only [List.cons.injEq, true_and] at h2
        exact ⟨by simp [shownKey, h1], h2⟩
      all_goals simp [treeInline] at h
      all_goals exact ⟨rfl, h⟩

theorem treeInline_newline (pr : Char → Bool) (v : Value) {r s : List Char} : treeInline pr v ++ r ≠ '\n' :: s := by
  rcases v with ⟨_ | _, _ | (_ | _ | _), _⟩ <;> simp [treeInline]

theorem simple_shown {v : Value} (h : isComplexValue v = false) : hideKind (shownValue v) = shownKey v := by
  rcases v with ⟨_ | _, _ | (_ | _ | _), _⟩ <;>
    first
    | rfl
    | (simp [isComplexValue] at h)

theorem treePayload_head (pr : Char → Bool) (ind : Nat) (p : Payload) :
    ∃ c t, treePayload pr ind p = sexpPad ind ++ c :: t ∧ (c = 'S' ∨ c = 'O') := by
  match p with
  | .scalar .. => exact ⟨'S', _, by simp only [treePayload, List.append_assoc, List.cons_append, List.nil_append]; rfl, .inl rfl⟩
  | .sequence .. => exact ⟨'S', _, by simp only [treePayload, List.append_assoc, List.cons_append, List.nil_append]; rfl, .inl rfl⟩
  | .object .. => exact ⟨'O', _, by simp only [treePayload, List.append_assoc, List.cons_append, List.nil_append]; rfl, .inr rfl⟩

theorem treeValue_head (pr : Char → Bool) (ind : Nat) (v : Value) : ∃ t, treeValue pr ind v = sexpPad ind ++ t := by
  match v with
  | .mk (some t) none _ => exact ⟨_, by simp only [treeValue, List.append_assoc]; rfl⟩
  | .mk (some t) (some p) _ => exact ⟨_, by simp only [treeValue, List.append_assoc]; rfl⟩
  | .mk none none _ => exact ⟨_, by simp only [treeValue]; rfl⟩
  | .mk none (some p) _ =>
    obtain ⟨c, t, h, -⟩ := treePayload_head pr ind p
    exact ⟨_, by simp only [treeValue, h]; rfl⟩

theorem treeValue_deeper (pr : Char → Bool) (ind : Nat) (v : Value) :
    ∃ t, treeValue pr (ind + 1) v = sexpPad ind ++ ' ' :: t := by
  obtain ⟨t, h⟩ := treeValue_head pr (ind + 1) v
  exact ⟨_, by rw [h, sexpPad_succ, List.append_assoc]; rfl⟩

mutual
theorem treeValue_pre (pr : Char → Bool) (ind : Nat) : ∀ (v w : Value) (r s : List Char), ValidTags v → ValidTags w →
    treeValue pr ind v ++ r = treeValue pr ind w ++ s → shownValue v = shownValue w ∧ r = s
  | .mk (some t) none a, w, r, s, hv, hw, h => by
    match w with
    | .mk (some t') none b =>
      simp only [treeValue, List.append_assoc, List.append_right_inj, List.cons_append, List.nil_append, List.cons.injEq,
        true_and] at h
      obtain ⟨h1, -, h2⟩ := tagName_pre (by decide) (by decide) (ownTag hv) (ownTag hw) h
      exact ⟨by simp [shownValue, h1], h2⟩
    | .mk (some t') (some q) b =>
      simp only [treeValue, List.append_assoc, List.append_right_inj, List.cons_append, List.nil_append, List.cons.injEq,
        true_and] at h
      obtain ⟨-, h1, -⟩ := tagName_pre (by decide) (by decide) (ownTag hv) (ownTag hw) h
      exact absurd h1 (by decide)
    | .mk none none b => simp [treeValue] at h
    | .mk none (some q) b =>
      obtain ⟨c, x, h1, h2⟩ := treePayload_head pr ind q
      simp only [treeValue, h1] at h
      rcases h2 with rfl | rfl <;> simp at h
  | .mk (some t) (some p) a, w, r, s, hv, hw, h => by
    match w with
    | .mk (some t') none b =>
      simp only [treeValue, List.append_assoc, List.append_right_inj, List.cons_append, List.nil_append, List.cons.injEq,
        true_and] at h
      obtain ⟨-, h1, -⟩ := tagName_pre (by decide) (by decide) (ownTag hv) (ownTag hw) h
      exact absurd h1 (by decide)
    | .mk (some t') (some q) b =>
      simp only [treeValue, List.append_assoc, List.append_right_inj, List.cons_append, List.nil_append, List.cons.injEq,
        true_and] at h
      obtain ⟨h1, -, h2⟩ := tagName_pre (by decide) (by decide) (ownTag hv) (ownTag hw) h
      simp only [List.cons.injEq, true_and] at h2
      obtain ⟨h3, h4⟩ := treePayload_pre pr (ind + 1) p q _ _ _ _ _ _ hv hw h2
      simp only [List.append_right_inj, List.cons.injEq, true_and] at h4
      exact ⟨by simp [shownValue, shownOption, h1, h3], h4⟩
    | .mk none none b => simp [treeValue] at h
    | .mk none (some q) b =>
      obtain ⟨c, x, h1, h2⟩ := treePayload_head pr ind q
      simp only [treeValue, h1] at h
      rcases h2 with rfl | rfl <;> simp at h
  | .mk none none a, w, r, s, hv, hw, h => by
    match w with
    | .mk (some t') none b => simp [treeValue] at h
    | .mk (some t') (some q) b => simp [treeValue] at h
    | .mk none none b =>
      simp only [treeValue, List.append_assoc, List.append_right_inj, List.cons_append, List.nil_append, List.cons.injEq,
        true_and] at h
      exact ⟨rfl, h⟩
    | .mk none (some q) b =>
      obtain ⟨c, x, h1, h2⟩ := treePayload_head pr ind q
      simp only [treeValue, h1] at h
      rcases h2 with rfl | rfl <;> simp at h
  | .mk none (some p) a, w, r, s, hv, hw, h => by
    match w with
    | .mk none (some q) b =>
      simp only [treeValue] at h
      obtain ⟨h3, h4⟩ := treePayload_pre pr ind p q _ _ _ _ _ _ hv hw h
      exact ⟨by simp [shownValue, shownOption, h3], h4⟩
    | .mk (some t') none b =>
      obtain ⟨c, x, h1, h2⟩ := treePayload_head pr ind p
      simp only [treeValue, h1] at h
      rcases h2 with rfl | rfl <;> simp at h
    | .mk (some t') (some q) b =>
      obtain ⟨c, x, h1, h2⟩ := treePayload_head pr ind p
      simp only [treeValue, h1] at h
      rcases h2 with rfl | rfl <;> simp at h
    | .mk none none b =>
      obtain ⟨c, x, h1, h2⟩ := treePayload_head pr ind p
      simp only [treeValue, h1] at h
      rcases h2 with rfl | rfl <;> simp at h
theorem treePayload_pre (pr : Char → Bool) (ind : Nat) : ∀ (p q : Payload) (t t' : Option Tag) (a b : Option Span)
    (r s : List Char), ValidTags (.mk t (some p) a) → ValidTags (.mk t' (some q) b) →
    treePayload pr ind p ++ r = treePayload pr ind q ++ s → shownPayload p = shownPayload q ∧ r = s
  | .scalar text k _, q, t, t', a, b, r, s, hv, hw, h => by
    match q with
    | .scalar text' k' _ =>
      simp only [treePayload, List.append_assoc, List.append_right_inj, List.cons_append, List.nil_append, List.cons.injEq,
        true_and] at h
      obtain ⟨h1, h2⟩ := debugStr_pre h
      simp only [List.cons.injEq, true_and] at h2
      obtain ⟨h3, h4⟩ := debugKind_pre h2
      simp only [List.cons.injEq, true_and] at h4
      exact ⟨by simp [shownPayload, h1, h3], h4⟩
    | .sequence .. => simp [treePayload] at h
    | .object .. => simp [treePayload] at h
  | .sequence vs _, q, t, t', a, b, r, s, hv, hw, h => by
    match q with
    | .scalar .. => simp [treePayload] at h
    | .object .. => simp [treePayload] at h
    | .sequence ws _ =>
      simp only [treePayload, List.append_assoc, List.append_right_inj, List.cons_append, List.nil_append, List.cons.injEq,
        true_and] at h
      obtain ⟨h1, h2⟩ := treeItems_pre pr ind vs ws _ _ (fun x hx => hv.child (.item hx)) (fun x hx => hw.child (.item hx)) h
      simp only [List.cons.injEq, true_and] at h2
      exact ⟨by simp [shownPayload, h1], h2⟩
  | .object es _, q, t, t', a, b, r, s, hv, hw, h => by
    match q with
    | .scalar .. => simp [treePayload] at h
    | .sequence .. => simp [treePayload] at h
    | .object fs _ =>
      simp only [treePayload, List.append_assoc, List.append_right_inj, List.cons_append, List.nil_append, List.cons.injEq,
        true_and] at h
      obtain ⟨h1, h2⟩ := treeEntries_pre pr ind es fs _ _
        (fun k v d hx => ⟨hv.child (.key hx), hv.child (.value hx)⟩)
        (fun k v d hx => ⟨hw.child (.key hx), hw.child (.value hx)⟩) h
      simp only [List.cons.injEq, true_and] at h2
      exact ⟨by simp [shownPayload, h1], h2⟩
theorem treeItems_pre (pr : Char → Bool) (ind : Nat) : ∀ (vs ws : List Value) (r s : List Char),
    (∀ x ∈ vs, ValidTags x) → (∀ x ∈ ws, ValidTags x) →
    treeItems pr (ind + 1) vs ++ (sexpPad ind ++ ']' :: r) = treeItems pr (ind + 1) ws ++ (sexpPad ind ++ ']' :: s) →
    shownItems vs = shownItems ws ∧ r = s
  | [], ws, r, s, hv, hw, h => by
    match ws with
    | [] => simpa [treeItems, shownItems] using h
    | w :: ws =>
      obtain ⟨t, h1⟩ := treeValue_deeper pr ind w
      simp [treeItems, h1] at h
  | v :: vs, ws, r, s, hv, hw, h => by
    match ws with
    | [] =>
      obtain ⟨t, h1⟩ := treeValue_deeper pr ind v
      simp [treeItems, h1] at h
    | w :: ws =>
      simp only [treeItems, List.append_assoc] at h
      obtain ⟨h1, h2⟩ := treeValue_pre pr (ind + 1) v w _ _ (hv v (List.mem_cons_self ..)) (hw w (List.mem_cons_self ..)) h
      obtain ⟨h3, h4⟩ := treeItems_pre pr ind vs ws r s (fun x hx => hv x (List.mem_cons_of_mem _ hx))
        (fun x hx => hw x (List.mem_cons_of_mem _ hx)) h2
      exact ⟨by simp [shownItems, h1, h3], h4⟩
theorem treeEntries_pre (pr : Char → Bool) (ind : Nat) : ∀ (es fs : List Entry) (r s : List Char),
    (∀ k v d, Entry.mk k v d ∈ es → ValidTags k ∧ ValidTags v) →
    (∀ k v d, Entry.mk k v d ∈ fs → ValidTags k ∧ ValidTags v) →
    treeEntries pr ind es ++ (sexpPad ind ++ '}' :: r) = treeEntries pr ind fs ++ (sexpPad ind ++ '}' :: s) →
    shownEntries es = shownEntries fs ∧ r = s
  | [], fs, r, s, hv, hw, h => by
    match fs with
    | [] => simpa [treeEntries, shownEntries] using h
    | .mk k v d :: fs => simp [treeEntries] at h
  | .mk k v d :: es, fs, r, s, hv, hw, h => by
    match fs with
    | [] => simp [treeEntries] at h
    | .mk k' v' d' :: fs =>
      obtain ⟨a1, a2⟩ := hv k v d (List.mem_cons_self ..)
      obtain ⟨b1, b2⟩ := hw k' v' d' (List.mem_cons_self ..)
      simp only [treeEntries, List.append_assoc, List.append_right_inj, List.cons_append, List.nil_append, List.cons.injEq,
        true_and] at h
      obtain ⟨h1, h2⟩ := treeInline_pre pr a1 b1 h
      simp only [List.append_right_inj, List.cons.injEq, true_and] at h2
      have step : ∀ {x y : List Char}, x = y →
          x = treeEntries pr ind es ++ (sexpPad ind ++ '}' :: r) → y = treeEntries pr ind fs ++ (sexpPad ind ++ '}' :: s) →
          shownEntries es = shownEntries fs ∧ r = s := by
        rintro x y rfl e1 e2
        exact treeEntries_pre pr ind es fs r s (fun k v d hx => hv k v d (List.mem_cons_of_mem _ hx))
          (fun k v d hx => hw k v d (List.mem_cons_of_mem _ hx)) (e1.symm.trans e2)
      cases hc : isComplexValue v <;> cases hc' : isComplexValue v' <;>
        simp only [hc, hc', if_true, if_false, Bool.false_eq_true, List.append_assoc, List.cons_append, List.nil_append] at h2
      · obtain ⟨h3, h4⟩ := treeInline_pre pr a2 b2 h2
        obtain ⟨h5, h6⟩ := step h4 rfl rfl
        exact ⟨by simp [shownEntries, h1, h5, simple_shown hc, simple_shown hc', h3], h6⟩
      · exact absurd h2 (treeInline_newline pr v)
      · exact absurd h2.symm (treeInline_newline pr v')
      · simp only [List.cons.injEq, true_and] at h2
        obtain ⟨h3, h4⟩ := treeValue_pre pr (ind + 2) v v' _ _ a2 b2 h2
        obtain ⟨h5, h6⟩ := step h4 rfl rfl
        exact ⟨by simp [shownEntries, h1, h5, h3], h6⟩
end

theorem treeInline_key (pr : Char → Bool) (v : Value) : treeInline pr (shownKey v) = treeInline pr v := by
  rcases v with ⟨_ | _, _ | (_ | _ | _), _⟩ <;> rfl

theorem complex_shown (v : Value) : isComplexValue (hideKind (shownValue v)) = isComplexValue v := by
  rcases v with ⟨_ | _, _ | (_ | _ | _), _⟩ <;> rfl

theorem complex_kind {v : Value} (h : isComplexValue v = true) : hideKind (shownValue v) = shownValue v := by
  rcases v with ⟨_ | _, _ | (_ | _ | _), _⟩ <;>
    first
    | rfl
    | (simp [isComplexValue] at h)

mutual
theorem treeValue_shown (pr : Char → Bool) (ind : Nat) : ∀ v : Value, treeValue pr ind (shownValue v) = treeValue pr ind v
  | .mk (some t) none _ => by simp [shownValue, shownOption, treeValue]
  | .mk (some t) (some p) _ => by simp [shownValue, shownOption, treeValue, treePayload_shown pr (ind + 1) p]
  | .mk none none _ => by simp [shownValue, shownOption, treeValue]
  | .mk none (some p) _ => by simp [shownValue, shownOption, treeValue, treePayload_shown pr ind p]
theorem treePayload_shown (pr : Char → Bool) (ind : Nat) : ∀ p : Payload,
    treePayload pr ind (shownPayload p) = treePayload pr ind p
  | .scalar .. => rfl
  | .sequence vs _ => by simp [shownPayload, treePayload, treeItems_shown pr (ind + 1) vs]
  | .object es _ => by simp [shownPayload, treePayload, treeEntries_shown pr ind es]
theorem treeItems_shown (pr : Char → Bool) (ind : Nat) : ∀ vs : List Value,
    treeItems pr ind (shownItems vs) = treeItems pr ind vs
  | [] => rfl
  | v :: vs => by simp [shownItems, treeItems, treeValue_shown pr ind v, treeItems_shown pr ind vs]
theorem treeEntries_shown (pr : Char → Bool) (ind : Nat) : ∀ es : List Entry,
    treeEntries pr ind (shownEntries es) = treeEntries pr ind es
  | [] => rfl
  | .mk k v _ :: es => by
    simp only [shownEntries, treeEntries, treeInline_key, complex_shown, treeEntries_shown pr ind es]
    cases hc : isComplexValue v
    · simp only [simple_shown hc, treeInline_key, Bool.false_eq_true, if_false]
    · simp only [complex_kind hc, treeValue_shown pr (ind + 2) v, if_true]
end

end Styx.Cli
