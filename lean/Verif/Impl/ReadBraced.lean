import Verif.Impl.Malformed
import Verif.Impl.Mono
import Verif.Impl.BracedSpec

/-! # The other implementations on documents with braces around the root -/

namespace Styx.Impl

open Styx.Spec

theorem gap_append_nil {b : Bool} {g : List Char} (hg : Gap b g) : core false g = [] := by
  have := core_gap hg []
  rw [List.append_nil] at this
  rw [this]
  rfl

/-- What the parsers do with a text whose first value is an object: the entries, and then the rest of the text decides. -/
theorem braced_object (d : Dialect) {g es t} (x : List Char) (hg : Gap true g) (h : SharedEntries es t)
    (hk : DistinctKeys es) (hl : DistinctLabels es) (hx : CoreLexes d x) :
    ∃ N st tk r ws nl, readToken d ws nl (core false x) = .ok (tk, r) ∧ nextToken d (g ++ ('{' :: (t ++ x))) = .ok (st.cur, st.rest) ∧
      st.peeked = none ∧ st.err = none ∧
      ∀ n, N ≤ n → parseDocument d n st =
        (if tk.kind = .eof then pure [.mk unitValue (objectValue (shedEntries es)) none]
          else (skipToEnd d n >>= fun _ => fail .trailingContent) : P (List Entry)) ⟨tk, none, r, none⟩ := by
  have hv := sharedValue_reads d (.object h hk hl)
  have hall : core false (g ++ ('{' :: (t ++ x))) = '{' :: (t ++ x) := by
    rw [core_gap hg]
    exact core_start (start_char (by decide) (by decide)) (by simp)
  have hcl : CoreLexes d (g ++ ('{' :: (t ++ x))) := by
    intro ws nl
    rw [hall]
    exact ⟨_, _, rfl⟩
  obtain ⟨tk0, r0, hn0⟩ := hcl.lexes
  obtain ⟨N1, ws1, nl1, st1, a1, s1, -⟩ := skipCommas_spec _ ⟨tk0, none, r0, none⟩ ⟨tk0, r0, hn0, rfl⟩ hcl
  rw [hall] at a1
  obtain ⟨N2, st2, r2, v2⟩ := hv.reads x ws1 nl1 st1 trivial hx.lexes a1
  obtain ⟨N3, ws3, nl3, st3, a3, s3, -⟩ := skipCommas_spec x st2 r2 hx
  obtain ⟨tk, r, h3, rfl⟩ := a3
  refine ⟨N1 + N2 + N3 + 1, ⟨tk0, none, r0, none⟩, tk, r, ws3, nl3, h3, hn0, rfl, rfl, ?_⟩
  intro n hn
  have hb : st1.cur.kind = .lbrace := by
    obtain ⟨tk1, r1, h1, rfl⟩ := a1
    cases h1
    rfl
  have ho : parseObject d n st1 = .ok (shedEntries es) st2 := by
    have h := (v2 (n + 1) (by omega)).1
    rw [parseValue] at h
    have he : st1.err = none := by
      obtain ⟨tk1, r1, -, rfl⟩ := a1
      rfl
    rw [bind_ok (checkErr_none he), bind_cur, hb] at h
    obtain ⟨es', s, h1, h2⟩ := bind_inv h
    cases h2
    exact h1
  rw [parseDocument, bind_ok (s1 n (by omega)), bind_cur, if_pos hb, bind_ok ho, bind_ok (s3 n (by omega)), bind_cur]

/-- **Documents with braces**: each of the three reads the entries as an object under the key `@`. -/
theorem sharedBraced_parse (d : Dialect) {es s} (h : SharedBraced es s) :
    ∃ N, ∀ n, N ≤ n → parse d n s = some (.ok [.mk unitValue (objectValue (shedEntries es)) none]) := by
  obtain @⟨g, es, t, g', hg, he, hk, hl, hg'⟩ := h
  have hx : core false g' = [] := gap_append_nil hg'
  obtain ⟨N, ⟨tk0, pk, r0, er⟩, tk, r, ws, nl, h1, h2, rfl, rfl, h3⟩ := braced_object d g' hg he hk hl (by
    intro ws nl
    rw [hx]
    exact ⟨_, _, rfl⟩)
  rw [hx] at h1
  cases h1
  refine ⟨N, fun n hn => ?_⟩
  unfold parse
  rw [h2]
  simp only [h3 n hn]
  rfl

theorem readToken_end {d : Dialect} {ws nl : Bool} {x : List Char} {t : Tok} {r : List Char}
    (h : readToken d ws nl x = .ok (t, r)) (hk : t.kind = .eof) : x = [] := by
  cases x with
  | nil => rfl
  | cons c cs =>
    rw [readToken] at h
    by_cases k0 : (c == '{') = true
    · rw [if_pos k0] at h; cases h; cases hk
    rw [if_neg k0] at h
    by_cases k1 : (c == '}') = true
    · rw [if_pos k1] at h; cases h; cases hk
    rw [if_neg k1] at h
    by_cases k2 : (c == '(') = true
    · rw [if_pos k2] at h; cases h; cases hk
    rw [if_neg k2] at h
    by_cases k3 : (c == ')') = true
    · rw [if_pos k3] at h; cases h; cases hk
    rw [if_neg k3] at h
    by_cases k4 : (c == ',') = true
    · rw [if_pos k4] at h; cases h; cases hk
    rw [if_neg k4] at h
    by_cases k5 : (c == '>') = true
    · rw [if_pos k5] at h; cases h; cases hk
    rw [if_neg k5] at h
    by_cases k6 : (c == '@') = true
    · rw [if_pos k6] at h
      split at h <;> cases h <;> cases hk
    rw [if_neg k6] at h
    by_cases k7 : (c == '"') = true
    · rw [if_pos k7] at h
      obtain ⟨a, -, ha⟩ := map_ok h
      cases ha; cases hk
    rw [if_neg k7] at h
    by_cases k8 : (c == 'r' && (cs.head? == some '"' || cs.head? == some '#')) = true
    · rw [if_pos k8] at h
      simp only at h
      split at h <;> cases h
      cases hk
    rw [if_neg k8] at h
    by_cases k9 : (c == '<' && cs.head? == some '<') = true
    · rw [if_pos k9] at h
      split at h
      · split at h <;> cases h
        cases hk
      · cases h
    rw [if_neg k9] at h
    cases h
    cases hk

/-- Anything behind the braces is rejected. -/
theorem sharedBraced_trailing (d : Dialect) {g es t x} (hg : Gap true g) (h : SharedEntries es t)
    (hk : DistinctKeys es) (hl : DistinctLabels es) (hx : CoreLexes d x) (hne : core false x ≠ []) {n : Nat} {es' : List Entry} :
    parse d n (g ++ ('{' :: (t ++ x))) ≠ some (.ok es') := by
  intro hp
  obtain ⟨N, ⟨tk0, pk, r0, er⟩, tk, r, ws, nl, h1, h2, rfl, rfl, h3⟩ := braced_object d x hg h hk hl hx
  have hp := parse_mono d (Nat.le_add_right n N) _ hp
  unfold parse at hp
  rw [h2] at hp
  simp only [h3 (n + N) (by omega)] at hp
  rw [if_neg fun hk => hne (readToken_end h1 hk)] at hp
  cases hs : skipToEnd d (n + N) ⟨tk, none, r, none⟩ with
  | ok u st' => rw [bind_ok hs] at hp; cases hp
  | fail e st' => rw [bind_fail hs] at hp; cases hp
  | fuel =>
    have : (skipToEnd d (n + N) >>= fun _ => (fail .trailingContent : P (List Entry))) ⟨tk, none, r, none⟩ = .fuel := by
      show P.bind _ _ _ = _
      unfold P.bind
      rw [hs]
    rw [this] at hp
    cases hp

end Styx.Impl
