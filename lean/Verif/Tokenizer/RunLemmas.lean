import Verif.Tokenizer.Kinds

/-! # Helper lemmas about whole tokenizer runs -/

namespace Styx

open Spec

/-- The state after `n` calls of `next`. -/
def Tok.after : Nat → Tok → Tok
  | 0, t => t
  | n + 1, t => Tok.after n t.next.2

theorem dropBytes_append (a b : List Char) : dropBytes (utf8Len a) (a ++ b) = some b := by
  induction a with
  | nil => simp [dropBytes]
  | cons c cs ih =>
    have hp := Char.utf8Size_pos c
    obtain ⟨k, hk⟩ : ∃ k, utf8Len (c :: cs) = k + 1 := ⟨utf8Len (c :: cs) - 1, by simp; omega⟩
    rw [hk, List.cons_append, dropBytes]
    simp only [utf8Len_cons] at hk
    rw [if_pos (by omega), ← hk, Nat.add_sub_cancel_left, ih]

theorem takeBytes_append (a b : List Char) : takeBytes (utf8Len a) (a ++ b) = some a := by
  induction a with
  | nil => simp [takeBytes]
  | cons c cs ih =>
    have hp := Char.utf8Size_pos c
    obtain ⟨k, hk⟩ : ∃ k, utf8Len (c :: cs) = k + 1 := ⟨utf8Len (c :: cs) - 1, by simp; omega⟩
    rw [hk, List.cons_append, takeBytes]
    simp only [utf8Len_cons] at hk
    rw [if_pos (by omega), ← hk, Nat.add_sub_cancel_left, ih]
    rfl

theorem slice_append (a b c : List Char) :
    slice (a ++ b ++ c) (utf8Len a) (utf8Len a + utf8Len b) = some b := by
  unfold slice
  rw [if_pos (by omega), List.append_assoc, dropBytes_append, Nat.add_sub_cancel_left]
  simp [takeBytes_append]

/-- With enough fuel a run ends at end of input having consumed everything. -/
theorem run_spec (n : Nat) (t : Tok) (hn : t.measure < n) :
    (Tok.run n t).flatMap (·.text) = t.remaining ∧
    Contiguous t.pos (Tok.run n t) (t.pos + utf8Len t.remaining) ∧
    (Tok.run n t).length ≤ t.measure := by
  induction n generalizing t with
  | zero => omega
  | succ n ih =>
    have hs := next_step t
    simp only [Tok.run]
    by_cases hk : t.next.1.kind = .eof
    · have := (next_eof_iff t).mp hk
      simp [hk, this.1, Contiguous]
    · have hm := next_measure t hk
      obtain ⟨h1, h2, h3⟩ := ih t.next.2 (by omega)
      rw [if_neg hk]
      refine ⟨?_, ?_, ?_⟩
      · simp [h1, hs.text]
      · refine ⟨hs.start, ?_⟩
        rw [hs.stop]
        have : t.pos + utf8Len t.remaining = t.next.2.pos + utf8Len t.next.2.remaining := by
          rw [hs.len, ← hs.text]; simp [Nat.add_assoc]
        rw [this]; exact h2
      · simp only [List.length_cons]; omega

/-- Every token of a run is the slice of the source at its span. -/
theorem run_slice (n : Nat) (t : Tok) (pre : List Char) (hp : t.pos = utf8Len pre) :
    ∀ tok ∈ Tok.run n t, slice (pre ++ t.remaining) tok.start tok.stop = some tok.text ∧
      tok.stop = tok.start + utf8Len tok.text := by
  induction n generalizing t pre with
  | zero => simp [Tok.run]
  | succ n ih =>
    have hs := next_step t
    simp only [Tok.run]
    split
    · simp
    · intro tok ht
      simp only [List.mem_cons] at ht
      rcases ht with rfl | ht
      · refine ⟨?_, by rw [hs.stop, hs.len, hs.start]⟩
        rw [hs.start, hs.stop, hs.len, ← hs.text, hp, ← List.append_assoc]
        exact slice_append _ _ _
      · have := ih t.next.2 (pre ++ t.next.1.text) (by rw [hs.len, hp]; simp) tok ht
        rwa [List.append_assoc, hs.text] at this

theorem run_kind (n : Nat) (t : Tok) (hi : TokInv t) :
    ∀ tok ∈ Tok.run n t, KindText tok.kind tok.text ∧ tok.kind ≠ .eof := by
  induction n generalizing t with
  | zero => simp [Tok.run]
  | succ n ih =>
    obtain ⟨h1, h2⟩ := next_kind t hi
    simp only [Tok.run]
    split
    · simp
    · rename_i hk
      intro tok ht
      simp only [List.mem_cons] at ht
      rcases ht with rfl | ht
      · exact ⟨h2, hk⟩
      · exact ih _ h1 tok ht

theorem after_add (n m : Nat) (t : Tok) : t.after (n + m) = (t.after n).after m := by
  induction n generalizing t with
  | zero => simp [Tok.after]
  | succ n ih => rw [Nat.succ_add]; simp [Tok.after, ih]

/-- Once end of input is reported the state does not change any more. -/
theorem next_at_eof (t : Tok) (h : t.next.1.kind = .eof) :
    t.next = (⟨.eof, t.pos, t.pos, []⟩, t) := by
  obtain ⟨h1, h2⟩ := (next_eof_iff t).mp h
  obtain ⟨r, p, hd⟩ := t
  simp only at h1 h2
  subst h1 h2
  simp [Tok.next, Tok.emit]

theorem after_at_eof (t : Tok) (h : t.next.1.kind = .eof) (m : Nat) : t.after m = t := by
  induction m with
  | zero => rfl
  | succ m ih => simp only [Tok.after]; rw [next_at_eof t h]; exact ih

theorem reaches_eof (k : Nat) (t : Tok) (hk : t.measure ≤ k) :
    ∃ n ≤ t.measure, (t.after n).next.1.kind = .eof ∧
      (∀ m < n, (t.after m).next.1.kind ≠ .eof) := by
  induction k generalizing t with
  | zero =>
    refine ⟨0, by omega, ?_, by omega⟩
    apply Classical.byContradiction
    intro h
    have := next_measure t h
    omega
  | succ k ih =>
    by_cases h : t.next.1.kind = .eof
    · exact ⟨0, by omega, h, by omega⟩
    · have hm := next_measure t h
      obtain ⟨n, h1, h2, h3⟩ := ih t.next.2 (by omega)
      refine ⟨n + 1, by omega, h2, ?_⟩
      intro m hm
      cases m with
      | zero => exact h
      | succ m => exact h3 m (by omega)

theorem after_pos (n : Nat) (t : Tok) :
    (t.after n).pos + utf8Len (t.after n).remaining = t.pos + utf8Len t.remaining := by
  induction n generalizing t with
  | zero => rfl
  | succ n ih =>
    have hs := next_step t
    simp only [Tok.after]
    rw [ih, hs.len, ← hs.text]; simp [Nat.add_assoc]

/-- The token list of a run is determined by the calls before the first end of input. -/
theorem run_eq_calls (n k : Nat) (t : Tok) (hk : n < k)
    (hlt : ∀ m < n, (t.after m).next.1.kind ≠ .eof) (hn : (t.after n).next.1.kind = .eof) :
    Tok.run k t = (List.range n).map (fun m => (t.after m).next.1) := by
  induction n generalizing t k with
  | zero =>
    cases k with
    | zero => omega
    | succ k =>
      simp only [Tok.after] at hn
      simp [Tok.run, hn]
  | succ n ih =>
    cases k with
    | zero => omega
    | succ k =>
      have h0 := hlt 0 (by omega)
      simp only [Tok.after] at h0
      simp only [Tok.run, if_neg h0]
      rw [ih k t.next.2 (by omega) (fun m hm => hlt (m + 1) (by omega)) hn]
      rw [List.range_succ_eq_map]
      simp [Tok.after, Function.comp_def]

theorem dropWhile_head {p : Char → Bool} {s r : List Char} {c : Char}
    (h : s.dropWhile p = c :: r) : p c = false := by
  induction s with
  | nil => simp at h
  | cons a s ih =>
    simp only [List.dropWhile_cons] at h
    split at h
    · exact ih h
    · simp_all

/-- After a bare scalar the remaining text does not continue with a bare-scalar character. -/
theorem next_bare (t : Tok) (h : t.next.1.kind = .bareScalar) :
    t.next.2.heredoc = none ∧ ∀ c r, t.next.2.remaining = c :: r → isBareChar c = false := by
  revert h
  refine next_ind t (fun x => x.1.kind = .bareScalar → x.2.heredoc = none ∧
    ∀ c r, x.2.remaining = c :: r → isBareChar c = false) ?_ ?_ ?_ ?_ ?_ ?_ ?_ ?_ ?_ ?_ ?_ ?_ ?_ ?_ ?_
  · intro h hh
    unfold Tok.heredocContent
    split
    · simp [Tok.emit]
    · split <;> simp [Tok.emit]
  · simp [Tok.emit]
  · intro k c cs h1 h2 hm
    simp only [List.mem_cons, Prod.mk.injEq, List.not_mem_nil, or_false] at hm
    rcases hm with ⟨rfl, rfl⟩ | ⟨rfl, rfl⟩ | ⟨rfl, rfl⟩ | ⟨rfl, rfl⟩ | ⟨rfl, rfl⟩ | ⟨rfl, rfl⟩ |
      ⟨rfl, rfl⟩ <;> simp [Tok.emit]
  · intro cs h1 h2
    unfold Tok.atOrTag
    split
    · split <;> simp [Tok.emit]
    · simp [Tok.emit]
  · simp [Tok.emit]
  · simp [Tok.emit]
  · simp [Tok.emit]
  · simp [Tok.emit]
  · intro d ds h1 h2 _
    unfold Tok.heredocStart
    simp only
    split <;> simp [Tok.emit]
  · simp [Tok.emit]
  · intro cs h1 h2 _
    unfold Tok.rawString
    simp only
    split
    · split <;> simp [Tok.emit]
    · simp [Tok.emit]
  · simp [Tok.emit]
  · simp [Tok.emit]
  · intro c cs h1 h2 h3 _
    refine ⟨rfl, ?_⟩
    intro c r h
    exact dropWhile_head h
  · simp [Tok.emit]

theorem next_none_text {t : Tok} (h : t.heredoc = none) (hk : t.next.1.kind ≠ .eof) :
    t.next.1.text ≠ [] := by
  intro ht
  have hs := next_step t
  have hm := next_measure t hk
  have hl := hs.length
  rw [ht] at hl
  simp only [Tok.measure, h] at hm
  simp at hl hm
  omega

end Styx
