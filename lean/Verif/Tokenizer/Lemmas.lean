import Verif.Tokenizer.Model

/-! # Helper lemmas about the tokenizer model -/

namespace Styx

@[simp] theorem utf8Len_nil : utf8Len [] = 0 := rfl
@[simp] theorem utf8Len_cons (c : Char) (cs : List Char) :
    utf8Len (c :: cs) = c.utf8Size + utf8Len cs := rfl
@[simp] theorem utf8Len_append (a b : List Char) : utf8Len (a ++ b) = utf8Len a + utf8Len b := by
  induction a with
  | nil => simp
  | cons c cs ih => simp [ih, Nat.add_assoc]

theorem utf8Len_pos {s : List Char} (h : s ≠ []) : 0 < utf8Len s := by
  cases s with
  | nil => exact absurd rfl h
  | cons c cs => have := Char.utf8Size_pos c; simp only [utf8Len_cons]; omega

theorem utf8Len_eq_zero {s : List Char} : utf8Len s = 0 ↔ s = [] := by
  constructor
  · intro h
    cases s with
    | nil => rfl
    | cons c cs => have := Char.utf8Size_pos c; simp only [utf8Len_cons] at h; omega
  · rintro rfl; rfl

theorem length_le_utf8Len (s : List Char) : s.length ≤ utf8Len s := by
  induction s with
  | nil => simp
  | cons c cs ih => have := Char.utf8Size_pos c; simp only [utf8Len_cons, List.length_cons]; omega

theorem stripPrefix_some {p s r : List Char} : stripPrefix p s = some r ↔ s = p ++ r := by
  induction p generalizing s with
  | nil => simp [stripPrefix, eq_comm]
  | cons a p ih =>
    cases s with
    | nil => simp [stripPrefix]
    | cons c cs =>
      simp only [stripPrefix, List.cons_append, List.cons.injEq]
      split
      · rename_i h; subst h; simp [ih]
      · rename_i h
        constructor
        · intro h'; cases h'
        · rintro ⟨rfl, _⟩; exact absurd rfl h

theorem stripPrefix_append (p r : List Char) : stripPrefix p (p ++ r) = some r :=
  stripPrefix_some.mpr rfl

theorem startsWith_iff {s p : List Char} : startsWith s p = true ↔ ∃ r, s = p ++ r := by
  simp only [startsWith, Option.isSome_iff_exists, stripPrefix_some]

theorem scanTagTail_append (s : List Char) : (scanTagTail s).1 ++ (scanTagTail s).2 = s := by
  induction s with
  | nil => rfl
  | cons c cs ih =>
    simp only [scanTagTail]
    split
    · rfl
    · split
      · simp [ih]
      · rfl

theorem scanTagSegment_append (s : List Char) :
    (scanTagSegment s).1 ++ (scanTagSegment s).2 = s := by
  cases s with
  | nil => rfl
  | cons c cs => simp [scanTagSegment, scanTagTail_append]

theorem scanTagSegment_length (c : Char) (cs : List Char) :
    (scanTagSegment (c :: cs)).2.length ≤ cs.length := by
  have h := congrArg List.length (scanTagTail_append cs)
  simp only [List.length_append] at h
  simp only [scanTagSegment]; omega

theorem scanTagChain_append (n : Nat) (s : List Char) :
    (scanTagChain n s).1 ++ (scanTagChain n s).2 = s := by
  fun_induction scanTagChain n s with
  | case1 => rfl
  | case2 n c cs h a b hab a' b' hab' ih =>
    simp only [hab'] at ih
    have h1 := scanTagSegment_append (c :: cs)
    simp only [hab] at h1
    simp [ih, h1]
  | case3 => rfl
  | case4 => rfl

/-- The chain loop has enough fuel: any fuel at least the length gives the same result. -/
theorem scanTagChain_fuel (n m : Nat) (s : List Char) (hn : s.length ≤ n) (hm : s.length ≤ m) :
    scanTagChain n s = scanTagChain m s := by
  induction n generalizing m s with
  | zero =>
    have : s = [] := List.length_eq_zero_iff.mp (by omega)
    subst this
    cases m <;> rfl
  | succ n ih =>
    cases m with
    | zero =>
      have : s = [] := List.length_eq_zero_iff.mp (by omega)
      subst this; rfl
    | succ m =>
      unfold scanTagChain
      split
      · simp_all
      · rename_i n' c cs hn'
        cases hn'
        split
        · have hl := scanTagSegment_length c cs
          simp only [List.length_cons] at hn hm
          have := ih m (scanTagSegment (c :: cs)).2 (by omega) (by omega)
          simp [this]
        · rfl
      · rfl

theorem scanQuoted_append (s : List Char) :
    (scanQuoted s).2.1 ++ (scanQuoted s).2.2 = s := by
  fun_induction scanQuoted s <;> simp_all

theorem scanRaw_append (n : Nat) (s : List Char) :
    (scanRaw n s).2.1 ++ (scanRaw n s).2.2 = s := by
  induction s with
  | nil => rfl
  | cons c cs ih =>
    simp only [scanRaw]
    split
    · simp
    · simp [ih]

theorem scanHeredoc_append (d s : List Char) :
    (scanHeredoc d s).1 ++ (scanHeredoc d s).2.1 = s := by
  induction s with
  | nil => rfl
  | cons c cs ih =>
    simp only [scanHeredoc]
    split
    · split <;> simp [ih]
    · simp [ih]

theorem scanLang_append (s : List Char) : (scanLang s).1 ++ (scanLang s).2 = s := by
  unfold scanLang
  split
  · split
    · split <;> simp
    · rfl
  · rfl

theorem scanNewlineOpt_append (s : List Char) :
    (scanNewlineOpt s).1 ++ (scanNewlineOpt s).2 = s := by
  unfold scanNewlineOpt; split <;> rfl

theorem findDelim_some {d s : List Char} {i : Nat} (h : findDelim d s = some i) :
    ∃ ind r, s = ind ++ d ++ r ∧ ind.length = i ∧ (∀ c ∈ ind, isBlank c = true) ∧
      (r = [] ∨ (∃ r', r = '\n' :: r') ∨ (∃ r', r = '\r' :: '\n' :: r')) := by
  unfold findDelim at h
  split at h
  · rename_i after hs
    rw [stripPrefix_some] at hs
    split at h
    · rename_i hc
      refine ⟨s.takeWhile isBlank, after, ?_, by simpa using h, ?_, ?_⟩
      · rw [List.append_assoc, ← hs, List.takeWhile_append_dropWhile]
      · intro c hc
        have := List.all_takeWhile (p := isBlank) (l := s)
        exact (List.all_eq_true.mp this) c hc
      · simpa [or_assoc, startsWith_iff] using hc
    · simp at h
  · simp at h

/-- What one call of `next` does to text and position. -/
structure Step (t : Tok) (tok : Token) (t' : Tok) : Prop where
  text : tok.text ++ t'.remaining = t.remaining
  start : tok.start = t.pos
  stop : tok.stop = t'.pos
  len : t'.pos = t.pos + utf8Len tok.text

theorem emit_step (t : Tok) (k : TokenKind) (a b : List Char) (h : Option HeredocState)
    (hab : a ++ b = t.remaining) : Step t (t.emit k a b h).1 (t.emit k a b h).2 :=
  ⟨hab, rfl, rfl, rfl⟩

theorem heredocContent_step (t : Tok) (h : HeredocState) :
    Step t (t.heredocContent h).1 (t.heredocContent h).2 := by
  unfold Tok.heredocContent
  split
  · apply emit_step; simp
  · have := scanHeredoc_append h.delimiter t.remaining
    split <;> rename_i heq <;> rw [heq] at this <;> exact emit_step _ _ _ _ _ this

theorem heredocStart_step (t : Tok) (cs : List Char) (ht : t.remaining = '<' :: '<' :: cs) :
    Step t (t.heredocStart cs).1 (t.heredocStart cs).2 := by
  unfold Tok.heredocStart
  simp only
  split
  · apply emit_step; simp [ht]
  · apply emit_step
    have h1 := scanLang_append (cs.dropWhile isDelimChar)
    have h2 := scanNewlineOpt_append (scanLang (cs.dropWhile isDelimChar)).2
    simp [ht, h1, h2]

theorem rawString_step (t : Tok) (cs : List Char) (ht : t.remaining = 'r' :: cs) :
    Step t (t.rawString cs).1 (t.rawString cs).2 := by
  unfold Tok.rawString
  simp only
  have hcs := List.takeWhile_append_dropWhile (p := (· == '#')) (l := cs)
  split
  · rename_i r2 hr
    have := scanRaw_append (satHash (cs.takeWhile (· == '#')).length) r2
    rw [hr] at hcs
    split <;> rename_i heq <;> rw [heq] at this <;> apply emit_step <;>
      (simp only at this; rw [ht]; simp [this, hcs])
  · apply emit_step; simp [ht]

theorem atOrTag_step (t : Tok) (cs : List Char) (ht : t.remaining = '@' :: cs) :
    Step t (t.atOrTag cs).1 (t.atOrTag cs).2 := by
  unfold Tok.atOrTag
  split
  · rename_i c cs'
    split
    · apply emit_step
      have h1 := scanTagSegment_append (c :: cs')
      have h2 := scanTagChain_append (scanTagSegment (c :: cs')).2.length
        (scanTagSegment (c :: cs')).2
      simp only [scanTagSegment] at h1 h2
      rw [List.cons_append, List.cons_append, List.append_assoc, h2, h1, ht]
    · apply emit_step; simp [ht]
  · apply emit_step; simp [ht]

theorem bareScalar_step (t : Tok) : Step t t.bareScalar.1 t.bareScalar.2 := by
  apply emit_step; simp

theorem ite_ind {α : Sort _} {c : Prop} [Decidable c] {a b : α} (P : α → Prop)
    (h1 : c → P a) (h2 : ¬c → P b) : P (if c then a else b) := by
  split
  · exact h1 ‹_›
  · exact h2 ‹_›

theorem next_step (t : Tok) : Step t t.next.1 t.next.2 := by
  unfold Tok.next
  split
  · exact heredocContent_step _ _
  · split
    · rename_i h; exact emit_step _ _ _ _ _ (by simp [h])
    · rename_i c cs hr
      iterate 6 (
        refine ite_ind (fun x : Token × Tok => Step t x.1 x.2) ?_ (fun _ => ?_)
        · intro _; apply emit_step; simp [hr])
      refine ite_ind (fun x : Token × Tok => Step t x.1 x.2) ?_ (fun _ => ?_)
      · intro _; apply atOrTag_step; simp_all
      refine ite_ind (fun x : Token × Tok => Step t x.1 x.2) ?_ (fun _ => ?_)
      · intro _
        have := scanQuoted_append cs
        split <;> rename_i heq <;> rw [heq] at this <;> apply emit_step <;> simp_all
      refine ite_ind (fun x : Token × Tok => Step t x.1 x.2) ?_ (fun _ => ?_)
      · intro _
        split
        · apply emit_step; simp_all
        · apply emit_step; simp_all
        · exact bareScalar_step t
      refine ite_ind (fun x : Token × Tok => Step t x.1 x.2) ?_ (fun _ => ?_)
      · intro h
        cases cs with
        | nil => simp at h
        | cons d ds =>
          split
          · split
            · apply heredocStart_step; simp_all
            · apply emit_step; simp_all
          · apply emit_step; simp_all
      refine ite_ind (fun x : Token × Tok => Step t x.1 x.2) ?_ (fun _ => ?_)
      · intro _; apply rawString_step; simp_all
      refine ite_ind (fun x : Token × Tok => Step t x.1 x.2) ?_ (fun _ => ?_)
      · intro _; apply emit_step; simp
      refine ite_ind (fun x : Token × Tok => Step t x.1 x.2) ?_ (fun _ => ?_)
      · intro _; apply emit_step; simp_all
      refine ite_ind (fun x : Token × Tok => Step t x.1 x.2) ?_ (fun _ => ?_)
      · intro h
        apply emit_step
        cases cs <;> simp_all
      refine ite_ind (fun x : Token × Tok => Step t x.1 x.2) ?_ (fun _ => ?_)
      · intro _; exact bareScalar_step t
      · apply emit_step; simp_all

end Styx
