import Verif.Parse.LexLemmas

/-!
# Positions and causes of escape errors
-/

namespace Styx

open Spec

theorem utf8_backslash : '\\'.utf8Size = 1 := rfl
theorem utf8_u : 'u'.utf8Size = 1 := rfl
theorem utf8_lbrace : '{'.utf8Size = 1 := rfl

theorem takeBytes_prefix {n : Nat} {s r : List Char} (h : takeBytes n s = some r) :
    ∃ t, s = r ++ t := by
  induction s generalizing n r with
  | nil =>
    cases n with
    | zero => simp only [takeBytes, Option.some.injEq] at h; subst h; exact ⟨[], rfl⟩
    | succ n => cases h
  | cons c cs ih =>
    cases n with
    | zero => simp only [takeBytes, Option.some.injEq] at h; subst h; exact ⟨_, rfl⟩
    | succ n =>
      simp only [takeBytes] at h
      split at h
      · cases h2 : takeBytes (n + 1 - c.utf8Size) cs with
        | none => rw [h2] at h; cases h
        | some q =>
          rw [h2] at h
          simp only [Option.map_some, Option.some.injEq] at h
          obtain ⟨t, ht⟩ := ih h2
          exact ⟨t, by rw [← h, ht]; rfl⟩
      · cases h

/-- Text read since the backslash (reversed) and the offset of that backslash. -/
def ValMode.open : ValMode → Nat → Nat × List Char
  | .normal, i => (i, [])
  | .esc st, _ => (st, ['\\'])
  | .afterU st, _ => (st, ['u', '\\'])
  | .braced st seen _, _ => (st, seen)
  | .four st seen _, _ => (st, seen)

theorem bracedErr_bad {st off : Nat} {seen seq : List Char} (h : bracedErr st seen = .bad off seq) :
    off = st ∧ ∃ t, seen = seq ++ t := by
  unfold bracedErr at h
  split at h
  · rename_i r hr
    cases h
    exact ⟨rfl, takeBytes_prefix hr⟩
  · cases h

/-- The machine is in mode `m` at byte `i` of `full`, before `rest`. -/
def ValInv (full : List Char) (m : ValMode) (i : Nat) (rest : List Char) : Prop :=
  ∃ pre, (m.open i).1 = utf8Len pre ∧ i = utf8Len pre + utf8Len (m.open i).2.reverse ∧
    full = pre ++ (m.open i).2.reverse ++ rest

/-- The text `seq` occurs in `full` at byte `off`. -/
def OccursAt (full seq : List Char) (off : Nat) : Prop := ∃ a b, full = a ++ seq ++ b ∧ off = utf8Len a

section
variable {full cs seen : List Char} {m : ValMode} {i st n : Nat} {c : Char} {v w : Bool}

theorem ValInv.done (h : ValInv full m i (c :: cs)) : ValInv full .normal (i + c.utf8Size) cs := by
  obtain ⟨pre, h1, h2, h3⟩ := h
  exact ⟨pre ++ (m.open i).2.reverse ++ [c], by simp [ValMode.open] at *; omega,
    by simp [ValMode.open] at *; omega, by simp [ValMode.open, h3]⟩

theorem ValInv.new (h : ValInv full m i (c :: cs)) (hc : c = '\\') :
    ValInv full (.esc i) (i + c.utf8Size) cs := by
  subst hc
  obtain ⟨pre, h1, h2, h3⟩ := h
  exact ⟨pre ++ (m.open i).2.reverse, by simp [ValMode.open] at *; omega,
    by simp [ValMode.open] at *; omega, by simp [ValMode.open, h3]⟩

theorem ValInv.u (h : ValInv full (.esc st) i (c :: cs)) (hc : c = 'u') :
    ValInv full (.afterU st) (i + c.utf8Size) cs := by
  subst hc
  obtain ⟨pre, h1, h2, h3⟩ := h
  exact ⟨pre, h1, by simp [ValMode.open] at *; omega, by simp [ValMode.open, h3]⟩

theorem ValInv.brace (h : ValInv full (.afterU st) i (c :: cs)) (hc : c = '{') :
    ValInv full (.braced st ['{', 'u', '\\'] v) (i + c.utf8Size) cs := by
  subst hc
  obtain ⟨pre, h1, h2, h3⟩ := h
  exact ⟨pre, h1, by simp [ValMode.open] at *; omega, by simp [ValMode.open, h3]⟩

theorem ValInv.hex (h : ValInv full (.afterU st) i (c :: cs)) :
    ValInv full (.four st [c, 'u', '\\'] n) (i + c.utf8Size) cs := by
  obtain ⟨pre, h1, h2, h3⟩ := h
  exact ⟨pre, h1, by simp [ValMode.open] at *; omega, by simp [ValMode.open, h3]⟩

theorem ValInv.inBrace (h : ValInv full (.braced st seen v) i (c :: cs)) :
    ValInv full (.braced st (c :: seen) w) (i + c.utf8Size) cs := by
  obtain ⟨pre, h1, h2, h3⟩ := h
  exact ⟨pre, h1, by simp [ValMode.open] at *; omega, by simp [ValMode.open, h3]⟩

theorem ValInv.inFour {k : Nat} (h : ValInv full (.four st seen n) i (c :: cs)) :
    ValInv full (.four st (c :: seen) k) (i + c.utf8Size) cs := by
  obtain ⟨pre, h1, h2, h3⟩ := h
  exact ⟨pre, h1, by simp [ValMode.open] at *; omega, by simp [ValMode.open, h3]⟩

theorem ValInv.here (h : ValInv full m i cs) : OccursAt full (m.open i).2.reverse (m.open i).1 := by
  obtain ⟨pre, h1, h2, h3⟩ := h
  exact ⟨pre, cs, h3, h1⟩

theorem ValInv.here1 (h : ValInv full m i (c :: cs)) :
    OccursAt full ((m.open i).2.reverse ++ [c]) (m.open i).1 := by
  obtain ⟨pre, h1, h2, h3⟩ := h
  exact ⟨pre, cs, by simp [h3], h1⟩

theorem bracedErr_occurs {off : Nat} {seq : List Char} (ho : OccursAt full seen st)
    (h : EscErr.bad off seq = bracedErr st seen) : OccursAt full seq off := by
  obtain ⟨rfl, t, rfl⟩ := bracedErr_bad h.symm
  obtain ⟨a, b, h1, h2⟩ := ho
  exact ⟨a, t ++ b, by simp [h1], h2⟩
end

/-- Every reported escape error quotes the text at the reported offset. -/
theorem validate_offsets {full : List Char} (m : ValMode) (i : Nat) (s : List Char) :
    ValInv full m i s →
    ∀ off seq, .bad off seq ∈ validateEscapesAux m i s → OccursAt full seq off := by
  fun_induction validateEscapesAux m i s <;> intro h off seq hm <;>
    try simp only [List.mem_cons, List.not_mem_nil, or_false, EscErr.bad.injEq] at hm
  case case2 st i => obtain ⟨rfl, rfl⟩ := hm; exact h.here
  case case3 st i => obtain ⟨rfl, rfl⟩ := hm; exact h.here
  case case4 st i seen => exact bracedErr_occurs h.here hm
  case case6 => obtain ⟨rfl, rfl⟩ := hm; exact h.here
  case case7 ih => exact ih (h.new rfl) off seq hm
  case case8 ih => exact ih h.done off seq hm
  case case9 ih => exact ih h.done off seq hm
  case case10 ih => exact ih (h.u rfl) off seq hm
  case case11 ih =>
    rcases hm with ⟨rfl, rfl⟩ | hm
    · exact h.here1
    · exact ih h.done off seq hm
  case case12 ih => exact ih (h.brace rfl) off seq hm
  case case13 ih => exact ih h.hex off seq hm
  case case14 ih =>
    rcases hm with ⟨rfl, rfl⟩ | hm
    · exact h.here
    · exact ih (h.new rfl) off seq hm
  case case15 ih =>
    rcases hm with ⟨rfl, rfl⟩ | hm
    · exact h.here
    · exact ih h.done off seq hm
  case case16 ih => exact ih h.done off seq hm
  case case17 ih =>
    rcases hm with hm | hm
    · refine bracedErr_occurs ?_ hm
      simpa [ValMode.open] using h.here1
    · exact ih h.done off seq hm
  case case18 ih => exact ih h.inBrace off seq hm
  case case19 ih => exact ih h.inFour off seq hm
  case case20 ih => exact ih (h.new rfl) off seq hm
  case case21 ih => exact ih h.done off seq hm
  case case22 ih =>
    rcases hm with ⟨rfl, rfl⟩ | hm
    · exact h.here
    · exact ih (h.new rfl) off seq hm
  case case23 ih =>
    rcases hm with ⟨rfl, rfl⟩ | hm
    · exact h.here
    · exact ih h.done off seq hm

theorem validateEscapes_offsets {text : List Char} {off : Nat} {seq : List Char}
    (h : .bad off seq ∈ validateEscapes text) : OccursAt text seq off :=
  validate_offsets .normal 0 text ⟨[], rfl, rfl, rfl⟩ off seq h

theorem OccursAt.isInfix {full seq : List Char} {off : Nat} (h : OccursAt full seq off) :
    seq <:+: full := by
  obtain ⟨a, b, h1, _⟩ := h; exact ⟨a, b, h1.symm⟩

theorem takeBytes_none {n : Nat} {s : List Char} (h : takeBytes n s = none) (hn : n ≤ utf8Len s) :
    ∃ w c b, s = w ++ c :: b ∧ utf8Len w < n ∧ n < utf8Len w + c.utf8Size := by
  induction s generalizing n with
  | nil =>
    simp only [utf8Len_nil, Nat.le_zero_eq] at hn
    subst hn; cases h
  | cons c cs ih =>
    cases n with
    | zero => cases h
    | succ n =>
      simp only [takeBytes] at h
      split at h
      · simp only [Option.map_eq_none_iff] at h
        simp only [utf8Len_cons] at hn
        obtain ⟨w, d, b, h1, h2, h3⟩ := ih h (by omega)
        have := c.utf8Size_pos
        exact ⟨c :: w, d, b, by rw [h1]; rfl, by simp only [utf8Len_cons]; omega, by simp only [utf8Len_cons]; omega⟩
      · exact ⟨[], c, cs, rfl, by simp, by simp only [utf8Len_nil]; omega⟩

/-- The text behind `\u{` that makes reporting a bad escape panic. -/
theorem bracedErr_panic {st : Nat} {x e : List Char} (h : .panic = bracedErr st ('\\' :: 'u' :: '{' :: x ++ e))
    (hx : '}' ∉ x) (he : e = [] ∨ e = ['}']) : ∃ w c b, x = w ++ c :: b ∧ '}' ∉ w ∧ utf8Len w < 9 ∧
      9 < utf8Len w + c.utf8Size := by
  unfold bracedErr at h
  split at h
  · cases h
  · rename_i hn
    obtain ⟨w, c, b, h1, h2, h3⟩ := takeBytes_none hn (Nat.min_le_left ..)
    have hc := c.utf8Size_le_four
    have hlt : 12 < utf8Len w + c.utf8Size := by
      rcases Nat.le_total (utf8Len ('\\' :: 'u' :: '{' :: x ++ e)) 12 with hle | hle
      · rw [Nat.min_eq_left hle, h1] at h3
        simp only [utf8Len_append, utf8Len_cons] at h3
        omega
      · rw [Nat.min_eq_right hle] at h3; exact h3
    have hlt' : utf8Len w < 12 := by omega
    match w, h1 with
    | [], _ => simp only [utf8Len_nil] at hlt; omega
    | [d], h1 =>
      cases h1
      simp only [utf8Len_cons, utf8Len_nil, utf8_backslash] at hlt; omega
    | [d, d'], h1 =>
      simp only [List.cons_append, List.nil_append, List.cons.injEq] at h1
      obtain ⟨rfl, rfl, _⟩ := h1
      simp only [utf8Len_cons, utf8Len_nil, utf8_backslash, utf8_u] at hlt; omega
    | d :: d' :: d'' :: w, h1 =>
      simp only [List.cons_append, List.cons.injEq] at h1
      obtain ⟨rfl, rfl, rfl, h1⟩ := h1
      simp only [utf8Len_cons, utf8_backslash, utf8_u, utf8_lbrace] at hlt hlt'
      have : ∃ b', x = w ++ c :: b' := by
        rcases he with rfl | rfl
        · exact ⟨b, by simpa using h1⟩
        · rcases List.eq_nil_or_concat b with rfl | ⟨b', y, rfl⟩
          · have := (List.append_inj' h1 rfl).2
            cases this
            have : '}'.utf8Size = 1 := rfl
            omega
          · rw [List.concat_eq_append, ← List.cons_append, ← List.append_assoc] at h1
            exact ⟨b', (List.append_inj' h1 rfl).1⟩
      obtain ⟨b', rfl⟩ := this
      exact ⟨w, c, b', rfl, fun hm => hx (by simp [hm]), by omega, by omega⟩

/-- A panic of the escape validation needs a unicode escape in which a character is cut. -/
theorem validate_panic {full : List Char} (m : ValMode) (i : Nat) (s : List Char) :
    ValInv full m i s →
    (∀ st seen v, m = .braced st seen v → ∃ x, seen.reverse = '\\' :: 'u' :: '{' :: x ∧ '}' ∉ x) →
    .panic ∈ validateEscapesAux m i s → CutEscape full := by
  fun_induction validateEscapesAux m i s <;> intro h hb hm <;>
    try simp only [List.mem_cons, List.not_mem_nil, or_false, reduceCtorEq, false_or] at hm
  case case4 st i seen =>
    obtain ⟨x, h1, h2⟩ := hb _ _ _ rfl
    obtain ⟨w, c, b, rfl, h3⟩ := bracedErr_panic (x := x) (e := []) (by simpa [h1] using hm) h2 (.inl rfl)
    obtain ⟨pre, _, _, h4⟩ := h
    exact ⟨pre, w, c, b, by rw [h4]; simp [ValMode.open, h1], h3⟩
  case case7 ih => exact ih (h.new rfl) (by simp) hm
  case case8 ih => exact ih h.done (by simp) hm
  case case9 ih => exact ih h.done (by simp) hm
  case case10 ih => exact ih (h.u rfl) (by simp) hm
  case case11 ih => exact ih h.done (by simp) hm
  case case12 ih =>
    exact ih (h.brace rfl) (by rintro _ _ _ ⟨⟩; exact ⟨[], rfl, by simp⟩) hm
  case case13 ih => exact ih h.hex (by simp) hm
  case case14 ih => exact ih (h.new rfl) (by simp) hm
  case case15 ih => exact ih h.done (by simp) hm
  case case16 ih => exact ih h.done (by simp) hm
  case case17 cs _ ih =>
    rcases hm with hm | hm
    · obtain ⟨x, h1, h2⟩ := hb _ _ _ rfl
      obtain ⟨w, c, b, rfl, h3⟩ := bracedErr_panic (x := x) (e := ['}']) (by simpa [h1] using hm) h2 (.inr rfl)
      obtain ⟨pre, _, _, h4⟩ := h
      exact ⟨pre, w, c, b ++ '}' :: cs, by rw [h4]; simp [ValMode.open, h1], h3⟩
    · exact ih h.done (by simp) hm
  case case18 hc ih =>
    refine ih h.inBrace ?_ hm
    rintro _ _ _ ⟨⟩
    obtain ⟨x, h1, h2⟩ := hb _ _ _ rfl
    exact ⟨x ++ [_], by simp [h1]; rfl, by simp [h2]; exact fun h => hc h.symm⟩
  case case19 ih => exact ih h.inFour (by simp) hm
  case case20 ih => exact ih (h.new rfl) (by simp) hm
  case case21 ih => exact ih h.done (by simp) hm
  case case22 ih => exact ih (h.new rfl) (by simp) hm
  case case23 ih => exact ih h.done (by simp) hm

theorem validateEscapes_panic {text : List Char} (h : .panic ∈ validateEscapes text) : CutEscape text :=
  validate_panic .normal 0 text ⟨[], rfl, rfl, rfl⟩ (by simp) h

theorem Spec.CutEscape.mono {s t : List Char} (h : CutEscape s) (hi : s <:+: t) : CutEscape t := by
  obtain ⟨a, w, c, b, rfl, h⟩ := h
  obtain ⟨x, y, rfl⟩ := hi
  exact ⟨x ++ a, w, c, b ++ y, by simp, h⟩

theorem Spec.CutEscape.u {s : List Char} (h : CutEscape s) : ['\\', 'u'] <:+: s := by
  obtain ⟨a, w, c, b, rfl, _⟩ := h
  exact ⟨a, '{' :: w ++ c :: b, by simp⟩

/-- A text without backslash has no escape errors. -/
theorem validateEscapes_plain {text : List Char} (h : '\\' ∉ text) : validateEscapes text = [] := by
  have : ∀ i, validateEscapesAux .normal i text = [] := by
    induction text with
    | nil => intro i; rfl
    | cons c cs ih =>
      intro i
      have hc : c ≠ '\\' := fun e => h (by simp [e])
      rw [validateEscapesAux, if_neg hc]
      exact ih (fun hm => h (by simp [hm])) _
  exact this 0

/-- A backslash in a decoded text comes from an escaped backslash or a unicode escape. -/
theorem escaped_backslash {raw v : List Char} (h : Escaped raw v) (hv : '\\' ∈ v) :
    ['\\', '\\'] <:+: raw ∨ ['\\', 'u'] <:+: raw := by
  induction h with
  | nil => cases hv
  | @plain c raw v hc _ ih =>
    rcases List.mem_cons.mp hv with h | h
    · exact absurd h.symm hc
    · rcases ih h with h | h
      · exact Or.inl (h.trans (List.suffix_cons _ _).isInfix)
      · exact Or.inr (h.trans (List.suffix_cons _ _).isInfix)
  | @simple e d raw v he _ ih =>
    rcases List.mem_cons.mp hv with h | h
    · simp only [List.mem_cons, Prod.mk.injEq, List.not_mem_nil, or_false] at he
      rcases he with ⟨rfl, rfl⟩ | ⟨rfl, rfl⟩ | ⟨rfl, rfl⟩ | ⟨rfl, rfl⟩ | ⟨rfl, rfl⟩ <;>
        first | exact Or.inl ⟨[], raw, rfl⟩ | exact absurd h (by decide)
    · rcases ih h with h | h
      · exact Or.inl (h.trans ⟨['\\', e], [], by simp⟩)
      · exact Or.inr (h.trans ⟨['\\', e], [], by simp⟩)
  | @four h c raw v _ _ _ ih => exact Or.inr ⟨[], h ++ raw, by simp⟩
  | @braced h c raw v _ _ _ ih => exact Or.inr ⟨[], '{' :: h ++ '}' :: raw, by simp⟩

/-- `\u` in a decoded text needs `\u` in the text. -/
theorem escaped_u {raw v : List Char} (h : Escaped raw v) (hv : ['\\', 'u'] <:+: v) :
    ['\\', 'u'] <:+: raw := by
  induction h with
  | nil => simp at hv
  | @plain c raw v hc _ ih =>
    obtain ⟨a, b, hab⟩ := hv
    cases a with
    | nil => simp at hab; exact absurd hab.1.symm hc
    | cons x a =>
      simp at hab
      exact (ih ⟨a, b, by simpa using hab.2⟩).trans (List.suffix_cons _ _).isInfix
  | @simple e d raw v he hr ih =>
    obtain ⟨a, b, hab⟩ := hv
    cases a with
    | nil =>
      simp at hab
      obtain ⟨rfl, hv⟩ := hab
      have : e = '\\' := by
        simp only [List.mem_cons, Prod.mk.injEq, List.not_mem_nil, or_false] at he
        rcases he with ⟨rfl, h⟩ | ⟨rfl, h⟩ | ⟨rfl, h⟩ | ⟨rfl, h⟩ | ⟨rfl, h⟩ <;> first | rfl | (revert h; decide)
      subst this
      -- the decoded rest starts with `u`
      cases hr with
      | nil => cases hv
      | @plain _ raw' _ hc hr => cases hv; exact ⟨['\\'], raw', by simp⟩
      | simple he' hr' =>
        cases hv
        simp at he'
      | @four h' _ raw' _ _ _ _ => exact ⟨['\\', '\\'], h' ++ raw', by simp⟩
      | @braced h' _ raw' _ _ _ _ => exact ⟨['\\', '\\'], '{' :: h' ++ '}' :: raw', by simp⟩
    | cons x a =>
      simp at hab
      exact (ih ⟨a, b, by simpa using hab.2⟩).trans ⟨['\\', e], [], by simp⟩
  | @four h c raw v _ _ _ ih => exact ⟨[], h ++ raw, by simp⟩
  | @braced h c raw v _ _ _ ih => exact ⟨[], '{' :: h ++ '}' :: raw, by simp⟩

end Styx
