import Verif.Editor.MonacoStep

/-!
# What words, tags and strings paint
-/

namespace Styx.Monaco

open Styx.Spec

/-- What stands behind a word ends it. -/
theorem word_follows {t : List Char} (h : Follows .word t) : line t = [] ∨
    ∃ c u, line t = c :: u ∧ c ∈ [' ', '\t', '\r', ',', '}', ')'] := by
  rcases h with rfl | ⟨c, r, rfl, hc⟩
  · exact .inl rfl
  · by_cases hn : c = '\n'
    · subst hn; exact .inl (by simp [line])
    · refine .inr ⟨c, line r, line_cons hn r, ?_⟩
      simp only [List.mem_cons, List.not_mem_nil, or_false] at hc ⊢
      rcases hc with h | h | h | h | h | h | h
      all_goals first
        | exact absurd h hn
        | simp [h]

/-- A bare word. -/
theorem mid_bare {s : List Char} (hs : BareText s) (hp : PlainText s) {t : List Char} (ht : Follows .word t) (st : St) :
    mid st (s ++ t) = ink (wordColour (isKey st)) s ++ mid (afterAtom st) t := by
  obtain ⟨ha, c, r, rfl, hc, hsl, hra, hhe⟩ := hs
  have hall : ∀ x ∈ c :: r, bareCont x = true := by
    intro x hx
    have h1 := ha x hx
    have h2 : space x = false := by
      cases h : space x with
      | false => rfl
      | true => have := space_white h (hp x hx).2.2.2; rw [h1.2] at this; cases this
    have h3 := h1.1
    simp only [bareForbidden, List.mem_cons, List.not_mem_nil, or_false, not_or] at h3
    simp [bareCont, h2, h3]
  have hnl : '\n' ∉ c :: r := fun h => by have := (ha _ h).2; simp [isWhitespace] at this
  refine mid_one hnl (by simp) t ?_
  have hc1 := (ha c (by simp)).1
  simp only [bareForbidden, List.mem_cons, List.not_mem_nil, or_false, not_or] at hc1 hc
  have hbl : blank c = false := by
    cases h : blank c with
    | false => rfl
    | true =>
      have hw := (ha c (by simp)).2
      rcases (blank_iff c).1 h with rfl | rfl <;> simp [isWhitespace] at hw
  have h12 : ['/', '/'].isPrefixOf (c :: (r ++ line t)) = false := by
    cases h : ['/', '/'].isPrefixOf (c :: (r ++ line t)) with
    | false => rfl
    | true =>
      exfalso
      cases r with
      | nil =>
        rcases word_follows ht with hl | ⟨x, u, hl, hx⟩
        · rw [hl] at h; simp [List.isPrefixOf] at h
        · rw [hl] at h
          simp [List.isPrefixOf] at h
          rw [← h.2] at hx
          simp at hx
      | cons x r =>
        simp [List.isPrefixOf] at h
        exact hsl ⟨h.1.symm, by simp [← h.2]⟩
  have h123 : ['/', '/', '/'].isPrefixOf (c :: (r ++ line t)) = false := by
    cases h : ['/', '/', '/'].isPrefixOf (c :: (r ++ line t)) with
    | false => rfl
    | true =>
      exfalso
      have : ['/', '/'].isPrefixOf (c :: (r ++ line t)) = true := by
        rw [List.isPrefixOf_iff_prefix] at h ⊢
        exact List.IsPrefix.trans ⟨['/'], rfl⟩ h
      rw [h12] at this; cases this
  have hher : heredocStart (c :: (r ++ line t)) = none := by
    unfold heredocStart
    split
    · rename_i heq
      exfalso
      simp only [List.cons.injEq] at heq
      obtain ⟨rfl, heq⟩ := heq
      cases r with
      | nil =>
        rcases word_follows ht with hl | ⟨x, u, hl, hx⟩
        · rw [hl] at heq; simp at heq
        · rw [hl] at heq
          simp only [List.nil_append, List.cons.injEq] at heq
          rw [heq.1] at hx
          simp at hx
      | cons x r =>
        simp only [List.cons_append, List.cons.injEq] at heq
        exact hhe ⟨rfl, by simp [heq.1]⟩
    · rfl
  have hraw : rawStart (c :: (r ++ line t)) = none := by
    unfold rawStart
    split
    · rename_i cs heq
      simp only [List.cons.injEq] at heq
      obtain ⟨rfl, rfl⟩ := heq
      have : (r ++ line t).takeWhile (· == '#') = [] := by
        cases r with
        | nil =>
          rcases word_follows ht with hl | ⟨x, u, hl, hx⟩
          · rw [hl]; rfl
          · rw [hl]
            have : x ≠ '#' := by rintro rfl; simp at hx
            simp [this]
        | cons x r =>
          have : x ≠ '#' := by rintro rfl; exact hra ⟨rfl, rfl⟩
          simp [this]
      simp [this]
    · rfl
  have hbf : bareFirst c = true := by
    have := hall c (by simp)
    simp [bareFirst, this, hc]
  have htw : (r ++ line t).takeWhile bareCont = r := by
    refine takeWhile_all (fun x hx => hall x (by simp [hx])) ?_
    intro x u hx
    rcases word_follows ht with hl | ⟨y, v, hl, hy⟩
    · rw [hl] at hx; cases hx
    · rw [hl] at hx
      simp only [List.cons.injEq] at hx
      rw [hx.1] at hy
      simp only [List.mem_cons, List.not_mem_nil, or_false] at hy
      rcases hy with rfl | rfl | rfl | rfl | rfl | rfl <;> decide
  simp only [List.cons_append, step, hbl, h12, h123, hher, hraw, hc1, hc, hbf, htw, if_true, if_false, Bool.false_eq_true,
    atomType_word, List.length_cons]
  simp [Nat.add_comm]

/-- The unit. -/
theorem mid_unit {t : List Char} (ht : Follows .word t) (st : St) :
    mid st ('@' :: t) = ink (tagColour (isKey st)) ['@'] ++ mid (afterAtom st) t := by
  refine mid_one (w := ['@']) (by simp) (by simp) t ?_
  have h : (line t).head?.any tagStart = false := by
    rcases word_follows ht with hl | ⟨y, v, hl, hy⟩
    · rw [hl]; rfl
    · rw [hl]
      simp only [List.mem_cons, List.not_mem_nil, or_false] at hy
      rcases hy with rfl | rfl | rfl | rfl | rfl | rfl <;> rfl
  simp [step, blank, heredocStart, rawStart, h, atomType_tag, List.isPrefixOf]

theorem tagName_chars {n : List Char} (h : TagName n) :
    n.head?.any tagStart = true ∧ (∀ c ∈ n, tagChar c = true) ∧ n ≠ [] ∧ '\n' ∉ n := by
  obtain ⟨c, r, rfl, hc, hr⟩ := h
  have hall : ∀ x ∈ c :: r, tagChar x = true := by
    intro x hx
    rcases List.mem_cons.1 hx with rfl | hx
    · have := (tagStart_iff x).2 hc
      simp [tagChar, this]
    · exact (tagChar_iff x).2 (hr x hx)
  refine ⟨by simp [(tagStart_iff c).2 hc], hall, by simp, fun h => ?_⟩
  have := hall _ h
  revert this; decide

/-- A tag; its payload, if any, is painted by what follows. -/
theorem mid_tag {n : List Char} (hn : TagName n) {t : List Char}
    (ht : Follows .word t ∨ ∃ c r, t = c :: r ∧ (c = '(' ∨ c = '{' ∨ c = '"')) (st : St) :
    mid st ('@' :: n ++ t) = ink (tagColour (isKey st)) ('@' :: n) ++
      mid (if t.head? = some '{' ∨ t.head? = some '(' ∨ t.head? = some '"' then st else afterAtom st) t := by
  obtain ⟨h1, h2, h3, h4⟩ := tagName_chars hn
  refine mid_one (w := '@' :: n) (by simp [h4]) (by simp) t ?_
  have hl : line t = [] ∧ ¬ (t.head? = some '{' ∨ t.head? = some '(' ∨ t.head? = some '"') ∨
      ∃ c u, line t = c :: u ∧ t.head? = some c ∧ c ∈ [' ', '\t', '\r', ',', '}', ')', '(', '{', '"'] := by
    rcases ht with (rfl | ⟨c, r, rfl, hc⟩) | ⟨c, r, rfl, hc⟩
    · exact .inl ⟨rfl, by simp⟩
    · by_cases hcn : c = '\n'
      · subst hcn; exact .inl ⟨by simp [line], by simp⟩
      · refine .inr ⟨c, line r, line_cons hcn r, rfl, ?_⟩
        simp only [List.mem_cons, List.not_mem_nil, or_false] at hc ⊢
        rcases hc with h | h | h | h | h | h | h
        all_goals first
          | exact absurd h hcn
          | simp [h]
    · have hcn : c ≠ '\n' := by rcases hc with rfl | rfl | rfl <;> decide
      refine .inr ⟨c, line r, line_cons hcn r, rfl, ?_⟩
      rcases hc with rfl | rfl | rfl <;> simp
  have hstop : ∀ x u, line t = x :: u → tagChar x = false := by
    intro x u hx
    rcases hl with ⟨hl, _⟩ | ⟨y, v, hl, _, hy⟩
    · rw [hl] at hx; cases hx
    · rw [hl] at hx
      simp only [List.cons.injEq] at hx
      rw [hx.1] at hy
      simp only [List.mem_cons, List.not_mem_nil, or_false] at hy
      rcases hy with rfl | rfl | rfl | rfl | rfl | rfl | rfl | rfl | rfl <;> decide
  have htk := takeWhile_all h2 hstop
  have hdr := dropWhile_all h2 hstop
  have hany : (n ++ line t).head?.any tagStart = true := by
    cases n with
    | nil => exact absurd rfl h3
    | cons x n => simpa using h1
  have hpay : ((line t).head? = some '{' ∨ (line t).head? = some '(' ∨ (line t).head? = some '"' ∨
      (rawStart (line t)).isSome ∨ ((line t).take 2 = ['<', '<'] ∧ ((line t).drop 2).head?.any upper)) ↔
      (t.head? = some '{' ∨ t.head? = some '(' ∨ t.head? = some '"') := by
    rcases hl with ⟨hl, hno⟩ | ⟨y, v, hl, hth, hy⟩
    · rw [hl]; simp [rawStart]; simpa using hno
    · rw [hl, hth]
      simp only [List.mem_cons, List.not_mem_nil, or_false] at hy
      rcases hy with rfl | rfl | rfl | rfl | rfl | rfl | rfl | rfl | rfl <;> simp [rawStart]
  have h5 : heredocStart ('@' :: (n ++ line t)) = none := by simp [heredocStart]
  have h6 : rawStart ('@' :: (n ++ line t)) = none := by simp [rawStart]
  have hst : step st ('@' :: (n ++ line t)) = tagStep st n (line t) := by
    simp only [step, h5, h6, hany, htk, hdr]
    simp [blank, List.isPrefixOf]
  rw [List.cons_append, hst]
  simp only [tagStep, atomType_tag, List.length_cons, Nat.add_comm 1]
  congr 1
  simp only [hpay]

/-! ## Quoted strings -/

theorem colourAt_cons (k : Nat) (s : Scope) (us : List Token) (i : Nat) :
    colourAt ((k, s) :: us) i = (colourAt us i).or (if k ≤ i then some s else none) := by
  simp only [colourAt, List.filter_cons]
  by_cases h : k ≤ i
  · simp only [h, decide_true, if_true, List.getLast?_cons]
    generalize (us.filter fun t => decide (t.1 ≤ i)).getLast? = x
    cases x <;> simp
  · simp [h]

theorem colourAt_nil (i : Nat) : colourAt [] i = none := rfl

theorem paint_congr {ts us : List Token} {w : List Char} (h : ∀ i, colourAt ts i = colourAt us i) : paint ts w = paint us w := by
  have : colourAt ts = colourAt us := funext h
  simp only [paint, this]

/-- A second token of the same colour changes nothing. -/
theorem paint_dup (s : Scope) (k : Nat) (us : List Token) (w : List Char) :
    paint ((0, s) :: (k, s) :: us) w = paint ((0, s) :: us) w := by
  apply paint_congr
  intro i
  simp only [colourAt_cons]
  cases colourAt us i with
  | some x => simp
  | none => by_cases hk : k ≤ i <;> simp [hk]

theorem quotedLoop_shift (scope : Scope) (k pos : Nat) (cs : List Char) :
    quotedLoop scope (k + pos) cs =
      (shift k (quotedLoop scope pos cs).1, (quotedLoop scope pos cs).2) := by
  fun_induction quotedLoop scope pos cs with
  | case1 pos => simp [quotedLoop, shift]
  | case2 pos cs => simp [quotedLoop, shift]
  | case3 pos x cs ts r hq ih =>
    rw [hq] at ih
    simp only [quotedLoop, ← Nat.add_assoc] at ih ⊢
    rw [ih]
    simp only [shift, List.map_cons, List.map_append]
    split <;> simp [Nat.add_assoc]
  | case4 pos c cs h1 h2 ih =>
    rw [quotedLoop.eq_4 _ _ _ _ h1 h2, Nat.add_assoc, ih]

/-- The loop in a closed string. -/
theorem quotedLoop_body {body : List Char} (hb : QuotedBody body) (s : Scope) (r : List Char) :
    ∃ ts, quotedLoop s 0 (body ++ '"' :: r) = (ts, r, true) ∧
      (body = [] → ∃ us, ts = (0, s) :: us) ∧
      paint ((0, s) :: ts) (body ++ ['"']) = inkBody s body ++ ink s ['"'] := by
  induction hb with
  | nil =>
    refine ⟨[(0, s)], by simp [quotedLoop], fun _ => ⟨_, rfl⟩, ?_⟩
    rw [paint_dup, paint_one]; rfl
  | @plain c cs h1 h2 _ ih =>
    obtain ⟨ts, hq, _, hp⟩ := ih
    refine ⟨shift 1 ts, ?_, by simp, ?_⟩
    · rw [List.cons_append, quotedLoop.eq_4 _ _ _ _ h1 (fun x y he => absurd he h2)]
      rw [show 0 + 1 = 1 + 0 from rfl, quotedLoop_shift, hq]
    · have h : paint ((0, s) :: shift 1 ts) (c :: (cs ++ ['"'])) =
          paint ([(0, s)] ++ shift [c].length ((0, s) :: ts)) ([c] ++ (cs ++ ['"'])) := by
        simp only [shift, List.map_cons, List.cons_append, List.nil_append, List.length_singleton]
        exact (paint_dup s 1 _ _).symm
      rw [List.cons_append, h, paint_append (fun _ => ⟨_, _, rfl⟩), hp, paint_one]
      rw [inkBody.eq_2 _ _ _ (fun x y he => absurd he h2)]
      rfl
  | @esc c cs hcs ih =>
    obtain ⟨ts, hq, hn, hp⟩ := ih
    refine ⟨(0, .stringEscape) :: ((if cs ++ '"' :: r ≠ [] ∧ (cs ++ '"' :: r).head? ≠ some '"' then [(2, s)] else []) ++
      shift 2 ts), ?_, by simp, ?_⟩
    · rw [List.cons_append, List.cons_append]
      simp only [quotedLoop]
      rw [show 0 + 2 = 2 + 0 from rfl, quotedLoop_shift, hq]
    · have h : paint ((0, s) :: (0, .stringEscape) ::
            ((if cs ++ '"' :: r ≠ [] ∧ (cs ++ '"' :: r).head? ≠ some '"' then [(2, s)] else []) ++ shift 2 ts))
            ('\\' :: c :: (cs ++ ['"'])) =
          paint ([(0, s), (0, .stringEscape)] ++ shift ['\\', c].length ((0, s) :: ts)) (['\\', c] ++ (cs ++ ['"'])) := by
        simp only [shift, List.map_cons, List.cons_append, List.nil_append, List.length_cons, List.length_nil]
        split
        · rfl
        · rename_i hh
          have hnil : cs = [] := by
            cases hcs with
            | nil => rfl
            | plain h1 _ _ => exact absurd ⟨by simp, by simpa using h1⟩ hh
            | esc _ => exact absurd ⟨by simp, by simp⟩ hh
          obtain ⟨us, rfl⟩ := hn hnil
          apply paint_congr
          intro i
          simp only [List.nil_append, List.map_cons, colourAt_cons]
          cases colourAt (us.map fun t => (2 + t.1, t.2)) i with
          | some x => simp
          | none => by_cases hk : 2 ≤ i <;> simp [hk]
      rw [List.cons_append, List.cons_append, h, paint_append (fun _ => ⟨_, _, rfl⟩), hp]
      simp only [inkBody, List.cons_append]
      simp [paint, colourAt]

/-- A quoted string on one line. -/
theorem mid_quoted {body : List Char} (hb : QuotedBody body) (hn : '\n' ∉ body) (t : List Char) (st : St) :
    mid st ('"' :: body ++ '"' :: t) =
      ink (stringColour (isKey st)) ['"'] ++ inkBody (stringColour (isKey st)) body ++ ink (stringColour (isKey st)) ['"'] ++
        mid (afterAtom st) t := by
  obtain ⟨ts, hq, _, hp⟩ := quotedLoop_body hb (stringColour (isKey st)) (line t)
  have hq1 : quotedLoop (stringScope (isKey st)) 1 (body ++ '"' :: line t) = (shift 1 ts, line t, true) := by
    rw [show (1 : Nat) = 1 + 0 from rfl, quotedLoop_shift]
    show (shift 1 (quotedLoop (stringColour (isKey st)) 0 _).1, (quotedLoop (stringColour (isKey st)) 0 _).2) = _
    rw [hq]
  have hstep : step st ('"' :: body ++ ['"'] ++ line t) =
      ⟨(0, stringColour (isKey st)) :: shift 1 ts, ('"' :: body ++ ['"']).length, afterAtom st, false⟩ := by
    have h1 : step st ('"' :: (body ++ '"' :: line t)) = quotedStep st (body ++ '"' :: line t) := by
      simp [step, blank, List.isPrefixOf, heredocStart, rawStart]
    rw [show '"' :: body ++ ['"'] ++ line t = '"' :: (body ++ '"' :: line t) by simp, h1]
    simp only [quotedStep, hq1, if_true]
    have h2 : ¬ (line t = [] ∧ ('"' :: (body ++ '"' :: line t)).getLast? ≠ some '"') := by
      rintro ⟨h, h'⟩
      rw [h] at h'
      exact h' (by simp [List.getLast?_cons])
    rw [if_neg h2]
    simp only [stringScope, stringColour, Step.mk.injEq, true_and, and_true]
    simp
    omega
  have hm := mid_step (st := st) (w := '"' :: body ++ ['"']) (by simp [hn]) (by simp) t (by rw [hstep]) (by rw [hstep])
  rw [show '"' :: body ++ '"' :: t = ('"' :: body ++ ['"']) ++ t by simp, hm, hstep]
  congr 1
  have h : paint ((0, stringColour (isKey st)) :: shift 1 ts) ('"' :: (body ++ ['"'])) =
      paint ([(0, stringColour (isKey st))] ++ shift ['"'].length ((0, stringColour (isKey st)) :: ts))
        (['"'] ++ (body ++ ['"'])) := by
    simp only [shift, List.map_cons, List.cons_append, List.nil_append, List.length_singleton]
    exact (paint_dup _ 1 _ _).symm
  show paint ((0, stringColour (isKey st)) :: shift 1 ts) ('"' :: (body ++ ['"'])) = _
  rw [h, paint_append (fun _ => ⟨_, _, rfl⟩), hp, paint_one]
  simp [List.append_assoc]

end Styx.Monaco
