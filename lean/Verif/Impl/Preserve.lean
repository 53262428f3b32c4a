import Verif.Impl.Terminate

/-! # What reading tokens keeps, the parsers of the other implementations keep -/

namespace Styx.Impl

/-- The run keeps `J`. -/
def Keeps {α : Type} (J : St → Prop) (p : P α) : Prop :=
  ∀ st, J st → match p st with
    | .ok _ st' => J st'
    | .fail _ st' => J st'
    | .fuel => True

section
variable {J : St → Prop}

theorem keeps_bind {α β : Type} {p : P α} {f : α → P β} (hp : Keeps J p) (hf : ∀ a, Keeps J (f a)) :
    Keeps J (p >>= f) := by
  intro st h
  have h1 := hp st h
  show match P.bind p f st with
    | .ok _ st' => J st'
    | .fail _ st' => J st'
    | .fuel => True
  unfold P.bind
  cases hp : p st with
  | fuel => trivial
  | fail e st' => rw [hp] at h1; exact h1
  | ok a st' => rw [hp] at h1; exact hf a st' h1

theorem keeps_pure {α : Type} (a : α) : Keeps J (pure a : P α) := fun _ h => h

theorem keeps_fail {α : Type} (e : Err) : Keeps J (fail e : P α) := fun _ h => h

theorem keeps_fuel {α : Type} : Keeps J (outOfFuel : P α) := fun _ _ => trivial

theorem keeps_cur : Keeps J cur := fun _ h => h

theorem keeps_checkErr : Keeps J checkErr := by
  intro st h
  unfold checkErr
  cases st.err <;> exact h

theorem keeps_drop (d : Dialect) {p : P Value} (hp : Keeps J p) : Keeps J (dropResult d p) := by
  intro st h
  have h1 := hp st h
  unfold dropResult
  cases hp : p st with
  | fuel => trivial
  | ok a s => rw [hp] at h1; exact h1
  | fail e s =>
    rw [hp] at h1
    by_cases hd : d = .go
    · simp only [hd, if_true]; exact h1
    · simp only [hd, if_false]; exact h1

theorem keeps_track (d : Dialect) (ps : Paths) (key : Option (List (List Char))) (kind : PathValueKind) :
    Keeps J (track d ps key kind) := by
  unfold track
  split
  · exact keeps_pure _
  · split
    · exact keeps_pure _
    · exact keeps_fail _

variable {d : Dialect} (ha : Keeps J (advance d)) (hp : Keeps J (peek d))

include ha in
theorem keeps_skipCommas (n : Nat) : Keeps J (skipCommas d n) := by
  induction n with
  | zero => exact keeps_fuel
  | succ n ih =>
    rw [skipCommas]
    refine keeps_bind keeps_cur fun t => ?_
    split
    · exact keeps_bind ha fun _ => ih
    · exact keeps_pure _

include ha in
theorem keeps_parseScalar : Keeps J (parseScalar d) := by
  unfold parseScalar
  refine keeps_bind keeps_cur fun t => ?_
  split
  all_goals first
    | exact keeps_bind ha fun _ => keeps_pure _
    | exact keeps_fail _

include ha hp in
theorem keeps_all (n : Nat) : Keeps J (parseValue d n) ∧ Keeps J (parseTag d n) ∧
    Keeps J (parseAttributeValue d n) ∧ (∀ k, Keeps J (parseAttrs d n k)) ∧ Keeps J (parseObject d n) ∧
    (∀ k, Keeps J (parseEntries d n k)) ∧ (∀ k, Keeps J (parseEntry d n k)) ∧ Keeps J (parseSequence d n) ∧
    Keeps J (parseItems d n) := by
  induction n with
  | zero =>
    refine ⟨?_, ?_, ?_, fun _ => ?_, ?_, fun _ => ?_, fun _ => ?_, ?_, ?_⟩
    all_goals exact keeps_fuel
  | succ n ih =>
    obtain ⟨i1, i2, i3, i4, i5, i6, i7, i8, i9⟩ := ih
    have hs := keeps_parseScalar ha
    refine ⟨?_, ?_, ?_, fun _ => ?_, ?_, fun _ => ?_, fun _ => ?_, ?_, ?_⟩
    · rw [parseValue]
      refine keeps_bind keeps_checkErr fun _ => keeps_bind keeps_cur fun t => ?_
      split
      · refine keeps_bind ha fun _ => keeps_bind keeps_cur fun _ => ?_
        split
        · exact keeps_pure _
        · exact keeps_fail _
      · exact i2
      · exact keeps_bind i5 fun _ => keeps_pure _
      · exact keeps_bind i8 fun _ => keeps_pure _
      · refine keeps_bind ha fun _ => keeps_bind keeps_cur fun _ => ?_
        split
        · cases d with
          | python =>
            refine keeps_bind hp fun _ => ?_
            split
            · exact keeps_pure _
            · exact keeps_bind ha fun _ => keeps_bind (i4 _) fun _ => keeps_pure _
          | javascript =>
            refine keeps_bind ha fun _ => keeps_bind keeps_cur fun _ => ?_
            split
            · exact keeps_fail _
            · exact keeps_bind (i4 _) fun _ => keeps_pure _
          | go =>
            refine keeps_bind ha fun _ => keeps_bind keeps_cur fun _ => ?_
            split
            · exact keeps_fail _
            · exact keeps_bind (i4 _) fun _ => keeps_pure _
        · exact keeps_pure _
      · exact keeps_bind hs fun _ => keeps_pure _
    · rw [parseTag]
      refine keeps_bind keeps_cur fun _ => keeps_bind ha fun _ => keeps_bind keeps_cur fun _ => ?_
      split
      · exact keeps_pure _
      · split
        · exact keeps_bind i5 fun _ => keeps_pure _
        · exact keeps_bind i8 fun _ => keeps_pure _
        · exact keeps_bind hs fun _ => keeps_pure _
        · exact keeps_bind hs fun _ => keeps_pure _
        · exact keeps_bind hs fun _ => keeps_pure _
        · exact keeps_bind ha fun _ => keeps_pure _
        · exact keeps_fail _
        · split
          · exact keeps_fail _
          · exact keeps_pure _
        · split
          · exact keeps_fail _
          · exact keeps_pure _
        · exact keeps_pure _
    · rw [parseAttributeValue]
      refine keeps_bind keeps_cur fun _ => ?_
      split
      · exact keeps_bind i5 fun _ => keeps_pure _
      · exact keeps_bind i8 fun _ => keeps_pure _
      · exact i2
      · exact keeps_bind ha fun _ => keeps_pure _
      · exact keeps_bind hs fun _ => keeps_pure _
    · rw [parseAttrs]
      refine keeps_bind i3 fun _ => keeps_bind keeps_cur fun _ => ?_
      split
      · refine keeps_bind hp fun _ => ?_
        split
        · refine keeps_bind ha fun _ => keeps_bind ha fun _ => keeps_bind keeps_cur fun _ => ?_
          split
          · exact keeps_fail _
          · exact keeps_bind (i4 _) fun _ => keeps_pure _
        · exact keeps_pure _
      · exact keeps_pure _
    · rw [parseObject]
      refine keeps_bind ha fun _ => keeps_bind (i6 _) fun _ => keeps_bind keeps_cur fun _ => ?_
      split
      · exact keeps_fail _
      · exact keeps_bind ha fun _ => keeps_pure _
    · rw [parseEntries]
      refine keeps_bind keeps_cur fun _ => ?_
      split
      · exact keeps_pure _
      · refine keeps_bind (i7 _) fun x => ?_
        obtain ⟨e, seen'⟩ := x
        refine keeps_bind keeps_cur fun _ => ?_
        split
        · exact keeps_bind ha fun _ => keeps_bind (i6 _) fun _ => keeps_pure _
        · exact keeps_bind (i6 _) fun _ => keeps_pure _
    · rw [parseEntry]
      refine keeps_bind (keeps_skipCommas ha n) fun _ => keeps_bind keeps_checkErr fun _ =>
        keeps_bind keeps_cur fun _ => ?_
      split
      · exact keeps_fail _
      split
      · exact keeps_pure _
      refine keeps_bind i1 fun _ => keeps_bind keeps_checkErr fun _ => keeps_bind keeps_cur fun _ => ?_
      split
      · split
        · exact keeps_pure _
        · exact keeps_bind (keeps_drop d i1) fun _ => keeps_pure _
      split
      · simp only
        split
        · exact keeps_fail _
        split
        · exact keeps_fail _
        · exact keeps_bind i1 fun _ => keeps_pure _
      · simp only
        split
        · exact keeps_fail _
        split
        · exact keeps_fail _
        split
        · exact keeps_pure _
        · exact keeps_bind i1 fun _ => keeps_pure _
    · rw [parseSequence]
      refine keeps_bind ha fun _ => keeps_bind i9 fun _ => keeps_bind keeps_cur fun _ => ?_
      split
      · exact keeps_fail _
      · exact keeps_bind ha fun _ => keeps_pure _
    · rw [parseItems]
      refine keeps_bind keeps_cur fun _ => ?_
      split
      · exact keeps_pure _
      split
      · exact keeps_fail _
      · exact keeps_bind i1 fun _ => keeps_bind i9 fun _ => keeps_pure _

include ha hp in
theorem keeps_parseRootEntry (n : Nat) (ps : Paths) : Keeps J (parseRootEntry d n ps) := by
  have i1 := (keeps_all ha hp n).1
  rw [parseRootEntry]
  refine keeps_bind (keeps_skipCommas ha n) fun _ => keeps_bind keeps_checkErr fun _ =>
    keeps_bind keeps_cur fun _ => ?_
  split
  · exact keeps_fail _
  split
  · exact keeps_pure _
  refine keeps_bind i1 fun _ => keeps_bind keeps_checkErr fun _ => keeps_bind keeps_cur fun _ => ?_
  split
  · split
    · exact keeps_pure _
    · exact keeps_bind (keeps_drop d i1) fun _ => keeps_pure _
  split
  · simp only
    split
    · exact keeps_fail _
    · exact keeps_bind i1 fun _ => keeps_bind (keeps_track _ _ _ _) fun _ => keeps_pure _
  split
  · exact keeps_fail _
  · simp only
    split
    · exact keeps_bind (keeps_track _ _ _ _) fun _ => keeps_pure _
    · exact keeps_bind i1 fun _ => keeps_bind (keeps_track _ _ _ _) fun _ => keeps_pure _

end

/-! ## The loop over the root entries -/

theorem ends_track (d : Dialect) (ps : Paths) (key : Option (List (List Char))) (kind : PathValueKind) {st : St}
    {b B : Nat} (hb : st.size ≤ b) (hB : st.size ≤ B) : Ends (track d ps key kind) st b B := by
  unfold track
  split
  · exact ends_pure hb
  · split
    · exact ends_pure hb
    · exact ends_fail hB

theorem root_rest (d : Dialect) (n : Nat) (st : St) (ps : Paths) (b B : Nat) (hn : 4 * st.size + 3 ≤ n + 1)
    (hb : st.size ≤ b + 1) (hB : st.size ≤ B) :
    Ends (do
      let key ← parseValue d n
      checkErr
      let c ← cur
      if isObject key then
        if c.nl || c.kind == .eof || c.kind == .rbrace || c.kind == .comma then pure (some (.mk unitValue key none), ps)
        else
          dropResult d (parseValue d n)
          pure (some (.mk unitValue key none), ps)
      else if ((bareText key).getD []).contains '.' then
        let segs := splitDots ((bareText key).getD [])
        if segs.contains [] then fail .invalidKey
        else
          let v ← parseValue d n
          let ps' ← track d ps (some segs) (valueKind v)
          pure (some (nestPath v segs), ps')
      else if !validKey key then fail .invalidKey
      else
        let path := (keyText d key).map fun k => [k]
        if endsKey c then
          let ps' ← track d ps path .terminal
          pure (some (.mk key unitValue none), ps')
        else
          let v ← parseValue d n
          let ps' ← track d ps path (valueKind v)
          pure (some (.mk key v none), ps')) st b B := by
  have ih := claims d n
  refine ends_bind (ih.value st (st.size - 1) B (by omega) (by omega) hB) fun key s1 _ h1 => ?_
  refine ends_bind (ends_checkErr (b := st.size - 1) h1 (by omega)) fun _ s1' h _ => ?_
  have := checkErr_ok h
  subst this
  apply ends_cur_bind
  split
  · split
    · exact ends_pure (by omega)
    · refine ends_bind (ends_mono (ends_drop d (ih.value s1' s1'.size s1'.size (by omega) (by omega)
        (Nat.le_refl _))) (b' := st.size - 1) (B' := B) (by omega) (by omega)) fun _ _ _ h => ends_pure (by omega)
  split
  · simp only
    split
    · exact ends_fail (by omega)
    · exact ends_bind (ih.value s1' (st.size - 1) B (by omega) (by omega) (by omega)) fun _ _ _ h =>
        ends_bind (ends_track (b := st.size - 1) _ _ _ _ h (by omega)) fun _ _ _ h => ends_pure (by omega)
  split
  · exact ends_fail (by omega)
  · simp only
    split
    · exact ends_bind (ends_track (b := st.size - 1) _ _ _ _ h1 (by omega)) fun _ _ _ h => ends_pure (by omega)
    · exact ends_bind (ih.value s1' (st.size - 1) B (by omega) (by omega) (by omega)) fun _ _ _ h =>
        ends_bind (ends_track (b := st.size - 1) _ _ _ _ h (by omega)) fun _ _ _ h => ends_pure (by omega)

/-- A root entry that does not begin with a closing brace is read in finitely many steps, and some of the text with it. -/
theorem ends_parseRootEntry (d : Dialect) (n : Nat) (st : St) (ps : Paths) (b B : Nat)
    (hn : 4 * st.size + 3 ≤ n + 1) (hk : st.cur.kind ≠ .eof) (hk' : st.cur.kind ≠ .rbrace)
    (hb : st.size ≤ b + 1) (hB : st.size ≤ B) : Ends (parseRootEntry d n ps) st b B := by
  rw [parseRootEntry]
  have h1 := one_le_size hk
  by_cases hc : st.cur.kind = .comma
  · refine ends_bind (ends_skipCommas_strict d n (b := st.size - 1) hc (by omega) (by omega) hB) fun _ s1 h2 h3 => ?_
    refine ends_bind (ends_checkErr (b := st.size - 1) h3 (by omega)) fun _ s1' h _ => ?_
    have := checkErr_ok h
    subst this
    apply ends_cur_bind
    split
    · exact ends_fail (by omega)
    split
    · exact ends_pure (by omega)
    · rename_i hcase
      have h4 := one_le_size (st := s1') (fun h => hcase (.inl h))
      exact root_rest d n s1' ps b B (by omega) (by omega) (by omega)
  · refine ends_bind (ends_skipCommas d n (b := st.size) (by omega) (Nat.le_refl _) hB) fun _ s1 h2 h3 => ?_
    have := (skipCommas_ok h2).2 hc
    subst this
    refine ends_bind (ends_checkErr (b := s1.size) h3 (by omega)) fun _ s1' h _ => ?_
    have := checkErr_ok h
    subst this
    apply ends_cur_bind
    split
    · exact ends_fail (by omega)
    rw [if_neg (by simp [hk, hk'])]
    exact root_rest d n s1' ps b B (by omega) hb hB

/-- No closing brace is to come. -/
def NoBrace (st : St) : Prop :=
  st.cur.kind ≠ .rbrace ∧ (∀ t ∈ st.peeked, t.kind ≠ .rbrace) ∧ '}' ∉ st.rest

theorem ends_parseRootEntries (d : Dialect) (ha : Keeps NoBrace (advance d)) (hp : Keeps NoBrace (peek d)) (n : Nat)
    (st : St) (ps : Paths) (b B : Nat) (hn : 4 * st.size + 4 ≤ n) (hj : NoBrace st) (hb : st.size ≤ b)
    (hB : st.size ≤ B) : Ends (parseRootEntries d n ps) st b B := by
  induction n generalizing st ps with
  | zero => omega
  | succ n ih =>
    rw [parseRootEntries]
    apply ends_cur_bind
    split
    · exact ends_pure hb
    · rename_i hk
      have h1 := one_le_size hk
      refine ends_bind (ends_checkErr (b := st.size) (Nat.le_refl _) hB) fun _ st' h _ => ?_
      have := checkErr_ok h
      subst this
      refine ends_bind (ends_parseRootEntry d n st' ps (st'.size - 1) B (by omega) hk hj.1 (by omega) hB)
        fun x s1 h2 h3 => ?_
      obtain ⟨e, ps'⟩ := x
      have hj' : NoBrace s1 := by
        have := keeps_parseRootEntry ha hp n ps st' hj
        rw [h2] at this
        exact this
      exact ends_bind (ih s1 ps' (by omega) hj' (by omega) (by omega)) fun _ _ _ h => ends_pure h

/-- With a closing brace at the root, the loop goes on forever. -/
theorem root_hangs (d : Dialect) (n : Nat) (st : St) (ps : Paths) (hk : st.cur.kind = .rbrace) (he : st.err = none) :
    parseRootEntries d n ps st = .fuel := by
  induction n generalizing ps with
  | zero => rfl
  | succ n ih =>
    have h1 : parseRootEntry d n ps st = .fuel ∨ parseRootEntry d n ps st = .ok (none, ps) st := by
      cases n with
      | zero => exact .inl rfl
      | succ m =>
        right
        have h2 : skipCommas d (m + 1) st = .ok () st := by
          rw [skipCommas, bind_cur, if_neg (by simp [hk])]
          rfl
        have h3 : checkErr st = .ok () st := by simp [checkErr, he]
        rw [parseRootEntry]
        show P.bind _ _ st = _
        rw [P.bind, h2]
        show P.bind _ _ st = _
        rw [P.bind, h3]
        show (cur >>= _) st = _
        rw [bind_cur, if_neg (by simp [hk]), if_pos (.inr hk)]
        rfl
    have h3 : checkErr st = .ok () st := by simp [checkErr, he]
    rw [parseRootEntries, bind_cur, if_neg (by simp [hk])]
    show P.bind _ _ st = _
    rw [P.bind, h3]
    show P.bind _ _ st = _
    rw [P.bind]
    rcases h1 with h | h
    · rw [h]
    · rw [h]
      show P.bind _ _ st = _
      rw [P.bind, ih]

end Styx.Impl
