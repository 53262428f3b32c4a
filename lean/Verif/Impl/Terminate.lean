import Verif.Impl.Total

/-! # The parsers of the other implementations end, except for the loop over the root entries -/

namespace Styx.Impl

theorem one_le_size {st : St} (h : st.cur.kind ≠ .eof) : 1 ≤ st.size := by
  have : st.cur.size = 1 := by simp [Tok.size, h]
  unfold St.size
  omega

theorem ends_drop (d : Dialect) {p : P Value} {st : St} {b : Nat} (h : Ends p st b b) :
    Ends (dropResult d p) st b b := by
  unfold Ends dropResult at *
  cases hp : p st with
  | fuel => rw [hp] at h; exact h
  | ok a s => rw [hp] at h; exact h
  | fail e s =>
    rw [hp] at h
    by_cases hd : d = .go
    · simp only [hd, if_true]; exact h
    · simp only [hd, if_false]; exact h

theorem ends_skipCommas_strict (d : Dialect) (n : Nat) {st : St} {b B : Nat} (hc : st.cur.kind = .comma)
    (hn : st.size < n) (hb : st.size ≤ b + 1) (hB : st.size ≤ B) : Ends (skipCommas d n) st b B := by
  cases n with
  | zero => omega
  | succ n =>
    have h1 := one_le_size (st := st) (by simp [hc])
    rw [skipCommas]
    apply ends_cur_bind
    rw [if_pos hc]
    exact ends_bind (ends_advance d (b := st.size - 1) (by simp [hc]) (by omega) hB) fun _ st' _ h =>
      ends_skipCommas d n (by omega) (by omega) (by omega)

/-- What holds of the functions with fuel `n`. -/
structure Claims (d : Dialect) (n : Nat) : Prop where
  value : ∀ (st : St) (b B : Nat), 4 * st.size + 2 ≤ n → st.size ≤ b + 1 → st.size ≤ B →
    Ends (parseValue d n) st b B
  tag : ∀ (st : St) (b B : Nat), st.cur.kind ≠ .eof → 4 * st.size + 1 ≤ n → st.size ≤ b + 1 → st.size ≤ B →
    Ends (parseTag d n) st b B
  object : ∀ (st : St) (b B : Nat), st.cur.kind ≠ .eof → 4 * st.size + 1 ≤ n → st.size ≤ b + 1 → st.size ≤ B →
    Ends (parseObject d n) st b B
  sequence : ∀ (st : St) (b B : Nat), st.cur.kind ≠ .eof → 4 * st.size + 1 ≤ n → st.size ≤ b + 1 → st.size ≤ B →
    Ends (parseSequence d n) st b B
  attributeValue : ∀ (st : St) (b B : Nat), 4 * st.size + 2 ≤ n → st.size ≤ b + 1 → st.size ≤ B →
    Ends (parseAttributeValue d n) st b B
  attrs : ∀ (st : St) (key : List Char) (b B : Nat), 4 * st.size + 3 ≤ n → st.size ≤ b + 1 → st.size ≤ B →
    Ends (parseAttrs d n key) st b B
  entries : ∀ (st : St) (seen : List (List Char)) (b B : Nat), 4 * st.size + 4 ≤ n → st.size ≤ b → st.size ≤ B →
    Ends (parseEntries d n seen) st b B
  entry : ∀ (st : St) (seen : List (List Char)) (b B : Nat), 4 * st.size + 3 ≤ n → st.cur.kind ≠ .eof →
    st.cur.kind ≠ .rbrace → st.size ≤ b + 1 → st.size ≤ B → Ends (parseEntry d n seen) st b B
  items : ∀ (st : St) (b B : Nat), 4 * st.size + 3 ≤ n → st.size ≤ b → st.size ≤ B →
    Ends (parseItems d n) st b B

theorem claims_zero (d : Dialect) : Claims d 0 where
  value := by intros; omega
  tag := by intros; omega
  object := by intros; omega
  sequence := by intros; omega
  attributeValue := by intros; omega
  attrs := by intros; omega
  entries := by intros; omega
  entry := by intros; omega
  items := by intros; omega

section
variable {d : Dialect} {n : Nat} (ih : Claims d n)
include ih

theorem value_succ (st : St) (b B : Nat) (hn : 4 * st.size + 2 ≤ n + 1) (hb : st.size ≤ b + 1)
    (hB : st.size ≤ B) : Ends (parseValue d (n + 1)) st b B := by
  rw [parseValue]
  refine ends_bind (ends_checkErr (b := st.size) (Nat.le_refl _) hB) fun _ st' h _ => ?_
  have := checkErr_ok h
  subst this
  apply ends_cur_bind
  split
  · rename_i hk
    have h1 := one_le_size (st := st') (by simp [hk])
    refine ends_bind (ends_advance d (b := st'.size - 1) (by simp [hk]) (by omega) hB) fun _ s1 _ h => ?_
    apply ends_cur_bind
    split
    · exact ends_pure (by omega)
    · exact ends_fail (by omega)
  · rename_i hk
    exact ih.tag _ _ _ (by simp [hk]) (by omega) hb hB
  · rename_i hk
    exact ends_bind (ih.object _ _ _ (by simp [hk]) (by omega) hb hB) fun _ _ _ h => ends_pure h
  · rename_i hk
    exact ends_bind (ih.sequence _ _ _ (by simp [hk]) (by omega) hb hB) fun _ _ _ h => ends_pure h
  · rename_i hk
    have h1 := one_le_size (st := st') (by simp [hk])
    refine ends_bind (ends_advance d (b := st'.size - 1) (by simp [hk]) (by omega) hB) fun _ s1 _ h2 => ?_
    apply ends_cur_bind
    split
    · rename_i hg
      have h3 := one_le_size (st := s1) (by simp [hg.1])
      cases d with
      | python =>
        refine ends_bind (ends_peek _ (b := st'.size - 1) h2 (by omega)) fun c s2 h4 h5 => ?_
        split
        · exact ends_pure (by omega)
        · have h6 := peek_cur h4
          refine ends_bind (ends_advance _ (b := st'.size - 2) (by simp [h6, hg.1]) (by omega) (by omega))
            fun _ s3 _ h7 => ?_
          exact ends_bind (ih.attrs _ _ b B (by omega) (by omega) (by omega)) fun _ _ _ h => ends_pure h
      | javascript =>
        refine ends_bind (ends_advance _ (b := st'.size - 2) (by simp [hg.1]) (by omega) (by omega))
          fun _ s3 _ h7 => ?_
        apply ends_cur_bind
        split
        · exact ends_fail (by omega)
        · exact ends_bind (ih.attrs _ _ b B (by omega) (by omega) (by omega)) fun _ _ _ h => ends_pure h
      | go =>
        refine ends_bind (ends_advance _ (b := st'.size - 2) (by simp [hg.1]) (by omega) (by omega))
          fun _ s3 _ h7 => ?_
        apply ends_cur_bind
        split
        · exact ends_fail (by omega)
        · exact ends_bind (ih.attrs _ _ b B (by omega) (by omega) (by omega)) fun _ _ _ h => ends_pure h
    · exact ends_pure (by omega)
  · exact ends_bind (ends_parseScalar d hb hB) fun _ _ _ h => ends_pure h

theorem tag_succ (st : St) (b B : Nat) (hk : st.cur.kind ≠ .eof) (hn : 4 * st.size + 1 ≤ n + 1)
    (hb : st.size ≤ b + 1) (hB : st.size ≤ B) : Ends (parseTag d (n + 1)) st b B := by
  rw [parseTag]
  apply ends_cur_bind
  have h1 := one_le_size hk
  refine ends_bind (ends_advance d (b := st.size - 1) hk (by omega) hB) fun _ s1 _ h2 => ?_
  apply ends_cur_bind
  split
  · exact ends_pure (by omega)
  · split
    · rename_i hk
      exact ends_bind (ih.object _ b B (by simp [hk]) (by omega) (by omega) (by omega)) fun _ _ _ h => ends_pure h
    · rename_i hk
      exact ends_bind (ih.sequence _ b B (by simp [hk]) (by omega) (by omega) (by omega)) fun _ _ _ h => ends_pure h
    · exact ends_bind (ends_parseScalar d (b := b) (by omega) (by omega)) fun _ _ _ h => ends_pure h
    · exact ends_bind (ends_parseScalar d (b := b) (by omega) (by omega)) fun _ _ _ h => ends_pure h
    · exact ends_bind (ends_parseScalar d (b := b) (by omega) (by omega)) fun _ _ _ h => ends_pure h
    · rename_i hk
      exact ends_bind (ends_advance d (b := b) (by simp [hk]) (by omega) (by omega)) fun _ _ _ h => ends_pure h
    · exact ends_fail (by omega)
    · split
      · exact ends_fail (by omega)
      · exact ends_pure (by omega)
    · split
      · exact ends_fail (by omega)
      · exact ends_pure (by omega)
    · exact ends_pure (by omega)

theorem attributeValue_succ (st : St) (b B : Nat) (hn : 4 * st.size + 2 ≤ n + 1) (hb : st.size ≤ b + 1)
    (hB : st.size ≤ B) : Ends (parseAttributeValue d (n + 1)) st b B := by
  rw [parseAttributeValue]
  apply ends_cur_bind
  split
  · rename_i hk
    exact ends_bind (ih.object _ _ _ (by simp [hk]) (by omega) hb hB) fun _ _ _ h => ends_pure h
  · rename_i hk
    exact ends_bind (ih.sequence _ _ _ (by simp [hk]) (by omega) hb hB) fun _ _ _ h => ends_pure h
  · rename_i hk
    exact ih.tag _ _ _ (by simp [hk]) (by omega) hb hB
  · rename_i hk
    exact ends_bind (ends_advance d (by simp [hk]) hb hB) fun _ _ _ h => ends_pure h
  · exact ends_bind (ends_parseScalar d hb hB) fun _ _ _ h => ends_pure h

theorem attrs_succ (st : St) (key : List Char) (b B : Nat) (hn : 4 * st.size + 3 ≤ n + 1) (hb : st.size ≤ b + 1)
    (hB : st.size ≤ B) : Ends (parseAttrs d (n + 1) key) st b B := by
  rw [parseAttrs]
  refine ends_bind (ih.attributeValue st (st.size - 1) B (by omega) (by omega) hB) fun v s1 _ h1 => ?_
  apply ends_cur_bind
  split
  · rename_i hs
    have h2 := one_le_size (st := s1) (by simp [hs.1])
    refine ends_bind (ends_peek d (b := st.size - 1) h1 (by omega)) fun g s2 h3 h4 => ?_
    split
    · rename_i hg
      have h5 := peek_cur h3
      have h6 := peek_peeked h3
      refine ends_bind (ends_advance d (b := st.size - 2) (by simp [h5, hs.1]) (by omega) (by omega))
        fun _ s3 h7 h8 => ?_
      have h9 : s3.cur = g := by
        unfold advance at h7
        rw [h6] at h7
        cases h7
        rfl
      have h10 := one_le_size (st := s3) (by simp [h9, hg.1])
      refine ends_bind (ends_advance d (b := st.size - 3) (by simp [h9, hg.1]) (by omega) (by omega))
        fun _ s4 _ h11 => ?_
      apply ends_cur_bind
      split
      · exact ends_fail (by omega)
      · exact ends_bind (ih.attrs _ _ b B (by omega) (by omega) (by omega)) fun _ _ _ h => ends_pure h
    · exact ends_pure (by omega)
  · by_cases h0 : st.size = 0
    · exact ends_pure (by omega)
    · exact ends_pure (by omega)

theorem object_succ (st : St) (b B : Nat) (hk : st.cur.kind ≠ .eof) (hn : 4 * st.size + 1 ≤ n + 1)
    (hb : st.size ≤ b + 1) (hB : st.size ≤ B) : Ends (parseObject d (n + 1)) st b B := by
  rw [parseObject]
  have h1 := one_le_size hk
  refine ends_bind (ends_advance d (b := st.size - 1) hk (by omega) hB) fun _ s1 _ h2 => ?_
  refine ends_bind (ih.entries s1 [] (st.size - 1) B (by omega) h2 (by omega)) fun es s2 _ h3 => ?_
  apply ends_cur_bind
  split
  · exact ends_fail (by omega)
  · rename_i hk
    exact ends_bind (ends_advance d (b := b) hk (by omega) (by omega)) fun _ _ _ h => ends_pure h

theorem sequence_succ (st : St) (b B : Nat) (hk : st.cur.kind ≠ .eof) (hn : 4 * st.size + 1 ≤ n + 1)
    (hb : st.size ≤ b + 1) (hB : st.size ≤ B) : Ends (parseSequence d (n + 1)) st b B := by
  rw [parseSequence]
  have h1 := one_le_size hk
  refine ends_bind (ends_advance d (b := st.size - 1) hk (by omega) hB) fun _ s1 _ h2 => ?_
  refine ends_bind (ih.items s1 (st.size - 1) B (by omega) h2 (by omega)) fun es s2 _ h3 => ?_
  apply ends_cur_bind
  split
  · exact ends_fail (by omega)
  · rename_i hk
    exact ends_bind (ends_advance d (b := b) hk (by omega) (by omega)) fun _ _ _ h => ends_pure h

theorem items_succ (st : St) (b B : Nat) (hn : 4 * st.size + 3 ≤ n + 1)
    (hb : st.size ≤ b) (hB : st.size ≤ B) : Ends (parseItems d (n + 1)) st b B := by
  rw [parseItems]
  apply ends_cur_bind
  split
  · exact ends_pure hb
  · rename_i hk
    have h1 := one_le_size (st := st) (fun h => hk (.inr h))
    split
    · exact ends_fail hB
    · refine ends_bind (ih.value st (st.size - 1) B (by omega) (by omega) hB) fun v s1 _ h2 => ?_
      exact ends_bind (ih.items s1 b B (by omega) (by omega) (by omega)) fun _ _ _ h => ends_pure h

theorem entries_succ (st : St) (seen : List (List Char)) (b B : Nat) (hn : 4 * st.size + 4 ≤ n + 1)
    (hb : st.size ≤ b) (hB : st.size ≤ B) : Ends (parseEntries d (n + 1) seen) st b B := by
  rw [parseEntries]
  apply ends_cur_bind
  split
  · exact ends_pure hb
  · rename_i hk
    have h1 := one_le_size (st := st) (fun h => hk (.inr h))
    refine ends_bind (ih.entry st seen (st.size - 1) B (by omega) (fun h => hk (.inr h)) (fun h => hk (.inl h))
      (by omega) hB) fun x s1 _ h2 => ?_
    obtain ⟨e, seen'⟩ := x
    apply ends_cur_bind
    split
    · rename_i hc
      refine ends_bind (ends_advance d (b := st.size - 1) (by simp [hc]) (by omega) (by omega)) fun _ s2 _ h3 => ?_
      exact ends_bind (ih.entries s2 _ b B (by omega) (by omega) (by omega)) fun _ _ _ h => ends_pure h
    · exact ends_bind (ih.entries s1 _ b B (by omega) (by omega) (by omega)) fun _ _ _ h => ends_pure h

theorem entry_rest (st : St) (seen : List (List Char)) (b B : Nat) (hn : 4 * st.size + 3 ≤ n + 1)
    (hb : st.size ≤ b + 1) (hB : st.size ≤ B) :
    Ends (do
      let key ← parseValue d n
      checkErr
      let c ← cur
      if isObject key then
        if c.nl || c.kind == .eof || c.kind == .rbrace || c.kind == .comma then pure (some (.mk unitValue key none), seen)
        else
          dropResult d (parseValue d n)
          pure (some (.mk unitValue key none), seen)
      else if d ≠ .go ∧ ((bareText key).getD []).contains '.' then
        let segs := splitDots ((bareText key).getD [])
        if segs.contains [] then fail .invalidKey
        else if seen.contains (segs.headD []) then fail .duplicateKey
        else
          let v ← parseValue d n
          pure (some (nestPath v segs), segs.headD [] :: seen)
      else
        let kt := keyText d key
        if (kt.map seen.contains).getD false then fail .duplicateKey
        else if !validKey key then fail .invalidKey
        else if endsKey c then pure (some (.mk key unitValue none), kt.toList ++ seen)
        else
          let v ← parseValue d n
          pure (some (.mk key v none), kt.toList ++ seen)) st b B := by
  refine ends_bind (ih.value st (st.size - 1) B (by omega) (by omega) hB) fun key s1 _ h1 => ?_
  refine ends_bind (ends_checkErr (b := st.size - 1) h1 (by omega)) fun _ s1' h _ => ?_
  have := checkErr_ok h
  subst this
  apply ends_cur_bind
  split
  · split
    · exact ends_pure (by omega)
    · refine ends_bind (ends_mono (ends_drop d (ih.value s1' s1'.size s1'.size (by omega) (by omega)
        (Nat.le_refl _))) (b' := st.size - 1) (B' := B) (by omega) (by omega)) fun _ _ _ h => ends_pure (by omega)
  split
  · simp only
    split
    · exact ends_fail (by omega)
    split
    · exact ends_fail (by omega)
    · exact ends_bind (ih.value s1' (st.size - 1) B (by omega) (by omega) (by omega)) fun _ _ _ h =>
        ends_pure (by omega)
  · simp only
    split
    · exact ends_fail (by omega)
    split
    · exact ends_fail (by omega)
    split
    · exact ends_pure (by omega)
    · exact ends_bind (ih.value s1' (st.size - 1) B (by omega) (by omega) (by omega)) fun _ _ _ h =>
        ends_pure (by omega)

theorem entry_succ (st : St) (seen : List (List Char)) (b B : Nat) (hn : 4 * st.size + 3 ≤ n + 1)
    (hk : st.cur.kind ≠ .eof) (hk' : st.cur.kind ≠ .rbrace) (hb : st.size ≤ b + 1) (hB : st.size ≤ B) :
    Ends (parseEntry d (n + 1) seen) st b B := by
  rw [parseEntry]
  have h1 := one_le_size hk
  by_cases hc : st.cur.kind = .comma
  · -- a comma has been read
    refine ends_bind (ends_skipCommas_strict d n (b := st.size - 1) hc (by omega) (by omega) hB) fun _ s1 h2 h3 => ?_
    refine ends_bind (ends_checkErr (b := st.size - 1) h3 (by omega)) fun _ s1' h _ => ?_
    have := checkErr_ok h
    subst this
    apply ends_cur_bind
    split
    · exact ends_fail (by omega)
    split
    · exact ends_pure (by omega)
    · rename_i hcase
      have h4 := one_le_size (st := s1') (fun h => hcase (.inl h))
      exact entry_rest ih s1' seen b B (by omega) (by omega) (by omega)
  · refine ends_bind (ends_skipCommas d n (b := st.size) (by omega) (Nat.le_refl _) hB) fun _ s1 h2 h3 => ?_
    have := (skipCommas_ok h2).2 hc
    subst this
    refine ends_bind (ends_checkErr (b := s1.size) h3 (by omega)) fun _ s1' h _ => ?_
    have := checkErr_ok h
    subst this
    apply ends_cur_bind
    split
    · exact ends_fail (by omega)
    rw [if_neg (by simp [hk, hk'])]
    exact entry_rest ih s1' seen b B (by omega) hb hB

end

theorem claims (d : Dialect) (n : Nat) : Claims d n := by
  induction n with
  | zero => exact claims_zero d
  | succ n ih =>
    exact {
      value := value_succ ih
      tag := tag_succ ih
      object := object_succ ih
      sequence := sequence_succ ih
      attributeValue := attributeValue_succ ih
      attrs := attrs_succ ih
      entries := entries_succ ih
      entry := entry_succ ih
      items := items_succ ih }

theorem ends_skipToEnd (d : Dialect) (n : Nat) {st : St} {b B : Nat} (hn : st.size < n) (hb : st.size ≤ b)
    (hB : st.size ≤ B) : Ends (skipToEnd d n) st b B := by
  induction n generalizing st with
  | zero => omega
  | succ n ih =>
    rw [skipToEnd]
    apply ends_cur_bind
    split
    · exact ends_pure hb
    · rename_i hk
      have h2 := one_le_size hk
      exact ends_bind (ends_advance d (b := st.size - 1) hk (by omega) hB) fun _ st' _ h =>
        ih (by omega) (by omega) (by omega)

end Styx.Impl
