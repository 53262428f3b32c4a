import Verif.Swift.Mono

/-! # Documents on which the Swift parser ends -/

namespace Styx.Swift

/-! ## Tokens -/

theorem skipBlank_suffix (cm ws nl : Bool) (s : List Char) : (skipBlank cm ws nl s).2.2 <:+ s := by
  fun_induction skipBlank cm ws nl s with
  | case1 => exact List.suffix_refl _
  | case2 ws nl cs ih => exact ih.trans ((List.suffix_cons ..).trans (List.suffix_cons ..))
  | case3 => exact List.suffix_refl _
  | case4 _ _ _ _ _ _ _ ih => exact ih.trans (List.suffix_cons ..)
  | case5 _ _ _ _ _ _ _ _ ih => exact ih.trans (List.suffix_cons ..)
  | case6 _ _ _ _ _ _ _ _ _ ih => exact ih.trans (List.suffix_cons ..)
  | case7 _ _ _ _ _ _ _ _ _ _ ih => exact ih.trans (List.suffix_cons ..)
  | case8 => exact List.suffix_refl _

theorem readQuoted_suffix {k : Nat} {s t r : List Char} (h : readQuoted k s = .ok (t, r)) : r <:+ s := by
  induction s generalizing k t with
  | nil => rw [readQuoted] at h; cases h
  | cons c cs ih =>
    have hm : ∀ {k' : Nat} {g : List Char → List Char},
        (readQuoted k' cs).map (fun x => (g x.1, x.2)) = .ok (t, r) → r <:+ c :: cs := by
      intro k' g hh
      cases hq : readQuoted k' cs with
      | error e => rw [hq] at hh; cases hh
      | ok x =>
        rw [hq] at hh
        obtain ⟨t', r'⟩ := x
        simp only [Except.map] at hh
        cases hh
        exact (ih hq).trans (List.suffix_cons ..)
    cases k with
    | succ k => rw [readQuoted] at h; exact (ih h).trans (List.suffix_cons ..)
    | zero =>
      rw [readQuoted.eq_def] at h
      simp only at h
      split at h
      · cases h; exact List.suffix_cons ..
      · split at h
        · split at h
          · cases h
          · split at h
            · exact hm (g := fun l => _ :: l) h
            · split at h
              · split at h
                · cases h
                · exact hm (g := fun l => _ :: l) h
              · cases h
        · split at h
          · exact hm (g := fun l => '\r' :: '\n' :: l) h
          · split at h
            · cases h
            · exact hm (g := fun l => c :: l) h

theorem readRaw_suffix {p s t r : List Char} (h : Impl.readRaw p s = some (t, r)) : r <:+ s := by
  induction s generalizing t with
  | nil => rw [Impl.readRaw] at h; cases h
  | cons c cs ih =>
    rw [Impl.readRaw] at h
    split at h
    · cases h; exact List.drop_suffix ..
    · cases hq : Impl.readRaw p cs with
      | none => rw [hq] at h; cases h
      | some x =>
        rw [hq] at h
        obtain ⟨t', r'⟩ := x
        cases h
        exact (ih hq).trans (List.suffix_cons ..)

theorem heredocLoop_suffix {U : Classes} {d line text s t r : List Char} {p : Bool}
    (h : heredocLoop U d line text s = .ok (t, r, p)) : r <:+ s := by
  fun_induction heredocLoop U d line text s with
  | case1 => cases h; exact List.suffix_refl _
  | case2 => cases h
  | case3 _ _ cs ih => exact (ih h).trans ((List.suffix_cons ..).trans (List.suffix_cons ..))
  | case4 => cases h; exact List.suffix_cons ..
  | case5 _ _ _ _ _ _ _ ih => exact (ih h).trans (List.suffix_cons ..)
  | case6 _ _ _ _ _ _ ih => exact (ih h).trans (List.suffix_cons ..)

theorem dropHint_suffix (U : Classes) (s : List Char) : dropHint U s <:+ s := by
  unfold dropHint
  split
  · split
    · exact (List.dropWhile_suffix _).trans ((List.tail_suffix _).trans (List.tail_suffix _))
    · exact List.tail_suffix _
  · exact List.suffix_refl _

theorem dropLineEnd_suffix (s : List Char) : dropLineEnd s <:+ s := by
  unfold dropLineEnd
  split
  · exact List.suffix_refl _
  · simp only
    split
    · split
      · exact (List.tail_suffix _).trans (List.tail_suffix _)
      · exact List.tail_suffix _
    · split
      · exact List.tail_suffix _
      · exact List.suffix_refl _

theorem readHeredoc_suffix {U : Classes} {s t r : List Char} {p : Bool}
    (h : readHeredoc U s = .ok (t, r, p)) : r <:+ s := by
  unfold readHeredoc at h
  split at h
  · simp only at h
    split at h
    · cases h
    · exact (heredocLoop_suffix h).trans ((dropLineEnd_suffix _).trans ((dropHint_suffix U _).trans
        (List.dropWhile_suffix _)))
  · cases h

/-- What is known of a token: it is shorter than the text it is read from, unless that is empty, and brackets and `>` are in
the text. -/
structure TokenFacts (s : List Char) (x : Tok × St) : Prop where
  suffix : x.2.text <:+ s
  shorter : x.1.kind ≠ .eof → x.2.text.length < s.length
  gt : x.1.kind = .gt → '>' ∈ s
  rBrace : x.1.kind = .rBrace → '}' ∈ s
  rParen : x.1.kind = .rParen → ')' ∈ s
  lBrace : x.1.kind = .lBrace → '{' ∈ s
  lParen : x.1.kind = .lParen → '(' ∈ s

theorem facts_other {c : Char} {cs r : List Char} {k : Kind} {t : List Char} {ws nl p : Bool} (hr : r <:+ cs)
    (hk : k ≠ .gt ∧ k ≠ .rBrace ∧ k ≠ .rParen ∧ k ≠ .lBrace ∧ k ≠ .lParen) :
    TokenFacts (c :: cs) (⟨k, t, ws, nl⟩, ⟨r, p⟩) where
  suffix := hr.trans (List.suffix_cons ..)
  shorter _ := by have := hr.length_le; simp; omega
  gt h := (hk.1 h).elim
  rBrace h := (hk.2.1 h).elim
  rParen h := (hk.2.2.1 h).elim
  lBrace h := (hk.2.2.2.1 h).elim
  lParen h := (hk.2.2.2.2 h).elim

theorem facts_error {c : Char} {cs : List Char} (e : LexErr) (ws nl : Bool) :
    TokenFacts (c :: cs) (errorTok e ws nl) := facts_other (List.nil_suffix) (by simp)

theorem facts_ite {s : List Char} {p : Prop} [Decidable p] {x y : Tok × St} (hx : p → TokenFacts s x)
    (hy : ¬ p → TokenFacts s y) : TokenFacts s (if p then x else y) := by
  by_cases h : p
  · rw [if_pos h]; exact hx h
  · rw [if_neg h]; exact hy h

theorem readToken_facts (U : Classes) (ws nl : Bool) (s : List Char) : TokenFacts s (readToken U ws nl s) := by
  cases s with
  | nil => exact ⟨List.suffix_refl _, by simp [readToken], by simp [readToken], by simp [readToken],
      by simp [readToken], by simp [readToken], by simp [readToken]⟩
  | cons c cs =>
    rw [readToken]
    refine facts_ite (fun h => ?_) fun _ => ?_
    · simp at h; subst h; exact ⟨List.suffix_cons .., by simp, by simp, by simp, by simp, by simp, by simp⟩
    refine facts_ite (fun h => ?_) fun _ => ?_
    · simp at h; subst h; exact ⟨List.suffix_cons .., by simp, by simp, by simp, by simp, by simp, by simp⟩
    refine facts_ite (fun h => ?_) fun _ => ?_
    · simp at h; subst h; exact ⟨List.suffix_cons .., by simp, by simp, by simp, by simp, by simp, by simp⟩
    refine facts_ite (fun h => ?_) fun _ => ?_
    · simp at h; subst h; exact ⟨List.suffix_cons .., by simp, by simp, by simp, by simp, by simp, by simp⟩
    refine facts_ite (fun h => ?_) fun _ => ?_
    · simp at h; subst h; exact ⟨List.suffix_cons .., by simp, by simp, by simp, by simp, by simp, by simp⟩
    refine facts_ite (fun h => ?_) fun _ => ?_
    · simp at h; subst h; exact ⟨List.suffix_cons .., by simp, by simp, by simp, by simp, by simp, by simp⟩
    refine facts_ite (fun h => ?_) fun _ => ?_
    · simp at h; subst h; exact ⟨List.suffix_cons .., by simp, by simp, by simp, by simp, by simp, by simp⟩
    refine facts_ite (fun h => ?_) fun _ => ?_
    · cases hq : readQuoted 0 cs with
      | error e => exact facts_error ..
      | ok x => exact facts_other (readQuoted_suffix (t := x.1) (r := x.2) hq) (by simp)
    refine facts_ite (fun h => ?_) fun _ => ?_
    · refine facts_ite (fun h => ?_) fun _ => facts_error ..
      cases hq : Impl.readRaw ('"' :: List.replicate (cs.takeWhile (· == '#')).length '#')
          (cs.drop (cs.takeWhile (· == '#')).length).tail with
      | none => exact facts_error ..
      | some x =>
        exact facts_other ((readRaw_suffix (t := x.1) (r := x.2) hq).trans ((List.tail_suffix _).trans
          (List.drop_suffix ..))) (by simp)
    refine facts_ite (fun h => ?_) fun _ => ?_
    · refine facts_ite (fun h => ?_) fun _ => facts_error ..
      cases hq : readHeredoc U cs.tail with
      | error e => exact facts_error ..
      | ok x =>
        exact facts_other ((readHeredoc_suffix (t := x.1) (r := x.2.1) (p := x.2.2) hq).trans (List.tail_suffix _))
          (by simp)
    exact facts_ite (fun _ => facts_other (List.dropWhile_suffix _) (by simp)) fun _ => facts_error ..

theorem nextToken_facts (U : Classes) (st : St) : TokenFacts st.text (nextToken U st) := by
  unfold nextToken
  have hs := skipBlank_suffix false false st.pend st.text
  generalize skipBlank false false st.pend st.text = x at hs
  obtain ⟨ws, nl, r⟩ := x
  have := readToken_facts U ws nl r
  simp only at hs ⊢
  exact ⟨this.suffix.trans hs, fun h => Nat.lt_of_lt_of_le (this.shorter h) hs.length_le,
    fun h => hs.subset (this.gt h), fun h => hs.subset (this.rBrace h), fun h => hs.subset (this.rParen h),
    fun h => hs.subset (this.lBrace h), fun h => hs.subset (this.lParen h)⟩

/-! ## Runs that end -/

/-- The run answers; if it goes on, what is left is a part of the text `t` at its end, of at most `b` characters. -/
def Ends {α : Type} (t : List Char) (p : P α) (st : St) (b : Nat) : Prop :=
  match p st with
  | .fuel => False
  | .fail _ => True
  | .ok _ st' => st'.text <:+ t ∧ st'.text.length ≤ b

theorem ends_bind {α β : Type} {t : List Char} {p : P α} {f : α → P β} {st : St} {b b' : Nat} (h : Ends t p st b)
    (hf : ∀ a st', p st = .ok a st' → st'.text <:+ t → st'.text.length ≤ b → Ends t (f a) st' b') :
    Ends t (p >>= f) st b' := by
  show match P.bind p f st with | .fuel => False | .fail _ => True | .ok _ st' => _
  unfold P.bind
  unfold Ends at h
  cases hp : p st with
  | fuel => rw [hp] at h; exact h.elim
  | fail e => trivial
  | ok a st' =>
    rw [hp] at h
    exact hf a st' hp h.1 h.2

theorem ends_cur {β : Type} {U : Classes} {t : List Char} {f : Tok → P β} {st : St} {b : Nat}
    (h : Ends t (f (nextToken U st).1) st b) : Ends t (cur U >>= f) st b := h

theorem ends_fail {α : Type} {t : List Char} {e : Err} {st : St} {b : Nat} : Ends t (fail e : P α) st b := trivial

theorem ends_pure {α : Type} {t : List Char} {a : α} {st : St} {b : Nat} (h1 : st.text <:+ t)
    (h2 : st.text.length ≤ b) : Ends t (pure a : P α) st b := ⟨h1, h2⟩

/-- Behind the current token. -/
theorem ends_advance {β : Type} {U : Classes} {t : List Char} {f : Tok → P β} {st : St} {b : Nat}
    (hs : st.text <:+ t) (hk : (nextToken U st).1.kind ≠ .eof)
    (h : ∀ st', st'.text <:+ t → st'.text.length + 1 ≤ st.text.length → Ends t (f (nextToken U st).1) st' b) :
    Ends t (advance U >>= f) st b :=
  h _ ((nextToken_facts U st).suffix.trans hs) ((nextToken_facts U st).shorter hk)

/-- The kinds of tokens that begin a value. -/
def opens (k : Kind) : Bool := k == .at || k == .lBrace || k == .lParen || isScalar k

/-- No bracket in the text can be closed by the wrong bracket, or have a `>` in it. -/
def Fine (t : List Char) : Prop := ('(' ∈ t → '}' ∉ t ∧ '>' ∉ t) ∧ ('{' ∈ t → ')' ∉ t ∧ '>' ∉ t)

/-- What holds of the functions with fuel `n` for parts of the text `t`. -/
structure Claims (U : Classes) (t : List Char) (n : Nat) : Prop where
  value : ∀ st, st.text <:+ t → 4 * st.text.length + 3 ≤ n → Ends t (parseValue U n) st
    (if opens (nextToken U st).1.kind then st.text.length - 1 else st.text.length)
  tagged : ∀ st, st.text <:+ t → (nextToken U st).1.kind ≠ .eof → 4 * st.text.length + 2 ≤ n →
    Ends t (parseTagged U n) st (st.text.length - 1)
  scalar : ∀ st, st.text <:+ t → (nextToken U st).1.kind ≠ .eof → 4 * st.text.length + 2 ≤ n →
    Ends t (parseScalar U n) st (st.text.length - 1)
  attrs : ∀ st, st.text <:+ t → 4 * st.text.length + 4 ≤ n → Ends t (parseAttrs U n) st st.text.length
  attributeValue : ∀ st, st.text <:+ t → 4 * st.text.length + 3 ≤ n →
    Ends t (parseAttributeValue U n) st st.text.length
  object : ∀ st, st.text <:+ t → (nextToken U st).1.kind = .lBrace → 4 * st.text.length + 2 ≤ n →
    Ends t (parseObject U n) st (st.text.length - 1)
  entries : ∀ st, '{' ∈ t → st.text <:+ t → 4 * st.text.length + 4 ≤ n →
    Ends t (parseEntries U n) st st.text.length
  sequence : ∀ st, st.text <:+ t → (nextToken U st).1.kind = .lParen → 4 * st.text.length + 2 ≤ n →
    Ends t (parseSequence U n) st (st.text.length - 1)
  items : ∀ st, '(' ∈ t → st.text <:+ t → 4 * st.text.length + 4 ≤ n → Ends t (parseItems U n) st st.text.length

theorem Ends.mono {α : Type} {t : List Char} {p : P α} {st : St} {b b' : Nat} (h : Ends t p st b) (hb : b ≤ b') :
    Ends t p st b' := by
  unfold Ends at *
  cases hp : p st with
  | fuel => rw [hp] at h; exact h.elim
  | fail e => trivial
  | ok a st' => rw [hp] at h; exact ⟨h.1, Nat.le_trans h.2 hb⟩

theorem bind_cur {U : Classes} {β : Type} (f : Tok → P β) (st : St) : (cur U >>= f) st = f (nextToken U st).1 st := rfl

theorem value_error {U : Classes} {st : St} {e : LexErr} (n : Nat) (h : (nextToken U st).1.kind = .error e) :
    parseValue U (n + 1) st = .fail (.lexer e) := by
  rw [parseValue, bind_cur, h]
  rfl

/-- A token that begins no value is left where it is. -/
theorem value_stay {U : Classes} {st : St} (n : Nat) (h : opens (nextToken U st).1.kind = false)
    (he : ∀ e, (nextToken U st).1.kind ≠ .error e) : parseValue U (n + 1) st = .ok (.mk none none none) st := by
  rw [parseValue, bind_cur]
  cases hk : (nextToken U st).1.kind with
  | error e => exact (he e hk).elim
  | eof | rBrace | rParen | comma | gt => rfl
  | _ => rw [hk] at h; exact absurd h (by decide)

theorem claims (U : Classes) {t : List Char} (hf : Fine t) (n : Nat) : Claims U t n := by
  induction n with
  | zero => constructor <;> intros <;> omega
  | succ n ih =>
    have pos : ∀ st, (nextToken U st).1.kind ≠ .eof → 1 ≤ st.text.length := fun st h => by
      have := (nextToken_facts U st).shorter h
      omega
    constructor
    · intro st hs hn
      rw [parseValue]
      refine ends_cur ?_
      split
      · exact ends_fail
      · rename_i hk
        rw [hk]
        have := pos st (by simp [hk])
        exact ih.tagged st hs (by simp [hk]) (by omega)
      · rename_i hk
        rw [hk]
        exact ends_bind (ih.object st hs hk (by omega)) fun _ _ _ h1 h2 => ends_pure h1 h2
      · rename_i hk
        rw [hk]
        exact ends_bind (ih.sequence st hs hk (by omega)) fun _ _ _ h1 h2 => ends_pure h1 h2
      · rename_i hk
        rw [hk]
        exact ends_bind (ih.scalar st hs (by simp [hk]) (by omega)) fun _ _ _ h1 h2 => ends_pure h1 h2
      · rename_i hk
        rw [hk]
        exact ends_bind (ih.scalar st hs (by simp [hk]) (by omega)) fun _ _ _ h1 h2 => ends_pure h1 h2
      · rename_i hk
        rw [hk]
        exact ends_bind (ih.scalar st hs (by simp [hk]) (by omega)) fun _ _ _ h1 h2 => ends_pure h1 h2
      · rename_i hk
        rw [hk]
        exact ends_bind (ih.scalar st hs (by simp [hk]) (by omega)) fun _ _ _ h1 h2 => ends_pure h1 h2
      · rename_i h1 h2 h3 h4 h5 h6 h7 h8
        refine ends_pure hs ?_
        rw [if_neg]
        · exact Nat.le_refl _
        · unfold opens isScalar
          simp only [Bool.or_eq_true, beq_iff_eq]
          grind
    · intro st hs hk hn
      have h0 := pos st hk
      rw [parseTagged]
      refine ends_advance hs hk fun s1 h1 h2 => ends_cur ?_
      split
      · rename_i hb
        have h3 := pos s1 (by simp [hb.1])
        refine ends_advance h1 (by simp [hb.1]) fun s2 h4 h5 => ?_
        simp only
        split
        · exact ends_fail
        · split
          · exact ends_pure h4 (by omega)
          · refine ends_cur ?_
            split
            · rename_i hp
              exact ends_bind (ih.object s2 h4 hp.1 (by omega)) fun _ _ _ g1 g2 => ends_pure g1 (by omega)
            · split
              · rename_i hp
                exact ends_bind (ih.sequence s2 h4 hp.1 (by omega)) fun _ _ _ g1 g2 => ends_pure g1 (by omega)
              · split
                · rename_i hp
                  refine ends_bind (ih.scalar s2 h4 ?_ (by omega)) fun _ _ _ g1 g2 => ends_pure g1 (by omega)
                  intro he
                  rw [he] at hp
                  exact absurd hp.1 (by decide)
                · split
                  · rename_i hp
                    exact ends_advance h4 (by simp [hp.1]) fun s3 g1 g2 => ends_pure g1 (by omega)
                  · exact ends_pure h4 (by omega)
      · exact ends_pure h1 (by omega)
    · intro st hs hk hn
      have h0 := pos st hk
      rw [parseScalar]
      refine ends_advance hs hk fun s1 h1 h2 => ends_cur ?_
      split
      · rename_i hg
        refine ends_advance h1 (by simp [hg.1]) fun s2 h3 h4 => ends_cur ?_
        split
        · exact ends_fail
        · refine ends_bind (ih.attributeValue s2 h3 (by omega)) fun v s3 _ h5 h6 => ?_
          exact ends_bind (ih.attrs s3 h5 (by omega)) fun _ _ _ g1 g2 => ends_pure g1 (by omega)
      · exact ends_pure h1 (by omega)
    · intro st hs hn
      rw [parseAttrs]
      refine ends_cur ?_
      split
      · rename_i hb
        refine ends_advance hs (by simp [hb.2.2]) fun s1 h1 h2 => ends_cur ?_
        split
        · rename_i hg
          refine ends_advance h1 (by simp [hg.1]) fun s2 h3 h4 => ends_cur ?_
          split
          · exact ends_fail
          · refine ends_bind (ih.attributeValue s2 h3 (by omega)) fun v s3 _ h5 h6 => ?_
            exact ends_bind (ih.attrs s3 h5 (by omega)) fun _ _ _ g1 g2 => ends_pure g1 (by omega)
        · exact ends_pure h1 (by omega)
      · exact ends_pure hs (Nat.le_refl _)
    · intro st hs hn
      rw [parseAttributeValue]
      refine ends_cur ?_
      split
      · rename_i hk
        exact (ih.tagged st hs (by simp [hk]) (by omega)).mono (by omega)
      · rename_i hk
        exact ends_bind (ih.object st hs hk (by omega)) fun _ _ _ h1 h2 => ends_pure h1 (by omega)
      · rename_i hk
        exact ends_bind (ih.sequence st hs hk (by omega)) fun _ _ _ h1 h2 => ends_pure h1 (by omega)
      · rename_i hk
        exact ends_advance hs (by simp [hk]) fun s3 g1 g2 => ends_pure g1 (by omega)
      · rename_i hk
        exact ends_advance hs (by simp [hk]) fun s3 g1 g2 => ends_pure g1 (by omega)
      · rename_i hk
        exact ends_advance hs (by simp [hk]) fun s3 g1 g2 => ends_pure g1 (by omega)
      · rename_i hk
        exact ends_advance hs (by simp [hk]) fun s3 g1 g2 => ends_pure g1 (by omega)
      · exact ends_fail
    · intro st hs hk hn
      have h0 := pos st (by simp [hk])
      rw [parseObject]
      refine ends_advance hs (by simp [hk]) fun s1 h1 h2 => ?_
      refine ends_bind (ih.entries s1 (hs.subset ((nextToken_facts U st).lBrace hk)) h1 (by omega))
        fun _ s2 _ h3 h4 => ends_cur ?_
      split
      · rename_i hr
        exact ends_advance h3 (by simp [hr]) fun s3 g1 g2 => ends_pure g1 (by omega)
      · exact ends_fail
    · intro st hb hs hn
      rw [parseEntries]
      refine ends_cur ?_
      split
      · exact ends_pure hs (Nat.le_refl _)
      · rename_i hk
        have h0 := pos st (by simp at hk; exact hk.2)
        have hno := hf.2 hb
        by_cases ho : opens (nextToken U st).1.kind = true
        · have hv := ih.value st hs (by omega)
          rw [if_pos ho] at hv
          refine ends_bind hv fun k s1 _ h1 h2 => ?_
          refine ends_bind ((ih.value s1 h1 (by omega)).mono (b' := s1.text.length) (by split <;> omega))
            fun v s2 _ h3 h4 => ends_cur ?_
          split
          · rename_i hc
            refine ends_advance h3 (by simp [hc]) fun s3 h5 h6 => ?_
            exact ends_bind (ih.entries s3 hb h5 (by omega)) fun _ _ _ g1 g2 => ends_pure g1 (by omega)
          · exact ends_bind (ih.entries s2 hb h3 (by omega)) fun _ _ _ g1 g2 => ends_pure g1 (by omega)
        · -- a comma or an error
          obtain ⟨m, rfl⟩ : ∃ m, n = m + 1 := ⟨n - 1, by omega⟩
          by_cases he : ∃ e, (nextToken U st).1.kind = .error e
          · obtain ⟨e, he⟩ := he
            have e1 : Ends t (parseValue U (m + 1)) st st.text.length := by
              unfold Ends; rw [value_error m he]; trivial
            refine ends_bind e1 fun k s1 hk1 h1 h2 => ?_
            rw [value_error m he] at hk1
            cases hk1
          · have hst := value_stay m (by simpa using ho) (fun e hh => he ⟨e, hh⟩)
            have hcomma : (nextToken U st).1.kind = .comma := by
              have f := nextToken_facts U st
              have f1 := f.rParen
              have f2 := f.gt
              cases hkk : (nextToken U st).1.kind with
              | comma => rfl
              | rParen => exact (hno.1 (hs.subset (f1 hkk))).elim
              | gt => exact (hno.2 (hs.subset (f2 hkk))).elim
              | error e => exact (he ⟨e, hkk⟩).elim
              | eof => exact (hk (.inr hkk)).elim
              | rBrace => exact (hk (.inl hkk)).elim
              | _ => rw [hkk] at ho; exact absurd rfl ho
            have e1 : Ends t (parseValue U (m + 1)) st st.text.length := by
              unfold Ends; rw [hst]; exact ⟨hs, Nat.le_refl _⟩
            refine ends_bind e1 fun k s1 hk1 h1 h2 => ?_
            rw [hst] at hk1
            cases hk1
            refine ends_bind e1 fun k s1 hk1 h1 h2 => ?_
            rw [hst] at hk1
            cases hk1
            refine ends_cur ?_
            rw [if_pos hcomma]
            refine ends_advance hs (by simp [hcomma]) fun s3 h5 h6 => ?_
            exact ends_bind (ih.entries s3 hb h5 (by omega)) fun _ _ _ g1 g2 => ends_pure g1 (by omega)
    · intro st hs hk hn
      have h0 := pos st (by simp [hk])
      rw [parseSequence]
      refine ends_advance hs (by simp [hk]) fun s1 h1 h2 => ?_
      refine ends_bind (ih.items s1 (hs.subset ((nextToken_facts U st).lParen hk)) h1 (by omega))
        fun _ s2 _ h3 h4 => ends_cur ?_
      split
      · rename_i hr
        exact ends_advance h3 (by simp [hr]) fun s3 g1 g2 => ends_pure g1 (by omega)
      · exact ends_fail
    · intro st hb hs hn
      rw [parseItems]
      refine ends_cur ?_
      split
      · exact ends_pure hs (Nat.le_refl _)
      · rename_i hk
        have h0 := pos st (by simp at hk; exact hk.2)
        have hno := hf.1 hb
        split
        · exact ends_fail
        · rename_i hc
          by_cases ho : opens (nextToken U st).1.kind = true
          · have hv := ih.value st hs (by omega)
            rw [if_pos ho] at hv
            refine ends_bind hv fun k s1 _ h1 h2 => ?_
            exact ends_bind (ih.items s1 hb h1 (by omega)) fun _ _ _ g1 g2 => ends_pure g1 (by omega)
          · obtain ⟨m, rfl⟩ : ∃ m, n = m + 1 := ⟨n - 1, by omega⟩
            have hst : ∃ e, parseValue U (m + 1) st = .fail e := by
              have f := nextToken_facts U st
              have f1 := f.rBrace
              have f2 := f.gt
              cases hkk : (nextToken U st).1.kind with
              | error e => exact ⟨_, value_error m hkk⟩
              | rBrace => exact (hno.1 (hs.subset (f1 hkk))).elim
              | gt => exact (hno.2 (hs.subset (f2 hkk))).elim
              | eof => exact (hk (.inr hkk)).elim
              | rParen => exact (hk (.inl hkk)).elim
              | comma => exact (hc hkk).elim
              | _ => rw [hkk] at ho; exact absurd rfl ho
            obtain ⟨e, hst⟩ := hst
            have e1 : Ends t (parseValue U (m + 1)) st st.text.length := by
              unfold Ends; rw [hst]; trivial
            refine ends_bind e1 fun k s1 hk1 h1 h2 => ?_
            rw [hst] at hk1
            cases hk1

/-! ## The root -/

theorem track_marks {ps ps' : Paths} {path : List (List Char)} {k : PathValueKind}
    (h : checkPath ps path k = .ok ps') : (ps'.assigned.lookup path).isSome = true := by
  unfold checkPath at h
  split at h
  · cases h
  · split at h
    · cases h
    · cases h
      simp

theorem track_twice {ps : Paths} {path : List (List Char)} {k : PathValueKind}
    (h : (ps.assigned.lookup path).isSome = true) (st : St) : track ps path k st = .fail .duplicateKey := by
  unfold track checkPath
  cases hl : ps.assigned.lookup path with
  | none => rw [hl] at h; cases h
  | some x => rfl

/-- The rounds that the loop over the root entries may still make without reading anything. -/
def slack (ps : Paths) : Nat := if (ps.assigned.lookup [['@']]).isSome then 0 else 1

theorem slack_le (ps : Paths) : slack ps ≤ 1 := by unfold slack; split <;> omega

theorem ends_track {β : Type} {t : List Char} {ps : Paths} {path : List (List Char)} {k : PathValueKind} {st : St}
    {b : Nat} {f : Paths → P β} (h : ∀ ps', checkPath ps path k = .ok ps' → Ends t (f ps') st b) :
    Ends t (track ps path k >>= f) st b := by
  unfold track
  cases hc : checkPath ps path k with
  | error e => exact (trivial : Ends t (fail e >>= f) st b)
  | ok ps' => exact h ps' hc

/-- Reading an entry ends; it reads something, or it uses up the slack. -/
theorem rootEntry_ends (U : Classes) {t : List Char} (hf : Fine t) {n : Nat} {ps : Paths} {st : St}
    (hs : st.text <:+ t) (hk : (nextToken U st).1.kind ≠ .eof) (hn : 4 * st.text.length + 3 ≤ n) :
    match parseRootEntry U n ps st with
    | .fuel => False
    | .fail _ => True
    | .ok (_, ps') st' => st'.text <:+ t ∧ (st'.text.length + 1 ≤ st.text.length ∨
        (st'.text.length ≤ st.text.length ∧ slack ps = 1 ∧ slack ps' = 0)) := by
  have pos : 1 ≤ st.text.length := by
    have := (nextToken_facts U st).shorter hk
    omega
  have hc := claims U hf n
  by_cases ho : opens (nextToken U st).1.kind = true
  · have key : Ends t (parseRootEntry U n ps) st (st.text.length - 1) := by
      rw [parseRootEntry]
      have hv := hc.value st hs hn
      rw [if_pos ho] at hv
      refine ends_bind hv fun key s1 _ h1 h2 => ?_
      split
      · exact ends_pure h1 h2
      · split
        · exact ends_fail
        · split
          · split
            · exact ends_fail
            · refine ends_cur ?_
              split
              · exact ends_track fun _ _ => ends_pure h1 h2
              · refine ends_bind ((hc.value s1 h1 (by omega)).mono (b' := s1.text.length) (by split <;> omega))
                  fun v s2 _ h3 h4 => ?_
                exact ends_track fun _ _ => ends_pure h3 (by omega)
          · refine ends_cur ?_
            split
            · exact ends_track fun _ _ => ends_pure h1 h2
            · refine ends_bind ((hc.value s1 h1 (by omega)).mono (b' := s1.text.length) (by split <;> omega))
                fun v s2 _ h3 h4 => ?_
              exact ends_track fun _ _ => ends_pure h3 (by omega)
    unfold Ends at key
    cases hp : parseRootEntry U n ps st with
    | fuel => rw [hp] at key; exact key.elim
    | fail e => trivial
    | ok x s => rw [hp] at key; exact ⟨key.1, .inl (by omega)⟩
  · obtain ⟨m, rfl⟩ : ∃ m, n = m + 1 := ⟨n - 1, by omega⟩
    by_cases he : ∃ e, (nextToken U st).1.kind = .error e
    · obtain ⟨e, he⟩ := he
      have : parseRootEntry U (m + 1) ps st = .fail (.lexer e) := by
        rw [parseRootEntry]
        show P.bind _ _ _ = _
        unfold P.bind
        rw [value_error m he]
      rw [this]
      trivial
    · have hst := value_stay m (by simpa using ho) (fun e hh => he ⟨e, hh⟩)
      have hrun : ∃ k, parseRootEntry U (m + 1) ps st =
          (track ps [['@']] k >>= fun ps' => pure (.mk (.mk none none none) (.mk none none none) none, ps')) st := by
        rw [parseRootEntry]
        show ∃ k, P.bind _ _ _ = _
        unfold P.bind
        rw [hst]
        show ∃ k, (cur U >>= _) st = _
        rw [bind_cur]
        split
        · exact ⟨_, rfl⟩
        · refine ⟨.terminal, ?_⟩
          show P.bind _ _ _ = _
          unfold P.bind
          rw [hst]
          rfl
      obtain ⟨k, hrun⟩ := hrun
      rw [hrun]
      by_cases hsl : (ps.assigned.lookup [['@']]).isSome = true
      · have : (track ps [['@']] k >>= fun ps' =>
            (pure (Entry.mk (.mk none none none) (.mk none none none) none, ps') : P (Entry × Paths))) st =
            .fail .duplicateKey := by
          show P.bind _ _ _ = _
          unfold P.bind
          rw [track_twice hsl]
        rw [this]
        trivial
      · unfold track
        cases hck : checkPath ps [['@']] k with
        | error e => exact (trivial : True)
        | ok ps' =>
          have := track_marks hck
          exact ⟨hs, .inr ⟨Nat.le_refl _, by unfold slack; rw [if_neg hsl], by unfold slack; rw [if_pos this]⟩⟩

theorem root_ends (U : Classes) {t : List Char} (hf : Fine t) (n : Nat) (ps : Paths) (st : St) (hs : st.text <:+ t)
    (hn : 4 * st.text.length + 5 + slack ps ≤ n) : Ends t (parseRootEntries U n ps) st st.text.length := by
  induction n generalizing ps st with
  | zero => omega
  | succ n ih =>
    rw [parseRootEntries]
    refine ends_cur ?_
    split
    · exact ends_pure hs (Nat.le_refl _)
    · rename_i hk
      have h := rootEntry_ends U hf (ps := ps) hs hk (n := n) (by omega)
      have hrun : (parseRootEntry U n ps >>= fun x => parseRootEntries U n x.2 >>= fun es => pure (x.1 :: es)) st =
          match parseRootEntry U n ps st with
          | .fuel => .fuel
          | .fail e => .fail e
          | .ok x s1 => (parseRootEntries U n x.2 >>= fun es => pure (x.1 :: es)) s1 := by
        show P.bind _ _ _ = _
        unfold P.bind
        cases parseRootEntry U n ps st <;> rfl
      cases hp : parseRootEntry U n ps st with
      | fuel => rw [hp] at h; exact h.elim
      | fail e =>
        rw [hp] at hrun
        unfold Ends
        first | rw [hrun] | (erw [hrun])
        trivial
      | ok x s1 =>
        rw [hp] at h hrun
        simp only at h hrun
        have h1 := slack_le x.2
        have h2 := ih x.2 s1 h.1 (by omega)
        have h3 : Ends t (parseRootEntries U n x.2 >>= fun es => pure (x.1 :: es)) s1 st.text.length :=
          ends_bind h2 fun _ s2 _ g1 g2 => ends_pure g1 (by omega)
        unfold Ends at h3 ⊢
        rw [← hrun] at h3
        exact h3

/-- A document without brackets that the wrong thing could close is answered, after a number of steps that grows
linearly with its length. -/
theorem parse_ends (U : Classes) {t : List Char} (hf : Fine t) {n : Nat} (hn : 4 * t.length + 6 ≤ n) :
    ∃ r, parse U n t = some r := by
  have h : Ends t (parseDocument U n) ⟨t, false⟩ t.length := by
    rw [parseDocument]
    refine ends_cur ?_
    split
    · rename_i hk
      refine ends_bind ((claims U hf n).object ⟨t, false⟩ (List.suffix_refl _) hk (by simp; omega))
        fun _ s1 _ h1 h2 => ends_cur ?_
      simp only at h2
      split
      · exact ends_pure h1 (by omega)
      · exact ends_fail
    · exact root_ends U hf n _ _ (List.suffix_refl _) (by have := slack_le ⟨[], [], []⟩; simp; omega)
  unfold parse
  unfold Ends at h
  cases hp : parseDocument U n ⟨t, false⟩ with
  | fuel => rw [hp] at h; exact h.elim
  | fail e => exact ⟨_, rfl⟩
  | ok es st => exact ⟨_, rfl⟩

end Styx.Swift
