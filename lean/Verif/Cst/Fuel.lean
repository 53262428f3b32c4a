import Verif.Cst.Lemmas

/-! # The fuel of the concrete syntax parser is enough -/

namespace Styx.Cst

open Styx Styx.Spec

theorem toks_ne_of_peek {st : St} (h : st.peek ≠ .eof) : st.toks ≠ [] := by
  intro h'; simp [St.peek, h'] at h

theorem bump_lt {st : St} (h : st.toks ≠ []) : st.bump.2.toks.length < st.toks.length := by
  obtain ⟨ts, e⟩ := st
  cases ts with
  | nil => simp at h
  | cons t ts => simp [St.bump]

theorem bump_le (st : St) : st.bump.2.toks.length ≤ st.toks.length := by
  obtain ⟨ts, e⟩ := st
  cases ts <;> simp [St.bump]

theorem skipWs_le (st : St) : st.skipWs.2.toks.length ≤ st.toks.length := (skipWs_eats st).le

theorem skipTrivia_le (st : St) : st.skipTrivia.2.toks.length ≤ st.toks.length :=
  (skipTrivia_eats st).le

theorem bumpIf_le (st st' : St) (c : Prop) [Decidable c] (h : st'.toks = st.toks) :
    (if c then st.bump else ([], st')).2.toks.length ≤ st.toks.length := by
  split
  · exact bump_le st
  · simp [h]

theorem bumpWhile_head (p : TokenKind → Bool) (ts : List Token) :
    ∀ t, (bumpWhile p ts).2.head? = some t → p t.kind = false := by
  induction ts with
  | nil => simp [bumpWhile]
  | cons t ts ih =>
    rw [bumpWhile]
    split
    · exact ih
    · rename_i h
      intro t' ht
      simp at ht
      simpa [ht] using h

theorem bumpDocs_lt (a : Bool) (ts : List Token) :
    (bumpDocs a ts).2 = ts ∨ (bumpDocs a ts).2.length < ts.length := by
  cases ts with
  | nil => simp [bumpDocs]
  | cons t ts =>
    rw [bumpDocs]
    split
    · right
      have := (bumpDocs_eats ts true [] []).le
      simp at this ⊢
      omega
    · left; rfl

theorem skipTrivia_peek (st : St) : isTrivia st.skipTrivia.2.peek = false := by
  simp only [St.skipTrivia, St.bumpWhile, St.peek]
  cases h : (bumpWhile isTrivia st.toks).2.head? with
  | none => rfl
  | some t => simpa using bumpWhile_head _ _ t h

theorem skipWs_id {st : St} (h : st.peek ≠ .whitespace) : st.skipWs = ([], st) := by
  obtain ⟨ts, e⟩ := st
  cases ts with
  | nil => rfl
  | cons t ts =>
    have : t.kind ≠ .whitespace := by simpa [St.peek] using h
    simp [St.skipWs, St.bumpWhile, bumpWhile, this]

/-- Each function has enough fuel, and goes on where it must. -/
def AllFuel (source : List Char) (n : Nat) : Prop :=
  (∀ c st, 6 + 8 * st.toks.length ≤ n → ∃ r, parseEntries source n c st = some r ∧
    (r.2.atEof = true ∨ c = some r.2.peek)) ∧
  (∀ c st, 5 + 8 * st.toks.length ≤ n → ∃ r, parseEntry source n c st = some r ∧
    (st.atEntryEnd c = false → r.2.toks.length < st.toks.length) ∧
    (st.peek = .comma → r.2.toks = st.toks)) ∧
  (∀ c k st, 4 + 8 * st.toks.length ≤ n → ∃ r, parseValues source n c k st = some r) ∧
  (∀ c st, 3 + 8 * st.toks.length ≤ n → ∃ r, parseAttributes source n c st = some r ∧
    (st.atAttribute source = true → r.2.toks.length < st.toks.length)) ∧
  (∀ st, 2 + 8 * st.toks.length ≤ n → ∃ r, parseAttribute source n st = some r ∧
    (st.toks ≠ [] → r.2.toks.length < st.toks.length)) ∧
  (∀ st, 1 + 8 * st.toks.length ≤ n → ∃ r, parseAtom source n st = some r ∧
    (st.toks ≠ [] → r.2.toks.length < st.toks.length)) ∧
  (∀ st, 2 + 8 * st.toks.length ≤ n → ∃ r, parseItems source n st = some r)

theorem atEntryEnd_false {st : St} {c : Option TokenKind} (h : st.atEntryEnd c = false) :
    st.toks ≠ [] := by
  apply toks_ne_of_peek
  intro h'
  simp [St.atEntryEnd, h'] at h

theorem allFuel (source : List Char) : ∀ n, AllFuel source n := by
  intro n
  induction n with
  | zero => refine ⟨?_, ?_, ?_, ?_, ?_, ?_, ?_⟩ <;> intros <;> omega
  | succ n ih =>
    obtain ⟨iEntries, iEntry, iValues, iAttrs, iAttr, iAtom, iItems⟩ := ih
    have eat := allEat source n
    obtain ⟨eEntries, eEntry, eValues, eAttrs, eAttr, eAtom, eItems⟩ := eat
    refine ⟨?_, ?_, ?_, ?_, ?_, ?_, ?_⟩
    · intro c st hn
      rw [parseEntries]
      simp only [Option.bind_eq_bind]
      have l1 := skipTrivia_le st
      have p1 := skipTrivia_peek st
      generalize st.skipTrivia = s1 at *
      have l2 : (bumpDocs false s1.2.toks).2.length ≤ s1.2.toks.length :=
        (bumpDocs_eats s1.2.toks false [] []).le
      have d2 := bumpDocs_lt false s1.2.toks
      generalize bumpDocs false s1.2.toks = s2 at *
      split
      · rename_i h
        exact ⟨_, rfl, by simpa using h⟩
      · rename_i h
        generalize hst : ({ toks := s2.2, errors := s1.2.errors } : St) = st2 at *
        have hl : s2.2 = st2.toks := by rw [← hst]
        rw [hl] at l2 d2
        obtain ⟨r3, h3, b3, b3'⟩ := iEntry c st2 (by omega)
        have l3 := (eEntry _ _ _ h3).le
        rw [h3]
        simp only [Option.bind_some]
        have l4 := skipWs_le r3.2
        have key : (if r3.2.skipWs.2.peek = .comma ∨ r3.2.skipWs.2.peek = .newline
            then r3.2.skipWs.2.bump else ([], r3.2.skipWs.2)).2.toks.length < st.toks.length := by
          have l5 := bumpIf_le r3.2.skipWs.2 r3.2.skipWs.2
            (r3.2.skipWs.2.peek = .comma ∨ r3.2.skipWs.2.peek = .newline) rfl
          cases he : st2.atEntryEnd c with
          | false => have := b3 he; omega
          | true =>
            simp only [Bool.or_eq_true, not_or, Bool.not_eq_true, St.atEof] at h
            have hw : st2.peek = .newline ∨ st2.peek = .lineComment ∨ st2.peek = .comma := by
              simp only [St.atEntryEnd, Bool.or_eq_true, beq_iff_eq] at he
              simp only [beq_eq_false_iff_ne, ne_eq] at h
              grind
            have same : st2.toks = s1.2.toks → st2.peek = s1.2.peek := by
              intro h; simp [St.peek, h]
            rcases hw with hw | hw | hw
            · rcases d2 with d2 | d2
              · rw [← same d2, hw] at p1
                simp [isTrivia] at p1
              · omega
            · rcases d2 with d2 | d2
              · rw [← same d2, hw] at p1
                simp [isTrivia] at p1
              · omega
            · have e3 := b3' hw
              have hp : r3.2.peek = .comma := by rw [← hw]; simp [St.peek, e3]
              have hk := skipWs_id (st := r3.2) (by simp [hp])
              rw [hk]
              simp only
              rw [if_pos (by simp [hp])]
              have := bump_lt (st := r3.2) (toks_ne_of_peek (by simp [hp]))
              omega
        generalize (if r3.2.skipWs.2.peek = .comma ∨ r3.2.skipWs.2.peek = .newline
            then r3.2.skipWs.2.bump else ([], r3.2.skipWs.2)) = s5 at key ⊢
        obtain ⟨r6, h6, b6⟩ := iEntries c s5.2 (by omega)
        rw [h6]
        exact ⟨_, rfl, b6⟩
    · intro c st hn
      rw [parseEntry]
      simp only [Option.bind_eq_bind]
      split
      · rename_i hat
        obtain ⟨r, h, b⟩ := iAttrs c st (by omega)
        rw [h]
        refine ⟨_, rfl, fun _ => b hat, fun he => ?_⟩
        rw [atAttribute_peek hat] at he
        cases he
      · cases he : st.atEntryEnd c with
        | true =>
          simp only [if_true, Option.bind_some]
          have l1 := skipWs_le st
          obtain ⟨r, h⟩ := iValues c 0 st.skipWs.2 (by omega)
          rw [h]
          refine ⟨_, rfl, by simp, fun hc => ?_⟩
          rw [skipWs_id (by simp [hc])] at h
          cases n with
          | zero => omega
          | succ n =>
            rw [parseValues, if_pos he] at h
            cases h
            rfl
        | false =>
          obtain ⟨r, h, b⟩ := iAtom st (by omega)
          have b := b (atEntryEnd_false he)
          rw [h]
          simp only [Option.bind_some, Bool.false_eq_true, if_false]
          have l1 := skipWs_le r.2
          obtain ⟨r', h'⟩ := iValues c 0 r.2.skipWs.2 (by omega)
          have l2 := (eValues _ _ _ _ h').le
          rw [h']
          refine ⟨_, rfl, fun _ => by simp only; omega, fun hc => ?_⟩
          simp [St.atEntryEnd, hc] at he
    · intro c k st hn
      rw [parseValues]
      simp only [Option.bind_eq_bind]
      split
      · exact ⟨_, rfl⟩
      · rename_i he
        have hne := atEntryEnd_false (by simpa using he)
        split
        · rename_i hat
          obtain ⟨r, h, b⟩ := iAttrs c st (by omega)
          have b := b hat
          rw [h]
          simp only [Option.bind_some]
          have l1 := skipWs_le r.2
          obtain ⟨r', h'⟩ := iValues c (k + 1) r.2.skipWs.2 (by omega)
          rw [h']
          exact ⟨_, rfl⟩
        · have ht : ∀ q : Prop, ∀ _ : Decidable q, (if q then st.err .tooManyAtoms else st).toks = st.toks := by
            intro q _; split <;> rfl
          generalize hs : (if c = some TokenKind.rbrace ∧ k > 0 ∧ st.atAtomStart = true then
            st.err .tooManyAtoms else st) = st1
          have ht1 : st1.toks = st.toks := by rw [← hs]; exact ht _ _
          obtain ⟨r, h, b⟩ := iAtom st1 (by rw [ht1]; omega)
          have b := b (by rw [ht1]; exact hne)
          rw [ht1] at b
          rw [h]
          simp only [Option.bind_some]
          have l1 := skipWs_le r.2
          obtain ⟨r', h'⟩ := iValues c (k + 1) r.2.skipWs.2 (by omega)
          rw [h']
          exact ⟨_, rfl⟩
    · intro c st hn
      rw [parseAttributes]
      simp only [Option.bind_eq_bind]
      split
      · rename_i hat
        obtain ⟨r, h, b⟩ := iAttr st (by omega)
        have b := b (toks_ne_of_peek (by simp [atAttribute_peek hat]))
        rw [h]
        simp only [Option.bind_some]
        have l1 := skipWs_le r.2
        split
        · exact ⟨_, rfl, fun _ => by simp only; omega⟩
        · obtain ⟨r', h', _⟩ := iAttrs c r.2.skipWs.2 (by omega)
          have l2 := (eAttrs _ _ _ h').le
          rw [h']
          exact ⟨_, rfl, fun _ => by simp only; omega⟩
      · rename_i hat
        exact ⟨_, rfl, fun h => absurd h hat⟩
    · intro st hn
      rw [parseAttribute]
      simp only [Option.bind_eq_bind]
      have l1 : st.bump.2.toks.length ≤ st.toks.length - 1 := by
        by_cases hne : st.toks = []
        · have := bump_le st
          simp only [hne, List.length_nil] at this ⊢
          omega
        · have := bump_lt hne
          omega
      · have l2 := bumpIf_le st.bump.2 (st.bump.2.err .expectedGt) (st.bump.2.peek = .gt) rfl
        generalize (if st.bump.2.peek = .gt then st.bump.2.bump else
          ([], st.bump.2.err .expectedGt)) = s2 at l2 ⊢
        have l3 := (skipIf_eats s2.2 (s2.2.peek = .whitespace ∨ s2.2.peek = .newline) .spaceAfterGt).le
        generalize (if s2.2.peek = .whitespace ∨ s2.2.peek = .newline then
          (s2.2.err .spaceAfterGt).skipWs else ([], s2.2)) = s3 at l3 ⊢
        obtain ⟨r, h, _⟩ := iAtom s3.2 (by omega)
        have l4 := (eAtom _ _ h).le
        rw [h]
        refine ⟨_, rfl, fun hne => ?_⟩
        have := List.length_pos_iff.mpr hne
        simp only
        omega
    · intro st hn
      rw [parseAtom.eq_def]
      simp only [Option.bind_eq_bind]
      split
      · rename_i hk
        have hne : st.toks ≠ [] := toks_ne_of_peek (by simp [hk])
        have l1 := bump_lt hne
        obtain ⟨r, h, _⟩ := iEntries (some .rbrace) st.bump.2 (by omega)
        have l2 := (eEntries _ _ _ h).le
        rw [h]
        have l3 := skipTrivia_le r.2
        have l4 := bumpIf_le r.2.skipTrivia.2 (r.2.skipTrivia.2.err .unclosedObject)
          (r.2.skipTrivia.2.peek = .rbrace) rfl
        exact ⟨_, rfl, fun _ => by simp only; omega⟩
      · rename_i hk
        have hne : st.toks ≠ [] := toks_ne_of_peek (by simp [hk])
        have l1 := bump_lt hne
        obtain ⟨r, h⟩ := iItems st.bump.2 (by omega)
        have l2 := (eItems _ _ h).le
        rw [h]
        have l4 := bumpIf_le r.2 r.2 (r.2.peek = .rparen) rfl
        exact ⟨_, rfl, fun _ => by simp only; omega⟩
      · exact ⟨_, rfl, fun hne => bump_lt hne⟩
      · rename_i hk
        obtain ⟨ts, e⟩ := st
        cases ts with
        | nil => simp [St.peek] at hk
        | cons t ts =>
          simp only [List.length_cons] at hn ⊢
          split
          · obtain ⟨r, h, _⟩ := iAtom ⟨ts, e⟩ (by simp only; omega)
            have l2 := (eAtom _ _ h).le
            rw [h]
            simp only at l2
            exact ⟨_, rfl, fun _ => by simp only; omega⟩
          · exact ⟨_, rfl, fun _ => by simp only; omega⟩
      · exact ⟨_, rfl, fun hne => bump_lt hne⟩
      · exact ⟨_, rfl, fun hne => bump_lt hne⟩
      · exact ⟨_, rfl, fun hne => bump_lt hne⟩
      · refine ⟨_, rfl, fun hne => ?_⟩
        have l1 := bump_lt hne
        simp only [St.heredoc]
        have l2 := bumpIf_le st.bump.2 st.bump.2 (st.bump.2.peek = .heredocContent) rfl
        generalize (if st.bump.2.peek = .heredocContent then st.bump.2.bump else
          ([], st.bump.2)) = s2 at l2 ⊢
        have l3 := bumpIf_le s2.2 (s2.2.err .unterminatedHeredoc) (s2.2.peek = .heredocEnd) rfl
        omega
      · exact ⟨_, rfl, fun hne => bump_lt (st := st.err _) hne⟩
    · intro st hn
      rw [parseItems]
      simp only [Option.bind_eq_bind]
      have l1 := skipTrivia_le st
      generalize st.skipTrivia = s1 at *
      split
      · exact ⟨_, rfl⟩
      · split
        · exact ⟨_, rfl⟩
        · rename_i he _
          obtain ⟨r, h, b⟩ := iAtom s1.2 (by omega)
          have b := b (toks_ne_of_peek (by simpa [St.atEof] using he))
          rw [h]
          simp only [Option.bind_some]
          have l2 := skipWs_le r.2
          obtain ⟨r', h'⟩ := iItems r.2.skipWs.2 (by omega)
          rw [h']
          exact ⟨_, rfl⟩

/-- More fuel gives the same result. -/
def AllMono (source : List Char) (n : Nat) : Prop :=
  (∀ c st r, parseEntries source n c st = some r → parseEntries source (n + 1) c st = some r) ∧
  (∀ c st r, parseEntry source n c st = some r → parseEntry source (n + 1) c st = some r) ∧
  (∀ c k st r, parseValues source n c k st = some r → parseValues source (n + 1) c k st = some r) ∧
  (∀ c st r, parseAttributes source n c st = some r →
    parseAttributes source (n + 1) c st = some r) ∧
  (∀ st r, parseAttribute source n st = some r → parseAttribute source (n + 1) st = some r) ∧
  (∀ st r, parseAtom source n st = some r → parseAtom source (n + 1) st = some r) ∧
  (∀ st r, parseItems source n st = some r → parseItems source (n + 1) st = some r)

theorem bind_mono {α β : Type} {a a' : Option α} {f f' : α → Option β}
    (ha : ∀ x, a = some x → a' = some x) (hf : ∀ x r, f x = some r → f' x = some r) :
    ∀ r, a.bind f = some r → a'.bind f' = some r := by
  intro r h
  rw [Option.bind_eq_some_iff] at h ⊢
  obtain ⟨x, h1, h2⟩ := h
  exact ⟨x, ha x h1, hf x r h2⟩

theorem ite_mono {α : Type} {c : Prop} [Decidable c] {a a' b b' : Option α}
    (ha : ∀ x, a = some x → a' = some x) (hb : ∀ x, b = some x → b' = some x) :
    ∀ r, (if c then a else b) = some r → (if c then a' else b') = some r := by
  intro r h
  split at h
  · rw [if_pos (by assumption)]; exact ha r h
  · rw [if_neg (by assumption)]; exact hb r h

theorem allMono (source : List Char) : ∀ n, AllMono source n := by
  intro n
  induction n with
  | zero =>
    refine ⟨?_, ?_, ?_, ?_, ?_, ?_, ?_⟩ <;> intros <;>
      simp_all [parseEntries, parseEntry, parseValues, parseAttributes, parseAttribute, parseAtom,
        parseItems]
  | succ n ih =>
    obtain ⟨iEntries, iEntry, iValues, iAttrs, iAttr, iAtom, iItems⟩ := ih
    refine ⟨?_, ?_, ?_, ?_, ?_, ?_, ?_⟩
    · intro c st
      rw [parseEntries, parseEntries]
      simp only [Option.bind_eq_bind]
      exact ite_mono (fun _ h => h) (bind_mono (iEntry _ _) fun _ =>
        bind_mono (iEntries _ _) fun _ _ h => h)
    · intro c st
      rw [parseEntry, parseEntry]
      simp only [Option.bind_eq_bind]
      exact ite_mono (bind_mono (iAttrs _ _) fun _ _ h => h) (bind_mono
        (ite_mono (fun _ h => h) (bind_mono (iAtom _) fun _ _ h => h)) fun _ =>
          bind_mono (iValues _ _ _) fun _ _ h => h)
    · intro c k st
      rw [parseValues, parseValues]
      simp only [Option.bind_eq_bind]
      exact ite_mono (fun _ h => h) (bind_mono (ite_mono (bind_mono (iAttrs _ _) fun _ _ h => h)
        (bind_mono (iAtom _) fun _ _ h => h)) fun _ => bind_mono (iValues _ _ _) fun _ _ h => h)
    · intro c st
      rw [parseAttributes, parseAttributes]
      simp only [Option.bind_eq_bind]
      exact ite_mono (bind_mono (iAttr _) fun _ => ite_mono (fun _ h => h)
        (bind_mono (iAttrs _ _) fun _ _ h => h)) (fun _ h => h)
    · intro st
      rw [parseAttribute, parseAttribute]
      simp only [Option.bind_eq_bind]
      exact bind_mono (iAtom _) fun _ _ h => h
    · intro st
      rw [parseAtom.eq_def, parseAtom.eq_def _ (n + 1 + 1)]
      simp only [Option.bind_eq_bind]
      intro r
      split
      · exact bind_mono (iEntries _ _) (fun _ _ h => h) r
      · exact bind_mono (iItems _) (fun _ _ h => h) r
      · exact fun h => h
      · cases st.toks with
        | nil => exact fun h => h
        | cons t ts =>
          exact bind_mono (ite_mono (bind_mono (iAtom _) fun _ _ h => h) (fun _ h => h))
            (fun _ _ h => h) r
      all_goals exact fun h => h
    · intro st
      rw [parseItems, parseItems]
      simp only [Option.bind_eq_bind]
      exact ite_mono (fun _ h => h) (ite_mono (fun _ h => h) (bind_mono (iAtom _) fun _ =>
        bind_mono (iItems _) fun _ _ h => h))

theorem parseFuel_mono (source : List Char) {n m : Nat} (h : n ≤ m) {r : Parse}
    (hr : parseFuel n source = some r) : parseFuel m source = some r := by
  induction h with
  | refl => exact hr
  | step _ ih =>
    simp only [parseFuel, Option.bind_eq_bind] at ih ⊢
    exact bind_mono ((allMono source _).1 _ _) (fun _ _ h => h) _ ih

theorem run_length (n : Nat) (t : Tok) : (Tok.run n t).length ≤ n := by
  induction n generalizing t with
  | zero => simp [Tok.run]
  | succ n ih =>
    rw [Tok.run]
    split
    rename_i tok t' _
    split
    · simp
    · simpa using ih t'

/-- The run of the parser as one fact. -/
theorem parse_spec (source : List Char) :
    ∃ g st, parseEntries source (8 * source.length + 32) none ⟨tokenIter source, []⟩ = some (g, st) ∧
      parse source = ⟨.node .DOCUMENT g, st.errors⟩ ∧
      Eats ⟨tokenIter source, []⟩ g st ∧ st.atEof = true := by
  have hl : (tokenIter source).length ≤ source.length + 3 := by
    have := run_length (source.length + 2) (Tok.new source)
    simp [tokenIter, tokenize]
    omega
  obtain ⟨⟨g, st⟩, h, he⟩ := (allFuel source (8 * source.length + 32)).1 none ⟨tokenIter source, []⟩
    (by simp only; omega)
  refine ⟨g, st, h, ?_, (allEat source _).1 _ _ _ h, by simpa using he⟩
  simp [parse, parseFuel, h]

end Styx.Cst
