import Verif.Impl.Lex

/-! # How the parsers of the other implementations read shared texts: values -/

namespace Styx.Impl

open Styx.Spec

/-! ## States -/

/-- The parser is about to read the text `w`: its current token is the first one of `w`. -/
def Ready (d : Dialect) (w : List Char) (st : St) : Prop :=
  ∃ t r, nextToken d w = .ok (t, r) ∧ st = ⟨t, none, r, none⟩

/-- The same behind white space. -/
def At (d : Dialect) (ws nl : Bool) (x : List Char) (st : St) : Prop :=
  ∃ t r, readToken d ws nl x = .ok (t, r) ∧ st = ⟨t, none, r, none⟩

/-- The text has a first token. -/
def Lexes (d : Dialect) (w : List Char) : Prop := ∃ t r, nextToken d w = .ok (t, r)

theorem bind_ok {α β : Type} {p : P α} {f : α → P β} {st st' : St} {a : α} (h : p st = .ok a st') :
    (p >>= f) st = f a st' := by
  show P.bind p f st = _
  unfold P.bind
  rw [h]

theorem advance_ok {d : Dialect} {c t : Tok} {w r : List Char} (h : nextToken d w = .ok (t, r)) :
    advance d ⟨c, none, w, none⟩ = .ok () ⟨t, none, r, none⟩ := by
  unfold advance
  simp only [h]

theorem Lexes.advance {d : Dialect} {w : List Char} (h : Lexes d w) (c : Tok) :
    ∃ st', Ready d w st' ∧ Impl.advance d ⟨c, none, w, none⟩ = .ok () st' := by
  obtain ⟨t, r, h⟩ := h
  exact ⟨_, ⟨t, r, h, rfl⟩, advance_ok h⟩

theorem Ready.lexes {d : Dialect} {w : List Char} {st : St} (h : Ready d w st) : Lexes d w := by
  obtain ⟨t, r, h, -⟩ := h
  exact ⟨t, r, h⟩

theorem ready_iff {d : Dialect} {w : List Char} {st : St} :
    Ready d w st ↔ At d (skipSpace false false false w).1 (skipSpace false false false w).2.1
      (skipSpace false false false w).2.2 st := Iff.rfl

theorem Ready.err {d : Dialect} {w : List Char} {st : St} (h : Ready d w st) : st.err = none := by
  obtain ⟨t, r, -, rfl⟩ := h
  rfl

theorem checkErr_none {st : St} (h : st.err = none) : checkErr st = .ok () st := by
  unfold checkErr
  rw [h]

/-! ## What the next token is like -/

theorem readToken_flags {d : Dialect} {ws nl : Bool} {x : List Char} {t : Tok} {r : List Char}
    (h : readToken d ws nl x = .ok (t, r)) : t.ws = ws ∧ t.nl = nl := by
  cases x with
  | nil => cases h; exact ⟨rfl, rfl⟩
  | cons c cs =>
    rw [readToken] at h
    by_cases k0 : (c == '{') = true
    · rw [if_pos k0] at h; cases h; exact ⟨rfl, rfl⟩
    rw [if_neg k0] at h
    by_cases k1 : (c == '}') = true
    · rw [if_pos k1] at h; cases h; exact ⟨rfl, rfl⟩
    rw [if_neg k1] at h
    by_cases k2 : (c == '(') = true
    · rw [if_pos k2] at h; cases h; exact ⟨rfl, rfl⟩
    rw [if_neg k2] at h
    by_cases k3 : (c == ')') = true
    · rw [if_pos k3] at h; cases h; exact ⟨rfl, rfl⟩
    rw [if_neg k3] at h
    by_cases k4 : (c == ',') = true
    · rw [if_pos k4] at h; cases h; exact ⟨rfl, rfl⟩
    rw [if_neg k4] at h
    by_cases k5 : (c == '>') = true
    · rw [if_pos k5] at h; cases h; exact ⟨rfl, rfl⟩
    rw [if_neg k5] at h
    by_cases k6 : (c == '@') = true
    · rw [if_pos k6] at h
      split at h <;> cases h <;> exact ⟨rfl, rfl⟩
    rw [if_neg k6] at h
    by_cases k7 : (c == '"') = true
    · rw [if_pos k7] at h
      obtain ⟨a, -, ha⟩ := map_ok h
      cases ha; exact ⟨rfl, rfl⟩
    rw [if_neg k7] at h
    by_cases k8 : (c == 'r' && (cs.head? == some '"' || cs.head? == some '#')) = true
    · rw [if_pos k8] at h
      simp only at h
      split at h <;> cases h
      exact ⟨rfl, rfl⟩
    rw [if_neg k8] at h
    by_cases k9 : (c == '<' && cs.head? == some '<') = true
    · rw [if_pos k9] at h
      split at h
      · split at h <;> cases h
        exact ⟨rfl, rfl⟩
      · cases h
    rw [if_neg k9] at h
    cases h
    exact ⟨rfl, rfl⟩

theorem readToken_comma {d : Dialect} {ws nl : Bool} {x : List Char} {t : Tok} {r : List Char}
    (h : readToken d ws nl x = .ok (t, r)) (hk : t.kind = .comma) : x = ',' :: r := by
  cases x with
  | nil => cases h; cases hk
  | cons c cs =>
    rw [readToken] at h
    by_cases k0 : (c == '{') = true
    · rw [if_pos k0] at h; cases h; cases hk
    rw [if_neg k0] at h
    by_cases k1 : (c == '}') = true
    · rw [if_pos k1] at h; cases h; cases hk
    rw [if_neg k1] at h
    by_cases k2 : (c == '(') = true
    · rw [if_pos k2] at h; cases h; cases hk
    rw [if_neg k2] at h
    by_cases k3 : (c == ')') = true
    · rw [if_pos k3] at h; cases h; cases hk
    rw [if_neg k3] at h
    by_cases k4 : (c == ',') = true
    · rw [if_pos k4] at h; cases h
      simp at k4
      rw [k4]
    rw [if_neg k4] at h
    by_cases k5 : (c == '>') = true
    · rw [if_pos k5] at h; cases h; cases hk
    rw [if_neg k5] at h
    by_cases k6 : (c == '@') = true
    · rw [if_pos k6] at h
      split at h <;> cases h <;> cases hk
    rw [if_neg k6] at h
    by_cases k7 : (c == '"') = true
    · rw [if_pos k7] at h
      obtain ⟨a, -, ha⟩ := map_ok h
      cases ha; cases hk
    rw [if_neg k7] at h
    by_cases k8 : (c == 'r' && (cs.head? == some '"' || cs.head? == some '#')) = true
    · rw [if_pos k8] at h
      simp only at h
      split at h <;> cases h
      cases hk
    rw [if_neg k8] at h
    by_cases k9 : (c == '<' && cs.head? == some '<') = true
    · rw [if_pos k9] at h
      split at h
      · split at h <;> cases h
        cases hk
      · cases h
    rw [if_neg k9] at h
    cases h
    cases hk

theorem readToken_lbrace {d : Dialect} {ws nl : Bool} {x : List Char} {t : Tok} {r : List Char}
    (h : readToken d ws nl x = .ok (t, r)) (hk : t.kind = .lbrace) : x = '{' :: r := by
  cases x with
  | nil => cases h; cases hk
  | cons c cs =>
    rw [readToken] at h
    by_cases k0 : (c == '{') = true
    · rw [if_pos k0] at h; cases h
      simp at k0
      rw [k0]
    rw [if_neg k0] at h
    by_cases k1 : (c == '}') = true
    · rw [if_pos k1] at h; cases h; cases hk
    rw [if_neg k1] at h
    by_cases k2 : (c == '(') = true
    · rw [if_pos k2] at h; cases h; cases hk
    rw [if_neg k2] at h
    by_cases k3 : (c == ')') = true
    · rw [if_pos k3] at h; cases h; cases hk
    rw [if_neg k3] at h
    by_cases k4 : (c == ',') = true
    · rw [if_pos k4] at h; cases h; cases hk
    rw [if_neg k4] at h
    by_cases k5 : (c == '>') = true
    · rw [if_pos k5] at h; cases h; cases hk
    rw [if_neg k5] at h
    by_cases k6 : (c == '@') = true
    · rw [if_pos k6] at h
      split at h <;> cases h <;> cases hk
    rw [if_neg k6] at h
    by_cases k7 : (c == '"') = true
    · rw [if_pos k7] at h
      obtain ⟨a, -, ha⟩ := map_ok h
      cases ha; cases hk
    rw [if_neg k7] at h
    by_cases k8 : (c == 'r' && (cs.head? == some '"' || cs.head? == some '#')) = true
    · rw [if_pos k8] at h
      simp only at h
      split at h <;> cases h
      cases hk
    rw [if_neg k8] at h
    by_cases k9 : (c == '<' && cs.head? == some '<') = true
    · rw [if_pos k9] at h
      split at h
      · split at h <;> cases h
        cases hk
      · cases h
    rw [if_neg k9] at h
    cases h
    cases hk

theorem skipSpace_ws (cm nl : Bool) (s : List Char) : (skipSpace cm true nl s).1 = true := by
  induction s generalizing cm nl with
  | nil => rfl
  | cons c cs ih =>
    rw [skipSpace]
    split
    · exact ih _ _
    · split
      · exact ih _ _
      · split
        · exact ih _ _
        · split
          · exact ih _ _
          · rfl

/-- The token behind a word. -/
theorem word_next {d : Dialect} {rest : List Char} {st : St} (h : Follows .word rest) (hr : Ready d rest st) :
    st.cur.ws = true ∨ st.cur.kind = .eof ∨ st.cur.kind = .rbrace ∨ st.cur.kind = .rparen ∨ st.cur.kind = .comma := by
  rcases h with rfl | ⟨c, r, rfl, hc⟩
  · obtain ⟨t, r, h, rfl⟩ := hr
    cases h
    exact .inr (.inl rfl)
  · obtain ⟨t, r', h, rfl⟩ := ready_iff.1 hr
    simp only [List.mem_cons, List.not_mem_nil, or_false] at hc
    rcases hc with rfl | rfl | rfl | rfl | rfl | rfl | rfl
    · exact .inl ((readToken_flags h).1.trans (skipSpace_ws _ _ r))
    · exact .inl ((readToken_flags h).1.trans (skipSpace_ws _ _ r))
    · exact .inl ((readToken_flags h).1.trans (skipSpace_ws _ _ r))
    · exact .inl ((readToken_flags h).1.trans (skipSpace_ws _ _ r))
    · cases h; simp
    · cases h; simp
    · cases h; simp

theorem comment_next (ws nl : Bool) (r : List Char) :
    (skipSpace true ws nl r).2.2 = [] ∨ (skipSpace true ws nl r).2.1 = true := by
  induction r generalizing ws nl with
  | nil => exact .inl rfl
  | cons c r ih =>
    by_cases hc : c = '\n'
    · subst hc
      rw [skipSpace_newline]
      exact .inr (skipSpace_nl ..)
    · rw [skipSpace, if_pos (by simpa using hc)]
      exact ih _ _

theorem lineEnd_next {u : List Char} (h : AtLineEnd u) (cm ws nl : Bool) :
    (skipSpace cm ws nl u).2.2 = [] ∨ (skipSpace cm ws nl u).2.1 = true := by
  rcases h with rfl | ⟨r, rfl⟩ | ⟨r, rfl⟩
  · exact .inl rfl
  · have := skipSpace_lineBreak (.inl rfl) cm ws nl r
    rw [show '\n' :: r = ['\n'] ++ r from rfl, this]
    exact .inr (skipSpace_nl ..)
  · have := skipSpace_lineBreak (.inr rfl) cm ws nl r
    rw [show '\r' :: '\n' :: r = ['\r', '\n'] ++ r from rfl, this]
    exact .inr (skipSpace_nl ..)

theorem end_or_nl {d : Dialect} {ws nl : Bool} {x : List Char} {st : St} (hr : At d ws nl x st)
    (h : x = [] ∨ nl = true) : st.cur.kind = .eof ∨ st.cur.nl = true := by
  obtain ⟨t, r, h1, rfl⟩ := hr
  rcases h with rfl | rfl
  · cases h1; exact .inl rfl
  · exact .inr (readToken_flags h1).2

/-- The token behind a run of attributes. -/
theorem lineRest_next {d : Dialect} {rest : List Char} {st : St} (h : LineRest rest) (hr : Ready d rest st) :
    ¬ (st.cur.kind = .scalar ∧ st.cur.nl = false) := by
  obtain ⟨b, u, rfl, hb, h⟩ := h
  rw [ready_iff, skipSpace_blanks hb] at hr
  rintro ⟨h1, h2⟩
  have key : (skipSpace false (false || !b.isEmpty) false u).2.2 = [] ∨
      (skipSpace false (false || !b.isEmpty) false u).2.1 = true → False := by
    intro h
    rcases end_or_nl hr h with h | h
    · rw [h] at h1; cases h1
    · rw [h] at h2; cases h2
  rcases h with h | ⟨c, r, rfl, hc⟩ | ⟨r, rfl⟩
  · exact key (lineEnd_next h _ _ _)
  · have hst : Start (c :: r) := by
      refine .inr ⟨c, r, rfl, ?_, ?_⟩
      · simp at hc; rcases hc with rfl | rfl | rfl <;> rfl
      · rintro ⟨rfl, -⟩; simp at hc
    rw [skipSpace_start hst] at hr
    obtain ⟨t, r', h, rfl⟩ := hr
    simp at hc
    rcases hc with rfl | rfl | rfl <;> cases h <;> cases h1
  · rw [skipSpace_slashes] at hr key
    exact key (comment_next _ _ _)

/-- The token behind an entry without value. -/
theorem loneEnd_next {d : Dialect} {tr rest : List Char} {st : St} (ht : Trailing tr) (h : LoneEnd tr rest)
    (hr : Ready d (tr ++ rest) st) : endsKey st.cur = true := by
  have key : st.cur.kind = .eof ∨ st.cur.nl = true → endsKey st.cur = true := by
    unfold endsKey
    rintro (h | h) <;> simp [h]
  cases ht with
  | none =>
    rw [LoneEnd, if_pos rfl] at h
    obtain ⟨b, u, rfl, hb, h⟩ := h
    rw [List.nil_append, ready_iff, skipSpace_blanks hb] at hr
    rcases h with h | ⟨r, rfl⟩
    · exact key (end_or_nl hr (lineEnd_next h _ _ _))
    · obtain ⟨t, r', h, rfl⟩ := hr
      cases h
      rfl
  | @comment b c hb hc =>
    obtain ⟨r, rfl, hr', -⟩ := hc
    rw [LoneEnd, if_neg (by simp)] at h
    rw [List.append_assoc, ready_iff, skipSpace_blanks hb, List.cons_append, List.cons_append, skipSpace_slashes,
      skipSpace_comment fun h => (hr' _ h).1 rfl] at hr
    exact key (end_or_nl hr (lineEnd_next h _ _ _))

/-! ## Commas -/

/-- The text behind white space and commas has a first token. -/
def CoreLexes (d : Dialect) (w : List Char) : Prop := ∀ ws nl, ∃ t r, readToken d ws nl (core false w) = .ok (t, r)

theorem CoreLexes.lexes {d : Dialect} {w : List Char} (h : CoreLexes d w) : Lexes d w := by
  have h1 := core_skipSpace false false false w
  have h2 := skipSpace_to_start false false false w
  by_cases hc : (skipSpace false false false w).2.2.head? = some ','
  · cases hx : (skipSpace false false false w).2.2 with
    | nil => rw [hx] at hc; cases hc
    | cons c r =>
      rw [hx] at hc
      simp at hc
      subst hc
      refine ⟨⟨.comma, [','], (skipSpace false false false w).1, (skipSpace false false false w).2.1⟩, r, ?_⟩
      show readToken d _ _ (skipSpace false false false w).2.2 = _
      rw [hx]
      rfl
  · rw [core_start h2 hc] at h1
    obtain ⟨t, r, h⟩ := h (skipSpace false false false w).1 (skipSpace false false false w).2.1
    rw [h1] at h
    exact ⟨t, r, h⟩

/-- Behind a comma. -/
theorem core_behind_comma {d : Dialect} {w r : List Char} {t : Tok} (h : nextToken d w = .ok (t, r))
    (hk : t.kind = .comma) : core false r = core false w ∧ r.length < w.length := by
  have h1 := readToken_comma (d := d) (x := (skipSpace false false false w).2.2) h hk
  have h2 := skipSpace_length false false false w
  rw [core_skipSpace false false false w, h1, core_comma]
  rw [h1, List.length_cons] at h2
  exact ⟨rfl, h2⟩

theorem skipCommas_spec {d : Dialect} (w : List Char) (st : St) (hr : Ready d w st) (hc : CoreLexes d w) :
    ∃ N ws nl st1, At d ws nl (core false w) st1 ∧ (∀ n, N ≤ n → skipCommas d n st = .ok () st1) ∧
      (st.cur.kind = .comma ∨ st = st1) := by
  generalize hl : w.length = l
  induction l using Nat.strongRecOn generalizing w st with
  | _ l ih =>
    obtain ⟨t, r, hn, rfl⟩ := hr
    by_cases hk : t.kind = .comma
    · obtain ⟨h1, h2⟩ := core_behind_comma hn hk
      have hc' : CoreLexes d r := by unfold CoreLexes; rw [h1]; exact hc
      obtain ⟨t', r', hn'⟩ := hc'.lexes
      obtain ⟨N, ws, nl, st1, g1, g2, -⟩ := ih r.length (by omega) r ⟨t', none, r', none⟩ ⟨t', r', hn', rfl⟩ hc' rfl
      refine ⟨N + 1, ws, nl, st1, h1 ▸ g1, ?_, .inl hk⟩
      intro n hn1
      obtain ⟨n, rfl⟩ : ∃ m, n = m + 1 := ⟨n - 1, by omega⟩
      rw [skipCommas, bind_cur, if_pos hk, bind_ok (advance_ok hn')]
      exact g2 n (by omega)
    · refine ⟨1, (skipSpace false false false w).1, (skipSpace false false false w).2.1, ⟨t, none, r, none⟩, ?_, ?_, .inr rfl⟩
      · have h1 := core_skipSpace false false false w
        have h2 : (skipSpace false false false w).2.2.head? ≠ some ',' := by
          intro hh
          cases hx : (skipSpace false false false w).2.2 with
          | nil => rw [hx] at hh; cases hh
          | cons c y =>
            rw [hx] at hh
            simp at hh
            subst hh
            have hn : readToken d _ _ (skipSpace false false false w).2.2 = _ := hn
            rw [hx] at hn
            cases hn
            exact hk rfl
        rw [core_start (skipSpace_to_start ..) h2] at h1
        rw [h1]
        exact ⟨t, r, hn, rfl⟩
      · intro n hn1
        obtain ⟨n, rfl⟩ : ∃ m, n = m + 1 := ⟨n - 1, by omega⟩
        rw [skipCommas, bind_cur, if_neg hk]
        rfl

end Styx.Impl
