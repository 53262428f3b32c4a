import Verif.Impl.ReadValue

/-! # How the parsers of the other implementations read shared texts: objects, sequences and attributes -/

namespace Styx.Impl

open Styx.Spec

/-! ## Keys -/

theorem sharedKey_tail {k e s} (h : SharedKey k e s) : e = .word ∨ e = .closed := keyText_tail h.key

theorem sharedFollows_blank {e : Tail} (he : e = .word ∨ e = .closed) {b : List Char} (hb : Blanks b) (hn : b ≠ [])
    (x : List Char) : SharedFollows e (b ++ x) := by
  rcases he with rfl | rfl
  · exact follows_blank (.inl rfl) hb hn x
  · trivial

theorem payload_not_bare {n v e s} (h : SharedScalar v .bare e s) (hp : SharedPayload n s) : False := by
  cases h with
  | bare h =>
    obtain ⟨c, r, rfl, hc⟩ := hp
    have := (h.1 c (by simp)).1
    unfold bareForbidden at this
    rcases hc with rfl | rfl | ⟨rfl, -⟩ <;> simp at this

theorem payload_not_heredoc {n v e s} (h : SharedScalar v .heredoc e s) (hp : SharedPayload n s) : False := by
  cases h with
  | heredoc =>
    obtain ⟨c, r, h, hc⟩ := hp
    cases h
    rcases hc with hc | hc | ⟨hc, -⟩ <;> cases hc

theorem sharedKey_facts {k e s} (h : SharedKey k e s) : isObject k = false ∧ validKey k = true ∧ shed k = k ∧
    (Dotless k → ((bareText k).getD []).contains '.' = false) := by
  cases h with
  | @scalar v k e s h hk =>
    refine ⟨rfl, ?_, rfl, ?_⟩
    · cases k <;> first | rfl | exact (hk rfl).elim
    · intro hd
      cases k with
      | bare => simpa [bareText, scalarValue] using hd v rfl
      | _ => rfl
  | unit => exact ⟨rfl, rfl, rfl, fun _ => rfl⟩
  | tag => exact ⟨rfl, rfl, rfl, fun _ => rfl⟩
  | @tagged n v k e s _ h hp _ =>
    cases k with
    | bare => exact (payload_not_bare h hp).elim
    | heredoc => exact (payload_not_heredoc h hp).elim
    | quoted => exact ⟨rfl, rfl, rfl, fun _ => rfl⟩
    | raw => exact ⟨rfl, rfl, rfl, fun _ => rfl⟩

theorem keyText_label (d : Dialect) (k : Value) {l : List Char} (h : keyText d k = some l) : keyLabel k = some l := by
  unfold keyText at h
  split at h
  · split at h <;> cases h
    rfl
  · cases h; rfl
  · cases h

/-- From the state before an entry to the one behind its key. -/
theorem key_start {d : Dialect} {kv : Value} {ke : Tail} {ks tail w : List Char} {st : St} (hk : Reads d kv ke ks)
    (hf : SharedFollows ke tail) (hl : Lexes d tail) (hw : core false w = ks ++ tail) (hr : Ready d w st) :
    (st.cur.kind ≠ .eof ∧ st.cur.kind ≠ .rbrace ∧ st.err = none) ∧
    ∃ N st1 st2, Ready d tail st2 ∧ opens st1.cur.kind = true ∧ st1.err = none ∧
      ∀ n, N ≤ n → skipCommas d n st = .ok () st1 ∧ parseValue d n st1 = .ok (shed kv) st2 := by
  have ho := hk.opens tail hf
  have hc : CoreLexes d w := by
    intro ws nl
    rw [hw]
    obtain ⟨t, r, h, -⟩ := ho.2 ws nl
    exact ⟨t, r, h⟩
  obtain ⟨N, ws, nl, st1, h1, h2, h3⟩ := skipCommas_spec w st hr hc
  rw [hw] at h1
  obtain ⟨g1, -, -, g2⟩ := h1.opens ho
  obtain ⟨N', st2, h4, h5⟩ := hk.reads tail ws nl st1 hf hl h1
  refine ⟨⟨?_, ?_, hr.err⟩, N + N', st1, st2, h4, g1, g2, fun n hn => ⟨h2 n (by omega), (h5 n (by omega)).1⟩⟩
  · intro h
    rcases h3 with h3 | rfl
    · rw [h] at h3; cases h3
    · rw [h] at g1; cases g1
  · intro h
    rcases h3 with h3 | rfl
    · rw [h] at h3; cases h3
    · rw [h] at g1; cases g1

theorem opens_not_ends {c : Tok} (h1 : opens c.kind = true) (h2 : c.nl = false) : endsKey c = false := by
  unfold endsKey
  rw [h2]
  cases hk : c.kind <;> rw [hk] at h1 <;> first | rfl | cases h1

/-! ## Entries of objects -/

theorem entry_value {d : Dialect} {k v : Value} {ke e : Tail} {ks b s tail w : List Char} {st : St}
    {seen : List (List Char)} (hk : SharedKey k ke ks) (hd : Dotless k) (hb : Blanks b) (hbn : b ≠ [])
    (hv : Reads d v e s) (hf : SharedFollows e tail) (hl : Lexes d tail)
    (hw : core false w = ks ++ (b ++ (s ++ tail))) (hr : Ready d w st) (hs : ∀ l, keyLabel k = some l → l ∉ seen) :
    (st.cur.kind ≠ .eof ∧ st.cur.kind ≠ .rbrace) ∧
    ∃ N st', Ready d tail st' ∧ ∀ n, N ≤ n →
      parseEntry d n seen st = .ok (some (.mk (shed k) (shed v) none), (keyText d k).toList ++ seen) st' := by
  have ho := hv.opens tail hf
  obtain ⟨hlex, hat⟩ := ho.blanks hb
  obtain ⟨⟨c1, c2, -⟩, N, st1, st2, h1, h2, h3, h4⟩ := key_start (reads_key d hk)
    (sharedFollows_blank (sharedKey_tail hk) hb hbn _) hlex hw hr
  obtain ⟨g1, g2, g3, g4⟩ := (hat st2 h1).opens ho
  obtain ⟨N', st', h5, h6⟩ := hv.reads tail _ _ st2 hf hl (hat st2 h1)
  obtain ⟨f1, f2, f3, f4⟩ := sharedKey_facts hk
  refine ⟨⟨c1, c2⟩, N + N' + 1, st', h5, ?_⟩
  intro n hn
  obtain ⟨n, rfl⟩ : ∃ m, n = m + 1 := ⟨n - 1, by omega⟩
  obtain ⟨h7, h8⟩ := h4 n (by omega)
  rw [f3] at h8
  rw [parseEntry, bind_ok h7, bind_ok (checkErr_none h3), bind_cur, if_neg (by rintro ⟨h, -⟩; rw [h] at h2; cases h2),
    if_neg (by rintro (h | h) <;> rw [h] at h2 <;> cases h2), bind_ok h8, bind_ok (checkErr_none g4), bind_cur,
    if_neg (by simp [f1]), if_neg (by rw [f4 hd]; simp)]
  have hdup : ((keyText d k).map seen.contains).getD false = false := by
    cases hkt : keyText d k with
    | none => rfl
    | some l => simpa using hs l (keyText_label d k hkt)
  simp only [hdup, f2, opens_not_ends g1 g3]
  rw [if_neg (by simp), if_neg (by simp), if_neg (by simp), bind_ok (h6 n (by omega)).1, f3]
  rfl

theorem entry_lone {d : Dialect} {k : Value} {ke : Tail} {ks tr t w : List Char} {st : St}
    {seen : List (List Char)} (hk : SharedKey k ke ks) (hd : Dotless k) (htr : Trailing tr)
    (hf : SharedFollows ke (tr ++ t)) (hend : LoneEnd tr t) (hl : Lexes d (tr ++ t))
    (hw : core false w = ks ++ (tr ++ t)) (hr : Ready d w st) (hs : ∀ l, keyLabel k = some l → l ∉ seen) :
    (st.cur.kind ≠ .eof ∧ st.cur.kind ≠ .rbrace) ∧
    ∃ N st', Ready d (tr ++ t) st' ∧ ∀ n, N ≤ n →
      parseEntry d n seen st = .ok (some (.mk (shed k) unitValue none), (keyText d k).toList ++ seen) st' := by
  obtain ⟨⟨c1, c2, -⟩, N, st1, st2, h1, h2, h3, h4⟩ := key_start (reads_key d hk) hf hl hw hr
  have hend' := loneEnd_next htr hend h1
  obtain ⟨f1, f2, f3, f4⟩ := sharedKey_facts hk
  refine ⟨⟨c1, c2⟩, N + 1, st2, h1, ?_⟩
  intro n hn
  obtain ⟨n, rfl⟩ : ∃ m, n = m + 1 := ⟨n - 1, by omega⟩
  obtain ⟨h7, h8⟩ := h4 n (by omega)
  rw [f3] at h8
  rw [parseEntry, bind_ok h7, bind_ok (checkErr_none h3), bind_cur, if_neg (by rintro ⟨h, -⟩; rw [h] at h2; cases h2),
    if_neg (by rintro (h | h) <;> rw [h] at h2 <;> cases h2), bind_ok h8, bind_ok (checkErr_none h1.err), bind_cur,
    if_neg (by simp [f1]), if_neg (by rw [f4 hd]; simp)]
  have hdup : ((keyText d k).map seen.contains).getD false = false := by
    cases hkt : keyText d k with
    | none => rfl
    | some l => simpa using hs l (keyText_label d k hkt)
  simp only [hdup, f2, hend']
  rw [if_neg (by simp), if_neg (by simp), if_pos trivial, f3]
  rfl

/-- The text `t`, up to a closing brace, is read as the entries `es`, whatever white space and commas stand in
front. -/
def ReadsEntries (d : Dialect) (es : List Entry) (t : List Char) : Prop :=
  HasInk t ∧ ∀ rest, CoreLexes d (t ++ rest) ∧ ∀ w st seen, core false w = core false (t ++ rest) → Ready d w st →
    (∀ e ∈ es, ∀ l, keyLabel (entryKey e) = some l → l ∉ seen) → DistinctLabels es →
    ∃ N tk, tk.kind = .rbrace ∧ ∀ n, N ≤ n → parseEntries d n seen st = .ok (shedEntries es) ⟨tk, none, rest, none⟩

theorem distinctLabels_cons {e : Entry} {es : List Entry} (h : DistinctLabels (e :: es)) :
    DistinctLabels es ∧ ∀ l, keyLabel (entryKey e) = some l → ∀ e' ∈ es, ∀ l', keyLabel (entryKey e') = some l' →
      l' ≠ l := by
  unfold DistinctLabels at *
  cases hk : keyLabel (entryKey e) with
  | none =>
    rw [List.filterMap_cons, hk] at h
    exact ⟨h, by simp⟩
  | some l =>
    rw [List.filterMap_cons, hk, List.pairwise_cons] at h
    refine ⟨h.2, ?_⟩
    intro l0 h0 e' he' l' hl' heq
    cases h0
    exact h.1 l' (List.mem_filterMap.2 ⟨e', he', hl'⟩) heq.symm

theorem entries_step {d : Dialect} {k v : Value} {doc} {es : List Entry} {t rest tail : List Char} {st st' : St}
    {seen : List (List Char)} {v' : Value} (hv : shed v = v') (ht : ReadsEntries d es t)
    (hne : st.cur.kind ≠ .eof ∧ st.cur.kind ≠ .rbrace) (hcore : core false tail = core false (t ++ rest))
    (hr : Ready d tail st') {N : Nat}
    (hp : ∀ n, N ≤ n → parseEntry d n seen st = .ok (some (.mk (shed k) v' none), (keyText d k).toList ++ seen) st')
    (hfresh : ∀ e ∈ Entry.mk k v doc :: es, ∀ l, keyLabel (entryKey e) = some l → l ∉ seen)
    (hdist : DistinctLabels (.mk k v doc :: es)) :
    ∃ N tk, tk.kind = .rbrace ∧ ∀ n, N ≤ n →
      parseEntries d n seen st = .ok (shedEntries (.mk k v doc :: es)) ⟨tk, none, rest, none⟩ := by
  obtain ⟨hdist', hnew⟩ := distinctLabels_cons hdist
  have hfresh' : ∀ e ∈ es, ∀ l, keyLabel (entryKey e) = some l → l ∉ (keyText d k).toList ++ seen := by
    intro e he l hl hm
    rcases List.mem_append.1 hm with hm | hm
    · cases hkt : keyText d k with
      | none => rw [hkt] at hm; cases hm
      | some l' =>
        rw [hkt] at hm
        simp at hm
        subst hm
        exact hnew l (keyText_label d k hkt) e he l hl rfl
    · exact hfresh e (List.mem_cons_of_mem _ he) l hl hm
  obtain ⟨hcl, hread⟩ := ht.2 rest
  -- a comma behind the entry
  have hstep : ∃ w2 st2, core false w2 = core false (t ++ rest) ∧ Ready d w2 st2 ∧
      (if st'.cur.kind = .comma then advance d st' = .ok () st2 else st2 = st') := by
    obtain ⟨tk, r, hn, rfl⟩ := hr
    by_cases hc : tk.kind = .comma
    · have hb := (core_behind_comma hn hc).1.trans hcore
      have : CoreLexes d r := by unfold CoreLexes; rw [hb]; exact hcl
      obtain ⟨t2, r2, hn2⟩ := this.lexes
      exact ⟨r, ⟨t2, none, r2, none⟩, hb, ⟨t2, r2, hn2, rfl⟩, by rw [if_pos hc]; exact advance_ok hn2⟩
    · exact ⟨tail, ⟨tk, none, r, none⟩, hcore, ⟨tk, r, hn, rfl⟩, by rw [if_neg hc]⟩
  obtain ⟨w2, st2, h1, h2, h3⟩ := hstep
  obtain ⟨N', tk, h4, h5⟩ := hread w2 st2 _ h1 h2 hfresh' hdist'
  refine ⟨N + N' + 1, tk, h4, ?_⟩
  intro n hn
  obtain ⟨n, rfl⟩ : ∃ m, n = m + 1 := ⟨n - 1, by omega⟩
  rw [parseEntries, bind_cur, if_neg (fun h => h.elim hne.2 hne.1), bind_ok (hp n (by omega))]
  simp only
  rw [bind_cur]
  by_cases hc : st'.cur.kind = .comma
  · rw [if_pos hc] at h3
    simp only [hc, if_true]
    rw [bind_ok h3, bind_ok (h5 n (by omega)), shedEntries, hv]
    rfl
  · rw [if_neg hc] at h3
    subst h3
    simp only [hc, if_false]
    refine (bind_ok (h5 n (by omega))).trans ?_
    rw [shedEntries, hv]
    rfl

/-! ## Sequences and attributes -/

/-- The text `t`, up to a closing parenthesis, is read as the items `vs`. -/
def ReadsItems (d : Dialect) (vs : List Value) (t : List Char) : Prop :=
  HasInk t ∧ ∀ rest, Lexes d (t ++ rest) ∧ ∀ st, Ready d (t ++ rest) st →
    ∃ N tk, tk.kind = .rparen ∧ ∀ n, N ≤ n → parseItems d n st = .ok (shedAll vs) ⟨tk, none, rest, none⟩

/-- The text `t` is a key, a `>` and a text that is read as the rest of the run of attributes `es`. -/
def ReadsAttrs (d : Dialect) (es : List Entry) (e : Tail) (t : List Char) : Prop :=
  ∃ k u, t = k ++ '>' :: u ∧ BareText k ∧ (∀ rest, SharedFollows e rest → Opens d (u ++ rest)) ∧
    ∀ rest st, SharedFollows e rest → LineRest rest → Lexes d rest → At d false false (u ++ rest) st →
      ∃ N st', Ready d rest st' ∧ ∀ n, N ≤ n → parseAttrs d n k st = .ok (shedEntries es) st'

theorem opens_bracket {d : Dialect} {c : Char} (x : List Char) (h : c = '(' ∨ c = '{') : Opens d (c :: x) := by
  rcases h with rfl | rfl
  · exact ⟨start_char (by decide) (by decide), fun ws nl => ⟨_, _, rfl, rfl⟩⟩
  · exact ⟨start_char (by decide) (by decide), fun ws nl => ⟨_, _, rfl, rfl⟩⟩

theorem reads_sequence {d : Dialect} {vs : List Value} {t : List Char} (h : ReadsItems d vs t) :
    Reads d (.mk none (some (.sequence vs none)) none) .closed ('(' :: t) where
  opens rest _ := opens_bracket _ (.inl rfl)
  reads rest ws nl st _ hl hst := by
    obtain ⟨tk, r, h1, rfl⟩ := hst
    cases h1
    obtain ⟨hl1, hr1⟩ := h.2 rest
    obtain ⟨st1, h2, h3⟩ := hl1.advance ⟨.lparen, ['('], ws, nl⟩
    obtain ⟨N, tk, h4, h5⟩ := hr1 st1 h2
    obtain ⟨st', h6, h7⟩ := hl.advance tk
    refine ⟨N + 2, st', h6, ?_⟩
    intro n hn
    obtain ⟨n, rfl⟩ : ∃ m, n = m + 2 := ⟨n - 2, by omega⟩
    have hp : parseSequence d (n + 1) ⟨⟨.lparen, ['('], ws, nl⟩, none, t ++ rest, none⟩ = .ok (shedAll vs) st' := by
      rw [parseSequence, bind_ok h3, bind_ok (h5 n (by omega)), bind_cur, if_neg (by simp [h4]), bind_ok h7]
      rfl
    constructor
    · rw [parseValue, bind_ok (checkErr_none rfl), bind_cur]
      exact bind_ok hp
    · intro _
      rw [parseAttributeValue, bind_cur]
      exact bind_ok hp

theorem reads_object {d : Dialect} {es : List Entry} {t : List Char} (h : ReadsEntries d es t)
    (hd : DistinctLabels es) : Reads d (.mk none (some (.object es none)) none) .closed ('{' :: t) where
  opens rest _ := opens_bracket _ (.inr rfl)
  reads rest ws nl st _ hl hst := by
    obtain ⟨tk, r, h1, rfl⟩ := hst
    cases h1
    obtain ⟨hl1, hr1⟩ := h.2 rest
    obtain ⟨st1, h2, h3⟩ := hl1.lexes.advance ⟨.lbrace, ['{'], ws, nl⟩
    obtain ⟨N, tk, h4, h5⟩ := hr1 (t ++ rest) st1 [] rfl h2 (by simp) hd
    obtain ⟨st', h6, h7⟩ := hl.advance tk
    refine ⟨N + 2, st', h6, ?_⟩
    intro n hn
    obtain ⟨n, rfl⟩ : ∃ m, n = m + 2 := ⟨n - 2, by omega⟩
    have hp : parseObject d (n + 1) ⟨⟨.lbrace, ['{'], ws, nl⟩, none, t ++ rest, none⟩ = .ok (shedEntries es) st' := by
      rw [parseObject, bind_ok h3, bind_ok (h5 n (by omega)), bind_cur, if_neg (by simp [h4]), bind_ok h7]
      rfl
    constructor
    · rw [parseValue, bind_ok (checkErr_none rfl), bind_cur]
      exact bind_ok hp
    · intro _
      rw [parseAttributeValue, bind_cur]
      exact bind_ok hp

theorem lex_gt (d : Dialect) (x : List Char) : nextToken d ('>' :: x) = .ok (⟨.gt, ['>'], false, false⟩, x) := rfl

theorem opens_attr {d : Dialect} {k u : List Char} (hk : BareText k) : Opens d (k ++ '>' :: u) :=
  ⟨start_bare hk (by simp), fun ws nl => ⟨_, _, lex_bare d ws nl hk (.inr ⟨'>', u, rfl, by decide⟩), rfl⟩⟩

theorem badAfterGt_false (d : Dialect) {c : Tok} (h1 : opens c.kind = true) (h2 : c.ws = false) (h3 : c.nl = false) :
    badAfterGt d c = false := by
  unfold badAfterGt
  cases d <;> simp only [h2, h3] <;> cases hk : c.kind <;> rw [hk] at h1 <;> first | rfl | cases h1

theorem reads_attributes {d : Dialect} {es : List Entry} {e : Tail} {t : List Char} (h : ReadsAttrs d es e t) :
    Reads d (.mk none (some (.object es none)) none) (.attrs e) t := by
  obtain ⟨k, u, rfl, hk, ho, hr⟩ := h
  constructor
  · intro rest _
    rw [List.append_assoc]
    exact opens_attr hk
  · rintro rest ws nl st ⟨hf, hlr⟩ hl hst
    obtain ⟨tk, r, h1, rfl⟩ := hst
    rw [List.append_assoc, List.cons_append, lex_bare d ws nl hk (.inr ⟨'>', _, rfl, by decide⟩)] at h1
    cases h1
    have ho := ho rest hf
    obtain ⟨c, r, hc, hco⟩ := ho.2 false false
    have hn : nextToken d (u ++ rest) = .ok (c, r) := by
      unfold nextToken
      rw [skipSpace_start ho.1]
      exact hc
    obtain ⟨c1, c2⟩ := readToken_flags hc
    have hbad := badAfterGt_false d hco c1 c2
    obtain ⟨N, st', h2, h3⟩ := hr rest ⟨c, none, r, none⟩ hf hlr hl ⟨c, r, hc, rfl⟩
    refine ⟨N + 1, st', h2, ?_⟩
    intro n hn1
    obtain ⟨n, rfl⟩ : ∃ m, n = m + 1 := ⟨n - 1, by omega⟩
    refine ⟨?_, nofun⟩
    rw [parseValue, bind_ok (checkErr_none rfl), bind_cur]
    show (advance d >>= _) _ = _
    rw [bind_ok (advance_ok (lex_gt d _)), bind_cur, if_pos ⟨rfl, rfl⟩]
    cases d with
    | python =>
      have hpk : peek .python ⟨⟨.gt, ['>'], false, false⟩, none, u ++ rest, none⟩ =
          .ok c ⟨⟨.gt, ['>'], false, false⟩, some c, r, none⟩ := by
        unfold peek
        simp only [hn]
      simp only
      rw [bind_ok hpk, if_neg (by rw [hbad]; simp),
        bind_ok (p := advance .python) (a := ()) (st' := ⟨c, none, r, none⟩) rfl, bind_ok (h3 n (by omega))]
      rfl
    | javascript =>
      simp only
      rw [bind_ok (advance_ok hn), bind_cur, if_neg (by rw [hbad]; simp), bind_ok (h3 n (by omega))]
      rfl
    | go =>
      simp only
      rw [bind_ok (advance_ok hn), bind_cur, if_neg (by rw [hbad]; simp), bind_ok (h3 n (by omega))]
      rfl

theorem attrs_one {d : Dialect} {k s : List Char} {v : Value} {e : Tail} (hk : BareText k) (hv : Reads d v e s)
    (he : e.notAttrs) : ReadsAttrs d [.mk (scalarValue k .bare) v none] e (k ++ '>' :: s) := by
  refine ⟨k, s, rfl, hk, hv.opens, ?_⟩
  intro rest st hf hlr hl hst
  obtain ⟨N, st', h1, h2⟩ := hv.reads rest _ _ st hf hl hst
  refine ⟨N + 1, st', h1, ?_⟩
  intro n hn
  obtain ⟨n, rfl⟩ : ∃ m, n = m + 1 := ⟨n - 1, by omega⟩
  rw [parseAttrs, bind_ok ((h2 n (by omega)).2 he), bind_cur, if_neg (lineRest_next hlr h1)]
  rfl

theorem attrs_cons {d : Dialect} {k s b t : List Char} {v : Value} {es : List Entry} {e e' : Tail} (hk : BareText k)
    (hv : Reads d v e s) (he : e.notAttrs) (hb : Blanks b) (ht : ReadsAttrs d es e' t) (hf : SharedFollows e (b ++ t)) :
    ReadsAttrs d (.mk (scalarValue k .bare) v none :: es) e' (k ++ '>' :: s ++ b ++ t) := by
  obtain ⟨k', u, rfl, hk', ho, hr⟩ := ht
  have hink : HasInk (b ++ (k' ++ '>' :: u)) := ((inkHead (bareText_head hk')).append_left _).append_right _
  have hf' : ∀ rest, SharedFollows e (b ++ (k' ++ '>' :: u) ++ rest) := fun rest => sharedFollows_append hf hink rest
  refine ⟨k, s ++ (b ++ (k' ++ '>' :: u)), by simp, hk, ?_, ?_⟩
  · intro rest _
    rw [List.append_assoc]
    exact hv.opens _ (hf' rest)
  · intro rest st hfr hlr hl hst
    rw [List.append_assoc] at hst
    have hok := opens_attr (d := d) (u := u ++ rest) hk'
    obtain ⟨hlex, hat⟩ := hok.blanks hb
    have hassoc : b ++ (k' ++ '>' :: u) ++ rest = b ++ (k' ++ '>' :: (u ++ rest)) := by simp
    obtain ⟨N, st1, h1, h2⟩ := hv.reads _ _ _ st (hf' rest) (by rw [hassoc]; exact hlex) hst
    rw [hassoc] at h1
    obtain ⟨tk, r, h3, rfl⟩ := hat st1 h1
    rw [lex_bare d _ _ hk' (.inr ⟨'>', _, rfl, by decide⟩)] at h3
    cases h3
    have hou := ho rest hfr
    obtain ⟨c, r, hc, hco⟩ := hou.2 false false
    have hn : nextToken d (u ++ rest) = .ok (c, r) := by
      unfold nextToken
      rw [skipSpace_start hou.1]
      exact hc
    obtain ⟨c1, c2⟩ := readToken_flags hc
    have hbad := badAfterGt_false d hco c1 c2
    obtain ⟨N', st', h4, h5⟩ := hr rest ⟨c, none, r, none⟩ hfr hlr hl ⟨c, r, hc, rfl⟩
    refine ⟨N + N' + 1, st', h4, ?_⟩
    intro n hn1
    obtain ⟨n, rfl⟩ : ∃ m, n = m + 1 := ⟨n - 1, by omega⟩
    have hpk : ∀ c0 : Tok, peek d ⟨c0, none, '>' :: (u ++ rest), none⟩ =
        .ok ⟨.gt, ['>'], false, false⟩ ⟨c0, some ⟨.gt, ['>'], false, false⟩, u ++ rest, none⟩ := by
      intro c0
      unfold peek
      simp only [lex_gt]
    rw [parseAttrs, bind_ok ((h2 n (by omega)).2 he), bind_cur, if_pos ⟨rfl, rfl⟩, bind_ok (hpk _), if_pos ⟨rfl, rfl⟩,
      bind_ok (p := advance d) (a := ()) (st' := ⟨⟨.gt, ['>'], false, false⟩, none, u ++ rest, none⟩) rfl,
      bind_ok (advance_ok hn), bind_cur, if_neg (by rintro ⟨-, h⟩; simp only at h; rw [hbad] at h; cases h),
      bind_ok (h5 n (by omega))]
    rfl

theorem items_nil {d : Dialect} {g : List Char} (hg : Gap false g) : ReadsItems d [] (g ++ [')']) := by
  refine ⟨⟨')', by simp, by decide⟩, ?_⟩
  intro rest
  have hst : Start (')' :: rest) := start_char (by decide) (by decide)
  obtain ⟨ws, nl, hs⟩ := skipSpace_gap hg (')' :: rest) false false
  rw [skipSpace_start hst] at hs
  have hassoc : g ++ [')'] ++ rest = g ++ ')' :: rest := by simp
  rw [hassoc]
  have hn : nextToken d (g ++ ')' :: rest) = .ok (⟨.rparen, [')'], ws, nl⟩, rest) := by
    unfold nextToken
    rw [hs]
    rfl
  refine ⟨⟨_, _, hn⟩, ?_⟩
  rintro st ⟨t, r, h, rfl⟩
  rw [hn] at h
  cases h
  refine ⟨1, ⟨.rparen, [')'], ws, nl⟩, rfl, ?_⟩
  intro n hn
  obtain ⟨n, rfl⟩ : ∃ m, n = m + 1 := ⟨n - 1, by omega⟩
  rw [parseItems, bind_cur, if_pos (.inl rfl)]
  rfl

theorem items_cons {d : Dialect} {g s t : List Char} {v : Value} {vs : List Value} {e : Tail} (hg : Gap false g)
    (hv : Reads d v e s) (ht : ReadsItems d vs t) (hf : SharedFollows e t) :
    ReadsItems d (v :: vs) (g ++ s ++ t) := by
  refine ⟨ht.1.append_right _, ?_⟩
  intro rest
  have hf' := sharedFollows_append hf ht.1 rest
  have ho := hv.opens _ hf'
  have hassoc : g ++ s ++ t ++ rest = g ++ (s ++ (t ++ rest)) := by simp
  rw [hassoc]
  obtain ⟨hlex, hat⟩ := ho.gap hg
  refine ⟨hlex, ?_⟩
  intro st hst
  obtain ⟨ws, nl, hst⟩ := hat st hst
  obtain ⟨hl, hr⟩ := ht.2 rest
  obtain ⟨o1, -, -, -⟩ := hst.opens ho
  obtain ⟨N, st', h1, h2⟩ := hv.reads _ _ _ st hf' hl hst
  obtain ⟨N', tk, h3, h4⟩ := hr st' h1
  refine ⟨N + N' + 1, tk, h3, ?_⟩
  intro n hn
  obtain ⟨n, rfl⟩ : ∃ m, n = m + 1 := ⟨n - 1, by omega⟩
  rw [parseItems, bind_cur, if_neg (by rintro (h | h) <;> rw [h] at o1 <;> cases o1),
    if_neg (by intro h; rw [h] at o1; cases o1), bind_ok (h2 n (by omega)).1, bind_ok (h4 n (by omega)), shedAll]
  rfl

theorem entries_nil {d : Dialect} {g : List Char} (hg : Gap true g) : ReadsEntries d [] (g ++ ['}']) := by
  refine ⟨⟨'}', by simp, by decide⟩, ?_⟩
  intro rest
  have hst : Start ('}' :: rest) := start_char (by decide) (by decide)
  have hcore : core false (g ++ ['}'] ++ rest) = '}' :: rest := by
    rw [List.append_assoc, core_gap hg]
    exact core_start hst (by simp)
  have hcl : ∀ w, core false w = '}' :: rest → CoreLexes d w := by
    intro w hw ws nl
    rw [hw]
    exact ⟨_, _, rfl⟩
  refine ⟨hcl _ hcore, ?_⟩
  intro w st seen hw hr _ _
  rw [hcore] at hw
  obtain ⟨N, ws, nl, st1, h1, h2, h3⟩ := skipCommas_spec w st hr (hcl w hw)
  rw [hw] at h1
  obtain ⟨t, r, h1, rfl⟩ := h1
  cases h1
  refine ⟨N + 2, ⟨.rbrace, ['}'], ws, nl⟩, rfl, ?_⟩
  intro n hn
  obtain ⟨n, rfl⟩ : ∃ m, n = m + 2 := ⟨n - 2, by omega⟩
  rcases h3 with h3 | rfl
  · have hp : parseEntry d (n + 1) seen st = .ok (none, seen) ⟨⟨.rbrace, ['}'], ws, nl⟩, none, rest, none⟩ := by
      rw [parseEntry, bind_ok (h2 n (by omega)), bind_ok (checkErr_none rfl), bind_cur, if_neg (by simp),
        if_pos (.inr rfl)]
      rfl
    rw [parseEntries, bind_cur, if_neg (by rintro (h | h) <;> rw [h] at h3 <;> cases h3), bind_ok hp]
    simp only
    rw [bind_cur]
    simp only [reduceCtorEq, if_false]
    have hq : parseEntries d (n + 1) seen ⟨⟨.rbrace, ['}'], ws, nl⟩, none, rest, none⟩ =
        .ok [] ⟨⟨.rbrace, ['}'], ws, nl⟩, none, rest, none⟩ := by
      rw [parseEntries, bind_cur, if_pos (.inl rfl)]
      rfl
    exact (bind_ok hq).trans rfl
  · rw [parseEntries, bind_cur, if_pos (.inl rfl)]
    rfl

theorem loneEnd_append {tr t : List Char} (h : LoneEnd tr t) (ht : HasInk t) (rest : List Char) :
    LoneEnd tr (t ++ rest) := by
  unfold LoneEnd at *
  split
  · rename_i htr
    rw [if_pos htr] at h
    obtain ⟨b, u, rfl, hb, hu⟩ := h
    have hun : u ≠ [] := by
      rintro rfl
      rw [List.append_nil] at ht
      exact not_ink_blanks hb ht
    refine ⟨b, u ++ rest, by simp, hb, ?_⟩
    rcases hu with hu | ⟨r, rfl⟩
    · exact .inl (atLineEnd_append hu hun rest)
    · exact .inr ⟨r ++ rest, rfl⟩
  · rename_i htr
    rw [if_neg htr] at h
    exact atLineEnd_append h ht.ne_nil rest

/-- **Values**: every parser reads the text of a value as that value. -/
theorem sharedValue_reads (d : Dialect) {v e s} (h : SharedValue v e s) : Reads d v e s := by
  refine SharedValue.rec (motive_1 := fun v e s _ => Reads d v e s) (motive_2 := fun vs t _ => ReadsItems d vs t)
    (motive_3 := fun es t _ => ReadsEntries d es t) (motive_4 := fun es e t _ => ReadsAttrs d es e t)
    ?_ ?_ ?_ ?_ ?_ ?_ ?_ ?_ ?_ ?_ ?_ ?_ ?_ ?_ h
  · intro v k e s h; exact reads_scalar d h
  · exact reads_unit d
  · intro n h; exact reads_tag d h
  · intro n p e s h1 _ h3 ih; exact reads_tagged d h1 h3 ih
  · intro vs t _ ih; exact reads_sequence ih
  · intro es t _ _ h1 ih; exact reads_object ih h1
  · intro es e t _ ih; exact reads_attributes ih
  · intro g h; exact items_nil h
  · intro g v e s vs t h1 _ _ h2 ih1 ih2; exact items_cons h1 ih1 ih2 h2
  · intro g h; exact entries_nil h
  · -- an entry with a value
    intro g ls dt k ke ks b v e s tr es t h1 h2 h3 h4 h5 h6 _ h7 _ h8 h9 ih1 ih2
    refine ⟨ih2.1.append_right _, ?_⟩
    intro rest
    have hf := sharedFollows_append h8 (ih2.1.append_right _) rest
    rw [List.append_assoc] at hf
    have hcore : core false (tr ++ (t ++ rest)) = core false (t ++ rest) := by
      refine core_trailing h7 ?_
      by_cases htr : tr = []
      · exact .inl htr
      · rw [EntryEnd, if_neg htr] at h9
        exact .inr (atLineEnd_append h9 ih2.1.ne_nil rest)
    have hcl : CoreLexes d (tr ++ (t ++ rest)) := by
      unfold CoreLexes
      rw [hcore]
      exact (ih2.2 rest).1
    have ho := (reads_key d h3).opens (b ++ (s ++ (tr ++ (t ++ rest))))
      (sharedFollows_blank (sharedKey_tail h3) h5 h6 _)
    have hall : core false (g ++ dt ++ ks ++ b ++ s ++ tr ++ t ++ rest) = ks ++ (b ++ (s ++ (tr ++ (t ++ rest)))) := by
      simp only [List.append_assoc]
      rw [core_gap h1, core_docLines h2, ho.core]
    constructor
    · intro ws nl
      rw [hall]
      obtain ⟨t, r, h, -⟩ := ho.2 ws nl
      exact ⟨t, r, h⟩
    · intro w st seen hw hr hfresh hdist
      rw [hall] at hw
      obtain ⟨g1, N, st', g2, g3⟩ := entry_value h3 h4 h5 h6 ih1 hf hcl.lexes hw hr
        (fun l hl => hfresh _ (List.mem_cons_self ..) l hl)
      exact entries_step rfl ih2 g1 hcore g2 g3 hfresh hdist
  · -- an entry without a value
    intro g ls dt k ke ks tr es t h1 h2 h3 h4 h7 _ h8 h9 ih2
    refine ⟨ih2.1.append_right _, ?_⟩
    intro rest
    have hf := sharedFollows_append h8 (ih2.1.append_right _) rest
    rw [List.append_assoc] at hf
    have hend : LoneEnd tr (t ++ rest) := loneEnd_append h9 ih2.1 rest
    have hcore : core false (tr ++ (t ++ rest)) = core false (t ++ rest) := by
      refine core_trailing h7 ?_
      by_cases htr : tr = []
      · exact .inl htr
      · rw [LoneEnd, if_neg htr] at hend
        exact .inr hend
    have hcl : CoreLexes d (tr ++ (t ++ rest)) := by
      unfold CoreLexes
      rw [hcore]
      exact (ih2.2 rest).1
    have ho := (reads_key d h3).opens (tr ++ (t ++ rest)) hf
    have hall : core false (g ++ dt ++ ks ++ tr ++ t ++ rest) = ks ++ (tr ++ (t ++ rest)) := by
      simp only [List.append_assoc]
      rw [core_gap h1, core_docLines h2, ho.core]
    constructor
    · intro ws nl
      rw [hall]
      obtain ⟨t, r, h, -⟩ := ho.2 ws nl
      exact ⟨t, r, h⟩
    · intro w st seen hw hr hfresh hdist
      rw [hall] at hw
      obtain ⟨g1, N, st', g2, g3⟩ := entry_lone h3 h4 h7 hf hend hcl.lexes hw hr
        (fun l hl => hfresh _ (List.mem_cons_self ..) l hl)
      exact entries_step (v' := unitValue) rfl ih2 g1 hcore g2 g3 hfresh hdist
  · intro k v e s h1 _ h2 ih; exact attrs_one h1 ih h2
  · intro k v e s b es e' t h1 _ h2 h3 _ h4 ih1 ih2; exact attrs_cons h1 ih1 h2 h3 ih2 h4

end Styx.Impl
