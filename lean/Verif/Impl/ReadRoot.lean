import Verif.Impl.PathsExact

/-! # How the parsers of the other implementations read shared documents -/

namespace Styx.Impl

open Styx.Spec

theorem dotted_join : ∀ p : List (List Char), dotted p = joinDots p
  | [] => rfl
  | [_] => rfl
  | s :: s' :: ss => by rw [dotted, joinDots, dotted_join (s' :: ss)] <;> simp

theorem join_dot {s s' : List Char} {ss : List (List Char)} : '.' ∈ joinDots (s :: s' :: ss) := by
  rw [joinDots] <;> simp

theorem isObject_shed (v : Value) : isObject (shed v) = isObject v := by
  match v with
  | .mk t none sp => rfl
  | .mk t (some (.scalar ..)) sp => rfl
  | .mk t (some (.sequence ..)) sp => rfl
  | .mk t (some (.object ..)) sp => rfl

theorem kind_shed (v : Value) : valueKind (shed v) = objectKind v := by
  unfold valueKind
  rw [isObject_shed]
  match v with
  | .mk t none sp => rfl
  | .mk t (some (.scalar ..)) sp => rfl
  | .mk t (some (.sequence ..)) sp => rfl
  | .mk t (some (.object ..)) sp => rfl

theorem shedEntries_cons (e : Entry) (es : List Entry) : shedEntries (e :: es) = shedEntries [e] ++ shedEntries es := by
  cases e; rfl

theorem nest_shed (v : Value) : ∀ (segs : List (List Char)) (doc : Option (List Char)), segs ≠ [] →
    shedEntries [nestKeys v (segs.map fun s => scalarValue s .bare) doc] = [nestPath (shed v) segs]
  | [], _, h => (h rfl).elim
  | [s], _, _ => rfl
  | s :: s' :: ss, doc, _ => by
    have ih := nest_shed v (s' :: ss) none (by simp)
    show [Entry.mk (shed (scalarValue s .bare)) (.mk none (some (.object
      (shedEntries [nestKeys v ((s' :: ss).map fun s => scalarValue s .bare) none]) none)) none) none] = _
    rw [ih]
    rfl

/-- A state before the text `t`, perhaps with commas in between. -/
def Near (d : Dialect) (t : List Char) (st : St) : Prop :=
  st.err = none ∧ ∃ N ws nl st1, At d ws nl (core false t) st1 ∧ (∀ n, N ≤ n → skipCommas d n st = .ok () st1) ∧
    (st.cur.kind = .comma ∨ st = st1)

theorem Ready.near {d : Dialect} {w t : List Char} {st : St} (h : Ready d w st) (hc : CoreLexes d t)
    (he : core false w = core false t) : Near d t st := by
  refine ⟨h.err, ?_⟩
  rw [← he]
  exact skipCommas_spec w st h (by unfold CoreLexes; rw [he]; exact hc)

theorem at_core_near {d : Dialect} {t : List Char} {ws nl : Bool} {st : St} (h : At d ws nl (core false t) st) :
    Near d t st := by
  obtain ⟨tk, r, h1, rfl⟩ := h
  refine ⟨rfl, 1, ws, nl, _, ⟨tk, r, h1, rfl⟩, ?_, .inr rfl⟩
  intro n hn
  obtain ⟨n, rfl⟩ : ∃ m, n = m + 1 := ⟨n - 1, by omega⟩
  rw [skipCommas, bind_cur, if_neg]
  · rfl
  · intro hk
    have := readToken_comma h1 hk
    have h2 := (core_head t false).2
    rw [this] at h2
    exact h2 rfl

/-- From the state before a root entry to the one behind its key. -/
theorem root_key_start {d : Dialect} {kv : Value} {ke : Tail} {ks tail t : List Char} {st : St} (hk : Reads d kv ke ks)
    (hf : SharedFollows ke tail) (hl : Lexes d tail) (hw : core false t = ks ++ tail) (hr : Near d t st) :
    st.cur.kind ≠ .eof ∧
    ∃ N st1 st2, Ready d tail st2 ∧ opens st1.cur.kind = true ∧ st1.err = none ∧
      ∀ n, N ≤ n → skipCommas d n st = .ok () st1 ∧ parseValue d n st1 = .ok (shed kv) st2 := by
  have ho := hk.opens tail hf
  obtain ⟨-, N, ws, nl, st1, h1, h2, h3⟩ := hr
  rw [hw] at h1
  obtain ⟨g1, -, -, g2⟩ := h1.opens ho
  obtain ⟨N', st2, h4, h5⟩ := hk.reads tail ws nl st1 hf hl h1
  refine ⟨?_, N + N', st1, st2, h4, g1, g2, fun n hn => ⟨h2 n (by omega), (h5 n (by omega)).1⟩⟩
  intro h
  rcases h3 with h3 | rfl
  · rw [h] at h3; cases h3
  · rw [h] at g1; cases g1

/-- What the parsers do with the key of a root entry. -/
theorem rootKey_facts {d : Dialect} {ks path ke kt} (h : SharedRootKey ks path ke kt) :
    GoodPath path ∧ ∃ kv, Reads d kv ke kt ∧ shed kv = kv ∧ isObject kv = false ∧ validKey kv = true ∧
      (ke = .word ∨ ke = .closed) ∧
      ((((bareText kv).getD []).contains '.' = true ∧ splitDots ((bareText kv).getD []) = path ∧ [] ∉ path ∧
          2 ≤ path.length ∧ (ks = path.map fun s => scalarValue s .bare) ∧ watchedPath (d == .go) ks path = some path) ∨
        (((bareText kv).getD []).contains '.' = false ∧ ks = [kv] ∧
          ((keyText d kv).map fun k => [k]) = watchedPath (d == .go) ks path)) := by
  cases h with
  | @path segs h1 h2 h3 =>
    have hg : GoodPath path := ⟨h1, fun s hs => (h2 s hs).2⟩
    refine ⟨hg, scalarValue (dotted path) .bare, reads_key d (.scalar (.bare h3) (by simp)), rfl, rfl, rfl, .inl rfl, ?_⟩
    have hb : (bareText (scalarValue (dotted path) .bare)).getD [] = joinDots path := dotted_join path
    rw [hb]
    match path, h1, h2, h3, hg with
    | [s], _, h2, h3, _ =>
      right
      have hs := h2 s (by simp)
      refine ⟨by simpa [joinDots] using hs.2, rfl, ?_⟩
      simp [keyText, scalarValue, dotted, hs.1, watchedPath]
    | s :: s' :: ss, _, h2, _, hg =>
      left
      refine ⟨by simpa using join_dot, splitDots_join hg, fun hn => (h2 [] hn).1 rfl, by simp, rfl, by simp [watchedPath]⟩
  | @other k e s h1 h2 h3 h4 =>
    obtain ⟨f1, f2, f3, -⟩ := sharedKey_facts h1
    refine ⟨⟨by simp, by simpa using h4⟩, k, reads_key d h1, f3, f1, f2, sharedKey_tail h1, .inr ⟨?_, rfl, ?_⟩⟩
    · cases h1 with
      | @scalar v k _ _ _ _ =>
        cases k with
        | bare => exact (h2 v rfl).elim
        | _ => rfl
      | unit => rfl
      | tag => rfl
      | tagged => exact (h3 _ _ rfl).elim
    · cases h1 with
      | @scalar v k _ _ _ _ =>
        simp only [keyText, scalarValue, keyName, watchedPath]
        cases d <;> by_cases hv : v = [] <;> simp [hv]
      | unit => simp [keyText, watchedPath]
      | tag => simp [keyText, keyName, watchedPath]
      | tagged => exact (h3 _ _ rfl).elim

/-- What the path check does with an entry. -/
theorem track_cases (d : Dialect) {h : History} {ps : Paths} {p : List (List Char)} {k : PathValueKind}
    {key : Option (List (List Char))} (ht : Tracks h ps) (hkn : Knows h ps) (hio : PathsInOrder h)
    (hkey : key = none ∨ key = some p) (hp : GoodPath p) :
    (PathsInOrder (h ++ (key.map fun p => (p, k)).toList) ∧ ∃ ps', (∀ st, track d ps key k st = .ok ps' st) ∧
      Tracks (h ++ (key.map fun p => (p, k)).toList) ps' ∧ Knows (h ++ (key.map fun p => (p, k)).toList) ps') ∨
    (¬ PathsInOrder (h ++ (key.map fun p => (p, k)).toList) ∧ ∃ e, ∀ st, track d ps key k st = .fail e st) := by
  rcases hkey with rfl | rfl
  · simp only [Option.map_none, Option.toList_none, List.append_nil]
    exact .inl ⟨hio, ps, fun _ => rfl, ht, hkn⟩
  · simp only [Option.map_some, Option.toList_some]
    cases hc : checkPath d ps p k with
    | ok ps' =>
      have ho := order_of_ok hkn ht.good hio hp hc
      obtain ⟨ps2, h1, h2⟩ := tracks_step (d := d) (k' := k) ht ho hp id
      rw [hc] at h1
      cases h1
      refine .inl ⟨ho, ps', ?_, h2, knows_step hkn ht.good hp hc⟩
      intro st
      simp only [track, hc]
      rfl
    | error e =>
      refine .inr ⟨?_, e, ?_⟩
      · intro ho
        obtain ⟨ps2, h1, -⟩ := tracks_step (d := d) (k' := k) ht ho hp id
        rw [hc] at h1
        cases h1
      · intro st
        simp only [track, hc]
        rfl

theorem root_value {d : Dialect} {ks path ke kt b v e s tail t} {st : St} {ps : Paths}
    {doc : Option (List Char)} (hk : SharedRootKey ks path ke kt) (hb : Blanks b) (hbn : b ≠ []) (hv : Reads d v e s)
    (hf : SharedFollows e tail) (hl : Lexes d tail) (hw : core false t = kt ++ (b ++ (s ++ tail))) (hr : Near d t st) :
    st.cur.kind ≠ .eof ∧ ∃ N st' en, Ready d tail st' ∧ shedEntries [nestKeys v ks doc] = [en] ∧
      ∀ n, N ≤ n → parseRootEntry d n ps st =
        (track d ps (watchedPath (d == .go) ks path) (objectKind v) >>= fun ps' => pure (some en, ps')) st' := by
  obtain ⟨hg, kv, hkr, f3, f1, f2, hke, hcase⟩ := rootKey_facts (d := d) hk
  have hov := hv.opens tail hf
  obtain ⟨hlex, hat⟩ := hov.blanks hb
  obtain ⟨c1, N, st1, st2, h1, h2, h3, h4⟩ := root_key_start hkr (sharedFollows_blank hke hb hbn _) hlex hw hr
  obtain ⟨g1, g2, g3, g4⟩ := (hat st2 h1).opens hov
  obtain ⟨N', st', h5, h6⟩ := hv.reads tail _ _ st2 hf hl (hat st2 h1)
  rw [f3] at h4
  rcases hcase with ⟨e1, e2, e3, e4, e5, e6⟩ | ⟨e1, e2, e3⟩
  · refine ⟨c1, N + N', st', nestPath (shed v) path, h5, ?_, ?_⟩
    · rw [e5]; exact nest_shed v path doc hg.1
    · intro n hn
      obtain ⟨h7, h8⟩ := h4 n (by omega)
      rw [parseRootEntry, bind_ok h7, bind_ok (checkErr_none h3), bind_cur,
        if_neg (by rintro ⟨h, -⟩; rw [h] at h2; cases h2),
        if_neg (by rintro (h | h) <;> rw [h] at h2 <;> cases h2), bind_ok h8, bind_ok (checkErr_none g4), bind_cur,
        if_neg (by simp [f1]), if_pos e1]
      simp only [e2]
      rw [if_neg (by simpa using e3), bind_ok (h6 n (by omega)).1, e6, kind_shed]
  · refine ⟨c1, N + N', st', .mk kv (shed v) none, h5, ?_, ?_⟩
    · rw [e2, nestKeys, shedEntries, f3]; rfl
    · intro n hn
      obtain ⟨h7, h8⟩ := h4 n (by omega)
      rw [parseRootEntry, bind_ok h7, bind_ok (checkErr_none h3), bind_cur,
        if_neg (by rintro ⟨h, -⟩; rw [h] at h2; cases h2),
        if_neg (by rintro (h | h) <;> rw [h] at h2 <;> cases h2), bind_ok h8, bind_ok (checkErr_none g4), bind_cur,
        if_neg (by simp [f1]), if_neg (by rw [e1]; simp)]
      simp only [f2, opens_not_ends g1 g3]
      rw [if_neg (by simp), if_neg (by simp), bind_ok (h6 n (by omega)).1, e3, kind_shed]

theorem root_lone {d : Dialect} {ks seg ke kt tr u t} {st : St} {ps : Paths}
    {doc : Option (List Char)} (hk : SharedRootKey ks [seg] ke kt) (htr : Trailing tr)
    (hf : SharedFollows ke (tr ++ u)) (hend : LoneEnd tr u) (hl : Lexes d (tr ++ u))
    (hw : core false t = kt ++ (tr ++ u)) (hr : Near d t st) :
    st.cur.kind ≠ .eof ∧ ∃ N st' en, Ready d (tr ++ u) st' ∧
      shedEntries [nestKeys (.mk none none none) ks doc] = [en] ∧
      ∀ n, N ≤ n → parseRootEntry d n ps st =
        (track d ps (watchedPath (d == .go) ks [seg]) .terminal >>= fun ps' => pure (some en, ps')) st' := by
  obtain ⟨hg, kv, hkr, f3, f1, f2, hke, hcase⟩ := rootKey_facts (d := d) hk
  obtain ⟨c1, N, st1, st2, h1, h2, h3, h4⟩ := root_key_start hkr hf hl hw hr
  have hend' := loneEnd_next htr hend h1
  rw [f3] at h4
  rcases hcase with ⟨-, -, -, e4, -⟩ | ⟨e1, e2, e3⟩
  · simp at e4
  · refine ⟨c1, N, st2, .mk kv unitValue none, h1, ?_, ?_⟩
    · rw [e2, nestKeys, shedEntries, f3]; rfl
    · intro n hn
      obtain ⟨h7, h8⟩ := h4 n (by omega)
      rw [parseRootEntry, bind_ok h7, bind_ok (checkErr_none h3), bind_cur,
        if_neg (by rintro ⟨h, -⟩; rw [h] at h2; cases h2),
        if_neg (by rintro (h | h) <;> rw [h] at h2 <;> cases h2), bind_ok h8, bind_ok (checkErr_none h1.err), bind_cur,
        if_neg (by simp [f1]), if_neg (by rw [e1]; simp)]
      simp only [f2, hend']
      rw [if_neg (by simp), if_pos trivial, e3]

/-- The text `t` is read as the root entries `es` if the paths are in order, and rejected otherwise. -/
def ReadsRoot (d : Dialect) (es : List RootEntry) (t : List Char) : Prop :=
  CoreLexes d t ∧ (∀ ws nl st, At d ws nl (core false t) st → st.cur.kind ≠ .lbrace) ∧
  ∀ st ps h, Near d t st → Tracks h ps → Knows h ps → PathsInOrder h →
    (PathsInOrder (h ++ watched (d == .go) es) →
      ∃ N st', ∀ n, N ≤ n → parseRootEntries d n ps st = .ok (shedEntries (es.map RootEntry.tree)) st') ∧
    (¬ PathsInOrder (h ++ watched (d == .go) es) →
      ∃ N e st', ∀ n, N ≤ n → parseRootEntries d n ps st = .fail e st')

theorem watched_cons (go : Bool) (e : RootEntry) (es : List RootEntry) : watched go (e :: es) =
    ((watchedPath go e.keys e.path).map fun p => (p, objectKind e.value)).toList ++ watched go es := by
  unfold watched
  rw [List.filterMap_cons]
  cases watchedPath go e.keys e.path <;> rfl

theorem watchedPath_cases (go : Bool) (ks : List Value) (p : List (List Char)) :
    watchedPath go ks p = none ∨ watchedPath go ks p = some p := by
  unfold watchedPath
  split
  · exact .inl rfl
  · split
    · exact .inl rfl
    · exact .inr rfl

theorem bind_fail {α β : Type} {p : P α} {f : α → P β} {st st' : St} {e : Err} (h : p st = .fail e st') :
    (p >>= f) st = .fail e st' := by
  show P.bind p f st = _
  unfold P.bind
  rw [h]

theorem root_step {d : Dialect} {ps : Paths} {h : History} {e : RootEntry} {es : List RootEntry}
    {t tail : List Char} {st st' : St} {en : Entry} {N : Nat} (hr : ReadsRoot d es t) (hne : st.cur.kind ≠ .eof)
    (herr : st.err = none) (hcore : core false tail = core false t) (h1 : Ready d tail st') (ht : Tracks h ps)
    (hkn : Knows h ps) (hio : PathsInOrder h) (hp : GoodPath e.path) (h4 : shedEntries [e.tree] = [en])
    (h5 : ∀ n, N ≤ n → parseRootEntry d n ps st =
      (track d ps (watchedPath (d == .go) e.keys e.path) (objectKind e.value) >>= fun ps' => pure (some en, ps')) st') :
    (PathsInOrder (h ++ watched (d == .go) (e :: es)) → ∃ N st', ∀ n, N ≤ n →
      parseRootEntries d n ps st = .ok (shedEntries ((e :: es).map RootEntry.tree)) st') ∧
    (¬ PathsInOrder (h ++ watched (d == .go) (e :: es)) →
      ∃ N e st', ∀ n, N ≤ n → parseRootEntries d n ps st = .fail e st') := by
  rw [watched_cons, ← List.append_assoc]
  rcases track_cases d (k := objectKind e.value) ht hkn hio (watchedPath_cases (d == .go) e.keys e.path) hp with
    ⟨ho, ps', t1, t2, t3⟩ | ⟨ho, er, t1⟩
  · have h5' : ∀ n, N ≤ n → parseRootEntry d n ps st = .ok (some en, ps') st' := by
      intro n hn
      rw [h5 n hn, bind_ok (t1 _)]
      rfl
    obtain ⟨r1, r2⟩ := hr.2.2 st' ps' _ (h1.near hr.1 hcore) t2 t3 ho
    constructor
    · intro hall
      obtain ⟨N', st'', h6⟩ := r1 hall
      refine ⟨N + N' + 1, st'', ?_⟩
      intro n hn
      obtain ⟨n, rfl⟩ : ∃ m, n = m + 1 := ⟨n - 1, by omega⟩
      rw [parseRootEntries, bind_cur, if_neg hne, bind_ok (checkErr_none herr), bind_ok (h5' n (by omega))]
      simp only
      rw [bind_ok (h6 n (by omega)), List.map_cons, shedEntries_cons, h4]
      rfl
    · intro hall
      obtain ⟨N', er, st'', h6⟩ := r2 hall
      refine ⟨N + N' + 1, er, st'', ?_⟩
      intro n hn
      obtain ⟨n, rfl⟩ : ∃ m, n = m + 1 := ⟨n - 1, by omega⟩
      rw [parseRootEntries, bind_cur, if_neg hne, bind_ok (checkErr_none herr), bind_ok (h5' n (by omega))]
      exact bind_fail (h6 n (by omega))
  · refine ⟨fun hall => (ho (hall.sublist (List.sublist_append_left ..))).elim, fun _ => ⟨N + 1, er, st', ?_⟩⟩
    intro n hn
    obtain ⟨n, rfl⟩ : ∃ m, n = m + 1 := ⟨n - 1, by omega⟩
    rw [parseRootEntries, bind_cur, if_neg hne, bind_ok (checkErr_none herr)]
    refine bind_fail ?_
    rw [h5 n (by omega)]
    exact bind_fail (t1 _)

/-- A root entry does not begin with a brace. -/
theorem rootKey_not_brace {ks path ke kt} (h : SharedRootKey ks path ke kt) {d : Dialect} {ws nl : Bool}
    {x : List Char} {st : St} (ha : At d ws nl (kt ++ x) st) : st.cur.kind ≠ .lbrace := by
  have hh : ∃ c r, kt = c :: r ∧ c ≠ '{' := by
    have hb : ∀ {s}, BareText s → ∃ c r, s = c :: r ∧ c ≠ '{' := by
      intro s hs
      cases s with
      | nil => obtain ⟨-, c, r, h, -⟩ := hs; cases h
      | cons c r =>
        refine ⟨c, r, rfl, ?_⟩
        rintro rfl
        have := (hs.1 '{' (by simp)).1
        exact absurd this (by decide)
    cases h with
    | path _ _ h3 => exact hb h3
    | other h1 =>
      cases h1 with
      | scalar h _ =>
        cases h with
        | bare h => exact hb h
        | quoted => exact ⟨'"', _, rfl, by decide⟩
        | raw => exact ⟨'r', _, rfl, by decide⟩
        | heredoc => exact ⟨'<', _, rfl, by decide⟩
      | unit => exact ⟨'@', _, rfl, by decide⟩
      | tag => exact ⟨'@', _, rfl, by decide⟩
      | tagged => exact ⟨'@', _, rfl, by decide⟩
  obtain ⟨c, r, rfl, hc⟩ := hh
  obtain ⟨tk, r', h1, rfl⟩ := ha
  intro hk
  have := readToken_lbrace h1 hk
  cases this
  exact hc rfl

theorem sharedRoot_reads (d : Dialect) {es t} (h : SharedRoot es t) : ReadsRoot d es t := by
  induction h with
  | @nil g hg =>
    have hcore : core false g = [] := by
      have := core_gap hg []
      rw [List.append_nil] at this
      rw [this]; rfl
    refine ⟨?_, ?_, ?_⟩
    · intro ws nl; rw [hcore]; exact ⟨_, _, rfl⟩
    · intro ws nl st hst
      rw [hcore] at hst
      obtain ⟨tk, r, h, rfl⟩ := hst
      cases h
      simp
    · intro st ps h hn _ _ hio
      refine ⟨fun _ => ?_, fun hno => (hno (by simpa [watched] using hio)).elim⟩
      obtain ⟨herr, N, ws, nl, st1, h1, h2, h3⟩ := hn
      rw [hcore] at h1
      obtain ⟨tk, r, h1, rfl⟩ := h1
      cases h1
      refine ⟨N + 2, ⟨⟨.eof, [], ws, nl⟩, none, [], none⟩, ?_⟩
      intro n hn
      obtain ⟨n, rfl⟩ : ∃ m, n = m + 2 := ⟨n - 2, by omega⟩
      have hq : ∀ m, parseRootEntries d (m + 1) ps ⟨⟨.eof, [], ws, nl⟩, none, [], none⟩ =
          .ok [] ⟨⟨.eof, [], ws, nl⟩, none, [], none⟩ := by
        intro m
        rw [parseRootEntries, bind_cur, if_pos rfl]
        rfl
      rcases h3 with h3 | rfl
      · have hp : parseRootEntry d (n + 1) ps st = .ok (none, ps) ⟨⟨.eof, [], ws, nl⟩, none, [], none⟩ := by
          rw [parseRootEntry, bind_ok (h2 (n + 1) (by omega)), bind_ok (checkErr_none rfl), bind_cur, if_neg (by simp),
            if_pos (.inl rfl)]
          rfl
        rw [parseRootEntries, bind_cur, if_neg (by rw [h3]; simp), bind_ok (checkErr_none herr), bind_ok hp]
        exact (bind_ok (hq n)).trans rfl
      · exact hq _
  | @cons g ls dt ks path ke kt b v e s tr es t h1 h2 h3 h4 h5 h6 h7 _ h8 h9 ih =>
    have hcore : core false (tr ++ t) = core false t := by
      refine core_trailing h7 ?_
      by_cases htr : tr = []
      · exact .inl htr
      · rw [EntryEnd, if_neg htr] at h9
        exact .inr h9
    have hcl : CoreLexes d (tr ++ t) := by unfold CoreLexes; rw [hcore]; exact ih.1
    obtain ⟨hgood, kv, hkr, -, -, -, hke, -⟩ := rootKey_facts (d := d) h3
    have ho := hkr.opens (b ++ (s ++ (tr ++ t))) (sharedFollows_blank hke h4 h5 _)
    have hall : core false (g ++ dt ++ kt ++ b ++ s ++ tr ++ t) = kt ++ (b ++ (s ++ (tr ++ t))) := by
      simp only [List.append_assoc]
      rw [core_gap h1, core_docLines h2, ho.core]
    refine ⟨?_, ?_, ?_⟩
    · intro ws nl
      rw [hall]
      obtain ⟨t, r, h, -⟩ := ho.2 ws nl
      exact ⟨t, r, h⟩
    · intro ws nl st hst
      rw [hall] at hst
      exact rootKey_not_brace h3 hst
    · intro st ps h hn ht hkn hio
      obtain ⟨g1, N, st', en, g2, g3, g4⟩ := root_value (doc := docOf ls) h3 h4 h5
        (sharedValue_reads d h6) h8 hcl.lexes hall hn
      exact root_step (e := ⟨ks, path, v, docOf ls⟩) ih g1 hn.1 hcore g2 ht hkn hio hgood g3 g4
  | @lone g ls dt ks seg ke kt tr es t h1 h2 h3 h4 _ h5 h6 ih =>
    have hcore : core false (tr ++ t) = core false t := by
      refine core_trailing h4 ?_
      by_cases htr : tr = []
      · exact .inl htr
      · rw [LoneEnd, if_neg htr] at h6
        exact .inr h6
    have hcl : CoreLexes d (tr ++ t) := by unfold CoreLexes; rw [hcore]; exact ih.1
    obtain ⟨hgood, kv, hkr, -, -, -, hke, -⟩ := rootKey_facts (d := d) h3
    have ho := hkr.opens (tr ++ t) h5
    have hall : core false (g ++ dt ++ kt ++ tr ++ t) = kt ++ (tr ++ t) := by
      simp only [List.append_assoc]
      rw [core_gap h1, core_docLines h2, ho.core]
    refine ⟨?_, ?_, ?_⟩
    · intro ws nl
      rw [hall]
      obtain ⟨t, r, h, -⟩ := ho.2 ws nl
      exact ⟨t, r, h⟩
    · intro ws nl st hst
      rw [hall] at hst
      exact rootKey_not_brace h3 hst
    · intro st ps h hn ht hkn hio
      obtain ⟨g1, N, st', en, g2, g3, g4⟩ := root_lone (doc := docOf ls) h3 h4 h5 h6 hcl.lexes hall hn
      exact root_step (e := ⟨ks, [seg], .mk none none none, docOf ls⟩) ih g1 hn.1 hcore g2 ht hkn hio hgood g3 g4

/-- **Documents**: every parser reads a shared document as its entries if the paths it looks at are in order, and
rejects it otherwise. -/
theorem sharedRoot_parse (d : Dialect) {es s} (h : SharedRoot es s) :
    (PathsInOrder (watched (d == .go) es) →
      ∃ N, ∀ n, N ≤ n → parse d n s = some (.ok (shedEntries (es.map RootEntry.tree)))) ∧
    (¬ PathsInOrder (watched (d == .go) es) → ∃ e N, ∀ n, N ≤ n → parse d n s = some (.error e)) := by
  obtain ⟨hcl, hnb, hread⟩ := sharedRoot_reads d h
  obtain ⟨tk, r, hn⟩ := hcl.lexes
  obtain ⟨N, ws, nl, st1, h1, h2, -⟩ := skipCommas_spec s ⟨tk, none, r, none⟩ ⟨tk, r, hn, rfl⟩ hcl
  obtain ⟨r1, r2⟩ := hread st1 ⟨[], [], []⟩ [] (at_core_near h1) tracks_empty knows_empty
    ⟨by intro x y h; simp at h, by intro x y z q h; simp at h⟩
  rw [List.nil_append] at r1 r2
  have hdoc : ∀ n, N ≤ n → parseDocument d n ⟨tk, none, r, none⟩ = parseRootEntries d n ⟨[], [], []⟩ st1 := by
    intro n hn1
    rw [parseDocument, bind_ok (h2 n hn1), bind_cur, if_neg (hnb _ _ _ h1)]
  constructor
  · intro ho
    obtain ⟨N', st', h3⟩ := r1 ho
    refine ⟨N + N', fun n hn1 => ?_⟩
    unfold parse
    rw [hn]
    simp only [hdoc n (by omega), h3 n (by omega)]
  · intro ho
    obtain ⟨N', e, st', h3⟩ := r2 ho
    refine ⟨e, N + N', fun n hn1 => ?_⟩
    unfold parse
    rw [hn]
    simp only [hdoc n (by omega), h3 n (by omega)]

/-! ## Orders of paths -/

theorem PathsInOrder.kinds {es : List RootEntry} {f g : RootEntry → PathValueKind}
    (ho : PathsInOrder (es.map fun e => (e.path, f e))) (hfg : ∀ e, f e = .object → g e = .object) :
    PathsInOrder (es.map fun e => (e.path, g e)) := by
  constructor
  · intro x y h
    obtain ⟨l, hl, he⟩ := List.sublist_map_iff.1 h
    match l, he with
    | [a, b], he =>
      cases he
      obtain ⟨h1, h2⟩ := ho.1 (a.path, f a) (b.path, f b) (hl.map fun e : RootEntry => (e.path, f e))
      exact ⟨h1, fun h3 => hfg a (h2 h3)⟩
  · intro x y z q h
    obtain ⟨l, hl, he⟩ := List.sublist_map_iff.1 h
    match l, he with
    | [a, b, c], he =>
      cases he
      exact ho.2 (a.path, f a) (b.path, f b) (c.path, f c) q (hl.map fun e : RootEntry => (e.path, f e))

theorem watched_sublist (go : Bool) (es : List RootEntry) :
    (watched go es).Sublist (es.map fun e => (e.path, objectKind e.value)) := by
  induction es with
  | nil => exact .slnil
  | cons e es ih =>
    rw [watched_cons]
    rcases watchedPath_cases go e.keys e.path with h | h <;> rw [h]
    · exact ih.cons _
    · exact ih.cons_cons _

/-- Paths in order for the Rust implementation are in order for the others. -/
theorem watched_order (go : Bool) {es : List RootEntry} (ho : PathsInOrder (callsOf es)) :
    PathsInOrder (watched go es) := by
  refine PathsInOrder.sublist (PathsInOrder.kinds (f := fun e => pathKind e.value) ho ?_) (watched_sublist go es)
  rintro ⟨ks, p, v, doc⟩ h
  match v, h with
  | .mk none (some (.object ..)) _, _ => rfl

end Styx.Impl
