import Verif.Impl.ReadRoot
import Verif.Impl.Mono

/-! # Entries with a closing brace, but no opening one, make the parsers of the other implementations hang -/

namespace Styx.Impl

open Styx.Spec

/-- All assigned paths are among the labels `seen`. -/
def Among (seen : List (List Char)) (ps : Paths) : Prop := ∀ l k, ps.assigned.lookup l = some k → l ∈ seen

theorem track_single (d : Dialect) {seen : List (List Char)} {ps : Paths} (h : Among seen ps) (key : Value)
    (kind : PathValueKind) (hs : ∀ l, keyLabel key = some l → l ∉ seen) :
    ∃ ps', (∀ st, track d ps ((keyText d key).map fun k => [k]) kind st = .ok ps' st) ∧
      Among ((keyText d key).toList ++ seen) ps' := by
  cases hk : keyText d key with
  | none => exact ⟨ps, fun _ => rfl, h⟩
  | some l =>
    have hn : ps.assigned.lookup l = none := by
      cases hl : ps.assigned.lookup l with
      | none => rfl
      | some k => exact (hs l (keyText_label d key hk) (h l k hl)).elim
    have hc : checkPath d ps [l] kind = .ok ⟨[l], joinedPrefixes ps.current (commonLen [l] ps.current + 1)
        (ps.current.length + 1) ++ ps.closed, (l, kind) :: ps.assigned⟩ := by
      simp [checkPath, joinDots, hn, joinedPrefixes]
    refine ⟨_, fun st => by simp only [Option.map_some, track, hc]; rfl, ?_⟩
    intro l' k' hl'
    rw [List.lookup_cons] at hl'
    split at hl'
    · rename_i he
      simp at he
      simp [he]
    · simp [h l' k' hl']

/-- The loop over the root entries never ends here. -/
def Stuck (d : Dialect) (ps : Paths) (st : St) : Prop := ∃ N, ∀ n, N ≤ n → parseRootEntries d n ps st = .fuel

theorem bind_fuel {α β : Type} {p : P α} {f : α → P β} {st : St} (h : p st = .fuel) : (p >>= f) st = .fuel := by
  show P.bind p f st = _
  unfold P.bind
  rw [h]

/-- If an entry is read and the loop is stuck behind it, it is stuck. -/
theorem stuck_step {d : Dialect} {ps ps' : Paths} {st st' : St} {e : Option Entry} {N : Nat} (hne : st.cur.kind ≠ .eof)
    (herr : st.err = none) (h1 : ∀ n, N ≤ n → parseRootEntry d n ps st = .ok (e, ps') st') (h2 : Stuck d ps' st') :
    Stuck d ps st := by
  obtain ⟨N', h2⟩ := h2
  refine ⟨N + N' + 1, ?_⟩
  intro n hn
  obtain ⟨n, rfl⟩ : ∃ m, n = m + 1 := ⟨n - 1, by omega⟩
  rw [parseRootEntries, bind_cur, if_neg hne, bind_ok (checkErr_none herr), bind_ok (h1 n (by omega))]
  exact bind_fuel (h2 n (by omega))

theorem stray_value {d : Dialect} {k v : Value} {ke e : Tail} {ks b s tail t : List Char} {st : St} {ps : Paths}
    {seen : List (List Char)} (hk : SharedKey k ke ks) (hd : Dotless k) (hb : Blanks b) (hbn : b ≠ [])
    (hv : Reads d v e s) (hf : SharedFollows e tail) (hl : Lexes d tail)
    (hw : core false t = ks ++ (b ++ (s ++ tail))) (hr : Near d t st) (ha : Among seen ps)
    (hs : ∀ l, keyLabel k = some l → l ∉ seen) :
    st.cur.kind ≠ .eof ∧ ∃ N st' ps' en, Ready d tail st' ∧ Among ((keyText d k).toList ++ seen) ps' ∧
      ∀ n, N ≤ n → parseRootEntry d n ps st = .ok (some en, ps') st' := by
  have ho := hv.opens tail hf
  obtain ⟨hlex, hat⟩ := ho.blanks hb
  obtain ⟨c1, N, st1, st2, h1, h2, h3, h4⟩ := root_key_start (reads_key d hk)
    (sharedFollows_blank (sharedKey_tail hk) hb hbn _) hlex hw hr
  obtain ⟨g1, g2, g3, g4⟩ := (hat st2 h1).opens ho
  obtain ⟨N', st', h5, h6⟩ := hv.reads tail _ _ st2 hf hl (hat st2 h1)
  obtain ⟨f1, f2, f3, f4⟩ := sharedKey_facts hk
  obtain ⟨ps', t1, t2⟩ := track_single d ha k (valueKind (shed v)) hs
  rw [f3] at h4
  refine ⟨c1, N + N', st', ps', .mk k (shed v) none, h5, t2, ?_⟩
  intro n hn
  obtain ⟨h7, h8⟩ := h4 n (by omega)
  rw [parseRootEntry, bind_ok h7, bind_ok (checkErr_none h3), bind_cur,
    if_neg (by rintro ⟨h, -⟩; rw [h] at h2; cases h2),
    if_neg (by rintro (h | h) <;> rw [h] at h2 <;> cases h2), bind_ok h8, bind_ok (checkErr_none g4), bind_cur,
    if_neg (by simp [f1]), if_neg (by rw [f4 hd]; simp)]
  simp only [f2, opens_not_ends g1 g3]
  rw [if_neg (by simp), if_neg (by simp), bind_ok (h6 n (by omega)).1, bind_ok (t1 _)]
  rfl

theorem stray_lone {d : Dialect} {k : Value} {ke : Tail} {ks tr u t : List Char} {st : St} {ps : Paths}
    {seen : List (List Char)} (hk : SharedKey k ke ks) (hd : Dotless k) (htr : Trailing tr)
    (hf : SharedFollows ke (tr ++ u)) (hend : LoneEnd tr u) (hl : Lexes d (tr ++ u))
    (hw : core false t = ks ++ (tr ++ u)) (hr : Near d t st) (ha : Among seen ps)
    (hs : ∀ l, keyLabel k = some l → l ∉ seen) :
    st.cur.kind ≠ .eof ∧ ∃ N st' ps' en, Ready d (tr ++ u) st' ∧ Among ((keyText d k).toList ++ seen) ps' ∧
      ∀ n, N ≤ n → parseRootEntry d n ps st = .ok (some en, ps') st' := by
  obtain ⟨c1, N, st1, st2, h1, h2, h3, h4⟩ := root_key_start (reads_key d hk) hf hl hw hr
  have hend' := loneEnd_next htr hend h1
  obtain ⟨f1, f2, f3, f4⟩ := sharedKey_facts hk
  obtain ⟨ps', t1, t2⟩ := track_single d ha k .terminal hs
  rw [f3] at h4
  refine ⟨c1, N, st2, ps', .mk k unitValue none, h1, t2, ?_⟩
  intro n hn
  obtain ⟨h7, h8⟩ := h4 n (by omega)
  rw [parseRootEntry, bind_ok h7, bind_ok (checkErr_none h3), bind_cur,
    if_neg (by rintro ⟨h, -⟩; rw [h] at h2; cases h2),
    if_neg (by rintro (h | h) <;> rw [h] at h2 <;> cases h2), bind_ok h8, bind_ok (checkErr_none h1.err), bind_cur,
    if_neg (by simp [f1]), if_neg (by rw [f4 hd]; simp)]
  simp only [f2, hend']
  rw [if_neg (by simp), if_pos trivial, bind_ok (t1 _)]
  rfl

theorem sharedKey_not_brace {k ke ks} (h : SharedKey k ke ks) {d : Dialect} {ws nl : Bool}
    {x : List Char} {st : St} (ha : At d ws nl (ks ++ x) st) : st.cur.kind ≠ .lbrace := by
  have hh : ∃ c r, ks = c :: r ∧ c ≠ '{' := by
    cases h with
    | scalar h _ =>
      cases h with
      | bare h =>
        obtain ⟨h1, c, r, rfl, -⟩ := h
        refine ⟨c, r, rfl, ?_⟩
        rintro rfl
        exact absurd (h1 '{' (by simp)).1 (by decide)
      | quoted => exact ⟨'"', _, rfl, by decide⟩
      | raw => exact ⟨'r', _, rfl, by decide⟩
      | heredoc => exact ⟨'<', _, rfl, by decide⟩
    | unit => exact ⟨'@', _, rfl, by decide⟩
    | tag => exact ⟨'@', _, rfl, by decide⟩
    | tagged => exact ⟨'@', _, rfl, by decide⟩
  obtain ⟨c, r, rfl, hc⟩ := hh
  obtain ⟨tk, r', h1, rfl⟩ := ha
  intro hk
  cases readToken_lbrace h1 hk
  exact hc rfl

/-- The text `t`, up to a closing brace, makes the loop over the root entries hang. -/
def Strays (d : Dialect) (es : List Entry) (t : List Char) : Prop :=
  HasInk t ∧ ∀ rest, CoreLexes d (t ++ rest) ∧
    (∀ ws nl st, At d ws nl (core false (t ++ rest)) st → st.cur.kind ≠ .lbrace) ∧
    ∀ st ps seen, Near d (t ++ rest) st → Among seen ps →
      (∀ e ∈ es, ∀ l, keyLabel (entryKey e) = some l → l ∉ seen) → DistinctLabels es → Stuck d ps st

theorem fresh_rest {d : Dialect} {k v : Value} {doc} {es : List Entry} {seen : List (List Char)}
    (hfresh : ∀ e ∈ Entry.mk k v doc :: es, ∀ l, keyLabel (entryKey e) = some l → l ∉ seen)
    (hdist : DistinctLabels (.mk k v doc :: es)) :
    (∀ e ∈ es, ∀ l, keyLabel (entryKey e) = some l → l ∉ (keyText d k).toList ++ seen) ∧ DistinctLabels es := by
  obtain ⟨hdist', hnew⟩ := distinctLabels_cons hdist
  refine ⟨?_, hdist'⟩
  intro e he l hl hm
  rcases List.mem_append.1 hm with hm | hm
  · cases hkt : keyText d k with
    | none => rw [hkt] at hm; cases hm
    | some l' =>
      rw [hkt] at hm
      simp at hm
      subst hm
      exact hnew l (keyText_label d k hkt) e he l hl rfl
  · exact hfresh e (List.mem_cons_of_mem _ he) l hl hm

theorem sharedEntries_strays (d : Dialect) {es t} (h : SharedEntries es t) : Strays d es t := by
  refine SharedEntries.rec (motive_1 := fun _ _ _ _ => True) (motive_2 := fun _ _ _ => True)
    (motive_3 := fun es t _ => Strays d es t) (motive_4 := fun _ _ _ _ => True)
    ?_ ?_ ?_ ?_ ?_ ?_ ?_ ?_ ?_ ?_ ?_ ?_ ?_ ?_ h
  any_goals (intros; trivial)
  · -- the closing brace
    intro g hg
    refine ⟨⟨'}', by simp, by decide⟩, ?_⟩
    intro rest
    have hcore : core false (g ++ ['}'] ++ rest) = '}' :: rest := by
      rw [List.append_assoc, core_gap hg]
      exact core_start (start_char (by decide) (by decide)) (by simp)
    refine ⟨?_, ?_, ?_⟩
    · intro ws nl; rw [hcore]; exact ⟨_, _, rfl⟩
    · intro ws nl st hst
      rw [hcore] at hst
      obtain ⟨tk, r, h, rfl⟩ := hst
      cases h
      simp
    · intro st ps seen hn _ _ _
      obtain ⟨herr, N, ws, nl, st1, h1, h2, h3⟩ := hn
      rw [hcore] at h1
      obtain ⟨tk, r, h1, rfl⟩ := h1
      cases h1
      have hend : Stuck d ps ⟨⟨.rbrace, ['}'], ws, nl⟩, none, rest, none⟩ :=
        ⟨0, fun n _ => root_hangs d n _ ps rfl rfl⟩
      rcases h3 with h3 | rfl
      · refine stuck_step (N := N) (e := none) (by rw [h3]; simp) herr ?_ hend
        intro n hn
        rw [parseRootEntry, bind_ok (h2 n hn), bind_ok (checkErr_none rfl), bind_cur, if_neg (by simp),
          if_pos (.inr rfl)]
        rfl
      · exact hend
  · -- an entry with a value
    intro g ls dt k ke ks b v e s tr es t h1 h2 h3 h4 h5 h6 hv h7 _ h8 h9 _ ih
    refine ⟨ih.1.append_right _, ?_⟩
    intro rest
    have hf := sharedFollows_append h8 (ih.1.append_right _) rest
    rw [List.append_assoc] at hf
    have hcore : core false (tr ++ (t ++ rest)) = core false (t ++ rest) := by
      refine core_trailing h7 ?_
      by_cases htr : tr = []
      · exact .inl htr
      · rw [EntryEnd, if_neg htr] at h9
        exact .inr (atLineEnd_append h9 ih.1.ne_nil rest)
    have hcl : CoreLexes d (tr ++ (t ++ rest)) := by unfold CoreLexes; rw [hcore]; exact (ih.2 rest).1
    have ho := (reads_key d h3).opens (b ++ (s ++ (tr ++ (t ++ rest))))
      (sharedFollows_blank (sharedKey_tail h3) h5 h6 _)
    have hall : core false (g ++ dt ++ ks ++ b ++ s ++ tr ++ t ++ rest) = ks ++ (b ++ (s ++ (tr ++ (t ++ rest)))) := by
      simp only [List.append_assoc]
      rw [core_gap h1, core_docLines h2, ho.core]
    refine ⟨?_, ?_, ?_⟩
    · intro ws nl
      rw [hall]
      obtain ⟨t, r, h, -⟩ := ho.2 ws nl
      exact ⟨t, r, h⟩
    · intro ws nl st hst
      rw [hall] at hst
      exact sharedKey_not_brace h3 hst
    · intro st ps seen hn ha hfresh hdist
      obtain ⟨g1, N, st', ps', en, g2, g3, g4⟩ := stray_value h3 h4 h5 h6 (sharedValue_reads d hv) hf hcl.lexes hall hn ha
        (fun l hl => hfresh _ (List.mem_cons_self ..) l hl)
      obtain ⟨r1, r2⟩ := fresh_rest (d := d) hfresh hdist
      exact stuck_step g1 hn.1 g4 ((ih.2 rest).2.2 st' ps' _ (g2.near (ih.2 rest).1 hcore) g3 r1 r2)
  · -- an entry without a value
    intro g ls dt k ke ks tr es t h1 h2 h3 h4 h7 _ h8 h9 ih
    refine ⟨ih.1.append_right _, ?_⟩
    intro rest
    have hf := sharedFollows_append h8 (ih.1.append_right _) rest
    rw [List.append_assoc] at hf
    have hend : LoneEnd tr (t ++ rest) := loneEnd_append h9 ih.1 rest
    have hcore : core false (tr ++ (t ++ rest)) = core false (t ++ rest) := by
      refine core_trailing h7 ?_
      by_cases htr : tr = []
      · exact .inl htr
      · rw [LoneEnd, if_neg htr] at hend
        exact .inr hend
    have hcl : CoreLexes d (tr ++ (t ++ rest)) := by unfold CoreLexes; rw [hcore]; exact (ih.2 rest).1
    have ho := (reads_key d h3).opens (tr ++ (t ++ rest)) hf
    have hall : core false (g ++ dt ++ ks ++ tr ++ t ++ rest) = ks ++ (tr ++ (t ++ rest)) := by
      simp only [List.append_assoc]
      rw [core_gap h1, core_docLines h2, ho.core]
    refine ⟨?_, ?_, ?_⟩
    · intro ws nl
      rw [hall]
      obtain ⟨t, r, h, -⟩ := ho.2 ws nl
      exact ⟨t, r, h⟩
    · intro ws nl st hst
      rw [hall] at hst
      exact sharedKey_not_brace h3 hst
    · intro st ps seen hn ha hfresh hdist
      obtain ⟨g1, N, st', ps', en, g2, g3, g4⟩ := stray_lone h3 h4 h7 hf hend hcl.lexes hall hn ha
        (fun l hl => hfresh _ (List.mem_cons_self ..) l hl)
      obtain ⟨r1, r2⟩ := fresh_rest (d := d) hfresh hdist
      exact stuck_step g1 hn.1 g4 ((ih.2 rest).2.2 st' ps' _ (g2.near (ih.2 rest).1 hcore) g3 r1 r2)

/-- Entries and a closing brace, whatever follows: no answer, whatever the fuel. -/
theorem stray_hangs (d : Dialect) {es t} (h : SharedEntries es t) (hd : DistinctLabels es) (rest : List Char) (n : Nat) :
    parse d n (t ++ rest) = none := by
  obtain ⟨hcl, hnb, hst⟩ := (sharedEntries_strays d h).2 rest
  obtain ⟨tk, r, hn⟩ := hcl.lexes
  obtain ⟨N, ws, nl, st1, h1, h2, -⟩ := skipCommas_spec _ ⟨tk, none, r, none⟩ ⟨tk, r, hn, rfl⟩ hcl
  obtain ⟨N', h3⟩ := hst st1 ⟨[], [], []⟩ [] (at_core_near h1) (by intro l k hl; cases hl) (by simp) hd
  cases hr : parse d n (t ++ rest) with
  | none => rfl
  | some x =>
    have h4 := parse_mono d (Nat.le_add_right n (N + N')) (t ++ rest) hr
    unfold parse at h4
    rw [hn] at h4
    have h5 : parseDocument d (n + (N + N')) ⟨tk, none, r, none⟩ = .fuel := by
      rw [parseDocument, bind_ok (h2 _ (by omega)), bind_cur, if_neg (hnb _ _ _ h1)]
      exact h3 _ (by omega)
    simp only [h5] at h4
    cases h4

end Styx.Impl
