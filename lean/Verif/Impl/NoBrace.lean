import Verif.Impl.Preserve

/-! # Texts without a closing brace -/

namespace Styx.Impl

theorem suffix_cons {c : Char} {r s : List Char} (h : r <:+ s) : r <:+ c :: s :=
  h.trans (List.suffix_cons c s)

theorem skipSpace_suffix (cm ws nl : Bool) (s : List Char) : (skipSpace cm ws nl s).2.2 <:+ s := by
  induction s generalizing cm ws nl with
  | nil => simp [skipSpace]
  | cons c cs ih =>
    rw [skipSpace]
    split
    · exact suffix_cons (ih _ _ _)
    · split
      · exact suffix_cons (ih _ _ _)
      · split
        · exact suffix_cons (ih _ _ _)
        · split
          · exact suffix_cons (ih _ _ _)
          · exact List.suffix_refl _

theorem readQuoted_suffix (d : Dialect) (k : Nat) (s : List Char) {t r : List Char}
    (h : readQuoted d k s = .ok (t, r)) : r <:+ s := by
  fun_induction readQuoted d k s generalizing t r with
  | case1 => cases h
  | case2 skip c cs ih => exact suffix_cons (ih h)
  | case3 => cases h; exact List.suffix_cons _ _
  | case4 => cases h
  | case5 c e es hq hb x hx ih =>
    obtain ⟨⟨t', r'⟩, h1, h2⟩ := map_ok h
    cases h2
    exact suffix_cons (ih h1)
  | case6 => cases h
  | case7 c e es hq hb hx hu x n hr ih =>
    obtain ⟨⟨t', r'⟩, h1, h2⟩ := map_ok h
    cases h2
    exact suffix_cons (ih h1)
  | case8 => cases h
  | case9 => cases h
  | case10 c cs h1 h2 h3 ih =>
    obtain ⟨⟨t', r'⟩, h1, h2⟩ := map_ok h
    cases h2
    exact suffix_cons (ih h1)

theorem readRaw_suffix (p s : List Char) {t r : List Char} (h : readRaw p s = some (t, r)) : r <:+ s := by
  induction s generalizing t r with
  | nil => cases h
  | cons c cs ih =>
    rw [readRaw] at h
    split at h
    · cases h; exact List.drop_suffix _ _
    · cases hr : readRaw p cs with
      | none => rw [hr] at h; cases h
      | some x =>
        rw [hr] at h
        cases h
        exact suffix_cons (ih (t := x.1) (r := x.2) hr)

theorem heredocLoop_suffix (dl line text s : List Char) {t r : List Char}
    (h : heredocLoop dl line text s = some (t, r)) : r <:+ s := by
  induction s generalizing line text t r with
  | nil =>
    rw [heredocLoop] at h
    split at h
    · cases h
    · cases hc : closeHeredoc dl text line with
      | none => rw [hc] at h; cases h
      | some x => rw [hc] at h; cases h; simp
  | cons c cs ih =>
    rw [heredocLoop] at h
    split at h
    · split at h
      · cases h; exact List.suffix_refl _
      · exact suffix_cons (ih _ _ h)
    · exact suffix_cons (ih _ _ h)

theorem readHeredoc_suffix (s : List Char) {t r : List Char} (h : readHeredoc s = some (t, r)) : r <:+ s :=
  (heredocLoop_suffix _ _ _ _ h).trans ((List.drop_suffix _ _).trans (List.dropWhile_suffix _))

/-- What is left is the end of the text, and a closing brace is one of its characters. -/
theorem readToken_suffix (d : Dialect) (ws nl : Bool) (s : List Char) {t : Tok} {r : List Char}
    (h : readToken d ws nl s = .ok (t, r)) : r <:+ s ∧ (t.kind = .rbrace → '}' ∈ s) := by
  cases s with
  | nil => cases h; simp
  | cons c cs =>
    rw [readToken] at h
    by_cases k0 : (c == '{') = true
    · rw [if_pos k0] at h; cases h; exact ⟨List.suffix_cons _ _, (nofun)⟩
    rw [if_neg k0] at h
    by_cases k1 : (c == '}') = true
    · rw [if_pos k1] at h
      cases h
      refine ⟨List.suffix_cons _ _, fun _ => ?_⟩
      simp only [beq_iff_eq] at k1
      simp [k1]
    rw [if_neg k1] at h
    by_cases k2 : (c == '(') = true
    · rw [if_pos k2] at h; cases h; exact ⟨List.suffix_cons _ _, (nofun)⟩
    rw [if_neg k2] at h
    by_cases k3 : (c == ')') = true
    · rw [if_pos k3] at h; cases h; exact ⟨List.suffix_cons _ _, (nofun)⟩
    rw [if_neg k3] at h
    by_cases k4 : (c == ',') = true
    · rw [if_pos k4] at h; cases h; exact ⟨List.suffix_cons _ _, (nofun)⟩
    rw [if_neg k4] at h
    by_cases k5 : (c == '>') = true
    · rw [if_pos k5] at h; cases h; exact ⟨List.suffix_cons _ _, (nofun)⟩
    rw [if_neg k5] at h
    by_cases k6 : (c == '@') = true
    · rw [if_pos k6] at h
      by_cases k : (cs.head?.map isTagStart).getD false = true
      · rw [if_pos k] at h; cases h; exact ⟨suffix_cons (List.dropWhile_suffix _), (nofun)⟩
      · rw [if_neg k] at h; cases h; exact ⟨List.suffix_cons _ _, (nofun)⟩
    rw [if_neg k6] at h
    by_cases k7 : (c == '"') = true
    · rw [if_pos k7] at h
      obtain ⟨⟨t', r'⟩, h1, h2⟩ := map_ok h
      cases h2
      exact ⟨suffix_cons (readQuoted_suffix _ _ _ h1), (nofun)⟩
    rw [if_neg k7] at h
    by_cases k8 : (c == 'r' && (cs.head? == some '"' || cs.head? == some '#')) = true
    · rw [if_pos k8] at h
      simp only at h
      split at h
      · rename_i heq
        cases h
        exact ⟨suffix_cons ((readRaw_suffix _ _ heq).trans ((List.drop_suffix _ _).trans (List.drop_suffix _ _))),
          (nofun)⟩
      · cases h
    rw [if_neg k8] at h
    by_cases k9 : (c == '<' && cs.head? == some '<') = true
    · rw [if_pos k9] at h
      split at h
      · split at h
        · rename_i heq
          cases h
          exact ⟨suffix_cons ((readHeredoc_suffix _ heq).trans (List.tail_suffix _)), (nofun)⟩
        · cases h
      · cases h
    · rw [if_neg k9] at h
      cases h
      exact ⟨List.dropWhile_suffix _, (nofun)⟩

theorem nextToken_suffix (d : Dialect) (s : List Char) {t : Tok} {r : List Char}
    (h : nextToken d s = .ok (t, r)) : r <:+ s ∧ (t.kind = .rbrace → '}' ∈ s) := by
  have h1 := skipSpace_suffix false false false s
  unfold nextToken at h
  generalize skipSpace false false false s = x at h h1
  obtain ⟨ws, nl, u⟩ := x
  have := readToken_suffix d ws nl u h
  exact ⟨this.1.trans h1, fun hk => h1.mem (this.2 hk)⟩

theorem keeps_advance (d : Dialect) : Keeps NoBrace (advance d) := by
  rintro st ⟨h1, h2, h3⟩
  unfold advance
  cases hp : st.peeked with
  | some t => exact ⟨h2 t (by simp [hp]), by simp, h3⟩
  | none =>
    cases hn : nextToken d st.rest with
    | ok x =>
      obtain ⟨h4, h5⟩ := nextToken_suffix d _ hn
      exact ⟨fun hk => h3 (h5 hk), by simp, fun hm => h3 (h4.mem hm)⟩
    | error e =>
      cases d
      · exact ⟨h1, by simp [hp], h3⟩
      · exact ⟨h1, by simp [hp], h3⟩
      · exact ⟨by simp [errorTok], by simp, by simp⟩

theorem keeps_peek (d : Dialect) : Keeps NoBrace (peek d) := by
  rintro st ⟨h1, h2, h3⟩
  unfold peek
  cases hp : st.peeked with
  | some t => exact ⟨h1, by simpa [hp] using h2, h3⟩
  | none =>
    cases hn : nextToken d st.rest with
    | ok x =>
      obtain ⟨h4, h5⟩ := nextToken_suffix d _ hn
      exact ⟨h1, by simpa using fun hk => h3 (h5 hk), fun hm => h3 (h4.mem hm)⟩
    | error e =>
      cases d
      · exact ⟨h1, by simp [hp], h3⟩
      · exact ⟨h1, by simp [hp], h3⟩
      · exact ⟨h1, by simp [errorTok], by simp⟩

/-- A document is read in finitely many steps if it has no closing brace, or begins with an opening one. -/
theorem parse_ends (d : Dialect) (s : List Char)
    (h : '}' ∉ s ∨ ∃ t r, nextToken d s = .ok (t, r) ∧ t.kind = .lbrace) :
    parse d (4 * s.length + 8) s ≠ none := by
  unfold parse
  cases hn : nextToken d s with
  | error e => simp
  | ok x =>
    obtain ⟨t, r⟩ := x
    obtain ⟨h1, h2⟩ := nextToken_suffix d s hn
    have hl := nextToken_length d s hn
    have hsz : (⟨t, none, r, none⟩ : St).size ≤ s.length := by simpa [St.size] using hl
    have hE : Ends (parseDocument d (4 * s.length + 8)) ⟨t, none, r, none⟩ s.length s.length := by
      rw [parseDocument]
      have hskip := ends_skipCommas d (4 * s.length + 8) (st := ⟨t, none, r, none⟩) (b := s.length)
        (B := s.length) (by omega) hsz hsz
      refine ends_bind hskip fun _ s1 hs1 h3 => ?_
      apply ends_cur_bind
      split
      · rename_i hk
        refine ends_bind ((claims d _).object s1 s.length s.length (by simp [hk]) (by omega) (by omega) h3)
          fun es s2 _ h4 => ?_
        refine ends_bind (ends_skipCommas d _ (b := s.length) (by omega) h4 (by omega)) fun _ s3 _ h5 => ?_
        apply ends_cur_bind
        split
        · exact ends_pure h5
        · exact ends_bind (ends_skipToEnd d _ (b := s.length) (by omega) h5 (by omega)) fun _ _ _ h => ends_fail h
      · rename_i hk
        have hb : NoBrace s1 := by
          rcases h with h | ⟨t', r', h, hk'⟩
          · have hj : NoBrace ⟨t, none, r, none⟩ := ⟨fun hk => h (h2 hk), by simp, fun hm => h (h1.mem hm)⟩
            have := keeps_skipCommas (keeps_advance d) (4 * s.length + 8) _ hj
            rw [hs1] at this
            exact this
          · rw [hn] at h
            cases h
            have := (skipCommas_ok hs1).2 (by simp [hk'])
            subst this
            exact (hk hk').elim
        exact ends_parseRootEntries d (keeps_advance d) (keeps_peek d) _ s1 _ _ _ (by omega) hb h3 h3
    unfold Ends at hE
    cases hd : parseDocument d (4 * s.length + 8) ⟨t, none, r, none⟩ with
    | ok es st => simp [hd]
    | fail e st => simp [hd]
    | fuel => rw [hd] at hE; exact hE.elim

end Styx.Impl
