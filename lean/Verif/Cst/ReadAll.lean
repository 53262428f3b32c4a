import Verif.Cst.ReadEntry

/-! # What the parser for concrete syntax trees makes of values and documents -/

namespace Styx.Cst

open Styx Styx.Spec

/-! ## Entries -/

/-- What reading the entries that begin with the tokens `ts` gives. -/
def Reads (source : List Char) (c : Option TokenKind) (ts : List Token) (pend : List (List Char))
    (q : List Kid → Bool → List Token → Prop) : Prop :=
  ∀ n g st, parseEntries source n c ⟨ts, []⟩ = some (g, st) → st.errors = [] →
    ∃ ks, kidsOf pend g = some ks ∧ q ks (hasToken .NEWLINE g) st.toks

/-- More line breaks do no harm. -/
def QMono (q : List Kid → Bool → List Token → Prop) : Prop :=
  ∀ ks b b' ts, (b = true → b' = true) → q ks b ts → q ks b' ts

variable {source : List Char} {c : Option TokenKind} {pend : List (List Char)}
  {q : List Kid → Bool → List Token → Prop}

theorem reads_trivia (hq : QMono q) {t : Token} {ts : List Token} (ht : isTrivia t.kind = true)
    (h : Reads source c ts pend q) : Reads source c (t :: ts) pend q := by
  intro n g st hp he
  rw [peel_trivia _ _ _ _ _ _ ht, Option.map_eq_some_iff] at hp
  obtain ⟨⟨g', st'⟩, h1, h2⟩ := hp
  cases h2
  obtain ⟨ks, h3, h4⟩ := h n g' _ h1 he
  have hk : SyntaxKind.ofToken t.kind ≠ .DOC_COMMENT := by
    intro h'; revert ht h'; cases t.kind <;> simp [isTrivia, SyntaxKind.ofToken]
  refine ⟨ks, ?_, hq _ _ _ _ ?_ h4⟩
  · rw [kidsOf, if_neg hk, h3]
  · intro h'
    simp [hasToken, h']

theorem reads_unws {t : Token} {ts : List Token} (ht : t.kind = .whitespace)
    (h : Reads source c (t :: ts) pend q) : Reads source c ts pend q := by
  intro n g st hp he
  obtain ⟨ks, h3, h4⟩ := h n (tokG t :: g) st (by
    rw [peel_trivia _ _ _ _ _ _ (by rw [ht]; rfl), hp]; rfl) he
  refine ⟨ks, ?_, ?_⟩
  · rwa [kidsOf, if_neg (by rw [ht]; simp [SyntaxKind.ofToken])] at h3
  · have : hasToken .NEWLINE (tokG t :: g) = hasToken .NEWLINE g := by simp [hasToken, ht, SyntaxKind.ofToken]
    rwa [this] at h4

theorem reads_comma (hc : Closing c) {t : Token} {ts : List Token} (ht : t.kind = .comma)
    (h : Reads source c ts pend q) : Reads source c (t :: ts) pend q := by
  intro n g st hp he
  have hp' := entries_mono source (Nat.le_add_right n 3) hp
  rw [peel_comma _ _ _ _ _ _ ht (by rcases hc with rfl | rfl <;> simp), Option.map_eq_some_iff] at hp'
  obtain ⟨⟨g', st'⟩, h1, h2⟩ := hp'
  cases h2
  obtain ⟨ks, h3, h4⟩ := h _ g' _ h1 he
  refine ⟨ks, ?_, ?_⟩
  · simp [kidsOf, ht, SyntaxKind.ofToken, h3]
  · have : hasToken .NEWLINE (.node .ENTRY [] :: tokG t :: g') = hasToken .NEWLINE g' := by
      simp only [hasToken, ht, SyntaxKind.ofToken]; rfl
    rwa [this]

theorem reads_doc (hc : Closing c) {t : Token} {ts : List Token} (ht : t.kind = .docComment)
    (h : Reads source c ts (pend ++ [t.text]) q) : Reads source c (t :: ts) pend q := by
  intro n g st hp he
  obtain ⟨m, g', h1, h2, h3⟩ := peel_doc (by rcases hc with rfl | rfl <;> simp) ht hp
  obtain ⟨ks, h4, h5⟩ := h m g' st h1 he
  exact ⟨ks, by rw [h2, h4], by rwa [h3]⟩

theorem reads_blank (hq : QMono q) {x : Char} (hx : Blank x) {s : List Char} {p : Nat}
    (h : Reads source c (toksAt s (p + 1)) pend q) : Reads source c (toksAt (x :: s) p) pend q := by
  obtain ⟨b, s', h1, h2, h3, h4, h5⟩ := toks_blank hx s p
  rw [h4]
  refine reads_trivia hq rfl ?_
  rcases h5 with h5 | ⟨b', h5⟩
  · rwa [h5] at h
  · rw [h5] at h
    exact reads_unws rfl h

theorem blank_size {x : Char} (hx : Blank x) : x.utf8Size = 1 := by rcases hx with rfl | rfl <;> rfl

theorem reads_blanks (hq : QMono q) {b : List Char} (hb : Blanks b) : ∀ {s : List Char} {p : Nat},
    Reads source c (toksAt s (p + utf8Len b)) pend q → Reads source c (toksAt (b ++ s) p) pend q := by
  induction b with
  | nil => intro s p h; exact h
  | cons x b ih =>
    intro s p h
    have hx := hb x (by simp)
    refine reads_blank hq hx (ih (fun y hy => hb y (by simp [hy])) ?_)
    rwa [utf8Len_cons, blank_size hx, ← Nat.add_assoc] at h

theorem lineBreak_atEnd {n : List Char} (hn : LineBreak n) (s : List Char) : AtLineEnd (n ++ s) := by
  rcases hn with rfl | rfl
  · exact .inr (.inl ⟨_, rfl⟩)
  · exact .inr (.inr ⟨_, rfl⟩)

theorem reads_gap (hc : Closing c) (hq : QMono q) {g : List Char} (hg : Gap true g) : ∀ {s : List Char} {p : Nat},
    Reads source c (toksAt s (p + utf8Len g)) pend q → Reads source c (toksAt (g ++ s) p) pend q := by
  induction hg with
  | nil => intro s p h; exact h
  | blank hx _ ih =>
    intro s p h
    refine reads_blank hq hx (ih ?_)
    rwa [utf8Len_cons, blank_size hx, ← Nat.add_assoc] at h
  | newline hn _ ih =>
    intro s p h
    rw [List.append_assoc, toks_newline hn]
    refine reads_trivia hq rfl (ih ?_)
    rwa [utf8Len_append, ← Nat.add_assoc] at h
  | comment ht hn _ ih =>
    intro s p h
    rw [List.append_assoc, List.append_assoc, toks_comment ht (lineBreak_atEnd hn _), toks_newline hn]
    refine reads_trivia hq rfl (reads_trivia hq rfl (ih ?_))
    rwa [utf8Len_append, utf8Len_append, ← Nat.add_assoc, ← Nat.add_assoc] at h
  | comma _ _ ih =>
    intro s p h
    rw [List.cons_append, toks_comma]
    refine reads_comma hc rfl (ih ?_)
    rwa [utf8Len_cons, show ','.utf8Size = 1 from rfl, ← Nat.add_assoc] at h

theorem reads_docs (hc : Closing c) (hq : QMono q) {ls : List (List Char)} {dt : List Char} (hd : DocLines ls dt) :
    ∃ ds, DocTexts ls ds ∧ ∀ {s : List Char} {p : Nat} {pend : List (List Char)},
      Reads source c (toksAt s (p + utf8Len dt)) (pend ++ ds) q → Reads source c (toksAt (dt ++ s) p) pend q := by
  induction hd with
  | nil => exact ⟨[], .nil, fun h => by simpa using h⟩
  | @cons l body n g ls t h1 h2 hn hg _ ih =>
    obtain ⟨ds, h3, h4⟩ := ih
    have hbody : ∀ c ∈ body, c ≠ '\n' ∧ c ≠ '\r' := by
      rcases h1 with rfl | ⟨rfl, -⟩
      · intro c hc
        rcases List.mem_cons.1 hc with rfl | hc
        · decide
        · exact h2 c hc
      · exact h2
    refine ⟨('/' :: '/' :: '/' :: body) :: ds, .cons h1 h2 h3, ?_⟩
    intro s p pend h
    have e0 : '/' :: '/' :: '/' :: body ++ n ++ g ++ t ++ s = '/' :: '/' :: '/' :: body ++ (n ++ (g ++ (t ++ s))) := by
      simp
    rw [e0, toks_doc hbody (lineBreak_atEnd hn _), toks_newline hn]
    refine reads_doc hc rfl (reads_trivia hq rfl (reads_gap hc hq hg (h4 ?_)))
    rw [List.append_assoc, List.singleton_append]
    simp only [utf8Len_append, Nat.add_assoc] at h ⊢
    exact h

/-- After an entry. -/
theorem after_entry (hc : Closing c) {b u : List Char} {p : Nat} (hb : Blanks b) (hu : NoBlank u)
    (h : Reads source c (toksAt (b ++ u) p) [] q) {n : Nat} {g : List Green} {st : St}
    (hp : parseEntries source n c (if St.peek ⟨toksAt u (p + utf8Len b), []⟩ = .comma ∨
      St.peek ⟨toksAt u (p + utf8Len b), []⟩ = .newline then St.bump ⟨toksAt u (p + utf8Len b), []⟩
        else ([], ⟨toksAt u (p + utf8Len b), []⟩)).2 = some (g, st)) (herr : st.errors = []) :
    ∃ ks, kidsOf [] g = some ks ∧ q ks (hasToken .NEWLINE ((if St.peek ⟨toksAt u (p + utf8Len b), []⟩ = .comma ∨
      St.peek ⟨toksAt u (p + utf8Len b), []⟩ = .newline then St.bump ⟨toksAt u (p + utf8Len b), []⟩
        else ([], ⟨toksAt u (p + utf8Len b), []⟩)).1 ++ g)) st.toks := by
  have h' : Reads source c (toksAt u (p + utf8Len b)) [] q := by
    by_cases hne : b = []
    · subst hne; exact h
    · rw [toks_blanks hb hne hu] at h
      exact reads_unws rfl h
  obtain ⟨t, ts, hts⟩ : ∃ t ts, toksAt u (p + utf8Len b) = t :: ts := by
    cases u with
    | nil => exact ⟨_, _, toksAt_nil _⟩
    | cons x r =>
      obtain ⟨t, ts, -, h1, -⟩ := toks_head x r (p + utf8Len b)
      exact ⟨t, ts, h1⟩
  rw [hts] at h' hp ⊢
  have hpk : St.peek ⟨t :: ts, []⟩ = t.kind := rfl
  simp only [hpk, St.bump] at hp ⊢
  by_cases h1 : t.kind = .comma
  · simp only [h1, true_or, if_true] at hp ⊢
    obtain ⟨ks, h2, h3⟩ := h' (n + 3) (.node .ENTRY [] :: tokG t :: g) st (by
      rw [peel_comma _ _ _ _ _ _ h1 (by rcases hc with rfl | rfl <;> simp),
        entries_mono source (Nat.le_add_right n 2) hp]
      rfl) herr
    refine ⟨ks, ?_, ?_⟩
    · simpa [kidsOf, h1, SyntaxKind.ofToken] using h2
    · simpa [hasToken, h1] using h3
  · by_cases h2 : t.kind = .newline
    · simp only [h2, or_true, if_true] at hp ⊢
      obtain ⟨ks, h3, h4⟩ := h' n (tokG t :: g) st (by
        rw [peel_trivia _ _ _ _ _ _ (by rw [h2]; rfl), hp]; rfl) herr
      refine ⟨ks, ?_, ?_⟩
      · simpa [kidsOf, h2, SyntaxKind.ofToken] using h3
      · simpa [hasToken, h2] using h4
    · simp only [h1, h2, or_self, if_false, List.nil_append] at hp ⊢
      exact h' n g st hp herr

theorem hasToken_append (k : SyntaxKind) (a b : List Green) : hasToken k (a ++ b) = (hasToken k a || hasToken k b) := by
  induction a with
  | nil => simp [hasToken]
  | cons g gs ih => cases g <;> simp [hasToken, ih, Bool.or_assoc]

theorem kidsOf_ws {ws : List Green} (h : ∀ g ∈ ws, IsWs g) (pend : List (List Char)) (gs : List Green) :
    kidsOf pend (ws ++ gs) = kidsOf pend gs := by
  induction ws with
  | nil => rfl
  | cons g ws ih =>
    obtain ⟨t, rfl⟩ := h g (by simp)
    rw [List.cons_append, kidsOf, if_neg (by simp)]
    exact ih (fun g hg => h g (by simp [hg]))

/-- An entry and what follows. -/
theorem reads_entry (hc : Closing c) {q' : List Kid → Bool → List Token → Prop}
    {s b u : List Char} {p : Nat} (hs : AtomStart (St.peek ⟨toksAt (s ++ (b ++ u)) p, []⟩)) (hb : Blanks b)
    (hu : NoBlank u) (h : Reads source c (toksAt (b ++ u) (p + utf8Len s)) [] q')
    {r : List Green → Prop}
    (hr : ∀ n g st, parseEntry source n c ⟨toksAt (s ++ (b ++ u)) p, []⟩ = some (g, st) → st.errors = [] →
      ∃ cs, g = .node .ENTRY cs ∧ cs ≠ [] ∧ r cs ∧ st = ⟨toksAt u (p + utf8Len s + utf8Len b), []⟩)
    (hqq : ∀ cs ks nl toks, r cs → q' ks nl toks →
      (St.peek ⟨toksAt u (p + utf8Len s + utf8Len b), []⟩ = .newline → nl = true) → q ((pend, cs) :: ks) nl toks) :
    Reads source c (toksAt (s ++ (b ++ u)) p) pend q := by
  intro n g st hp herr
  cases n with
  | zero => simp [parseEntries] at hp
  | succ n =>
    obtain ⟨t, ts, hts⟩ : ∃ t ts, toksAt (s ++ (b ++ u)) p = t :: ts := by
      cases ht : toksAt (s ++ (b ++ u)) p with
      | nil => rw [ht] at hs; simp [St.peek, AtomStart] at hs
      | cons t ts => exact ⟨t, ts, rfl⟩
    have hk : AtomStart t.kind := by rw [hts] at hs; exact hs
    have h1 : St.skipTrivia ⟨t :: ts, []⟩ = ([], ⟨t :: ts, []⟩) := by
      have : isTrivia t.kind = false := by
        rcases hk with h | h | h | h | h | h | h | h <;> rw [h] <;> rfl
      simp [St.skipTrivia, St.bumpWhile, bumpWhile, this]
    have h2 : bumpDocs false (t :: ts) = ([], t :: ts) := by
      rcases hk with h | h | h | h | h | h | h | h <;> simp [bumpDocs, h]
    have h3 : (St.atEof ⟨t :: ts, []⟩ || c == some (St.peek ⟨t :: ts, []⟩)) = false := by
      rcases hc with rfl | rfl <;> rcases hk with h | h | h | h | h | h | h | h <;> simp [St.atEof, St.peek, h]
    rw [parseEntries_cont, hts] at hp
    simp only [h1, h2] at hp
    rw [cont, if_neg (by rw [h3]; simp)] at hp
    simp only [Option.map_eq_some_iff, Option.bind_eq_some_iff, Prod.exists, Option.some.injEq, Prod.mk.injEq] at hp
    obtain ⟨g', st', ⟨g3, st3, h4, g6, st6, h6, rfl, rfl⟩, rfl, rfl⟩ := hp
    have e3 : st3.errors = [] := by
      have := (allClean source n).1 _ _ _ h6 herr
      exact clean_ifBump st3.skipWs.2 _ this
    rw [← hts] at h4
    obtain ⟨cs, rfl, hne, hrc, rfl⟩ := hr _ _ _ h4 e3
    obtain ⟨ws, hw, hws, hwn⟩ := skipWs_at (b := []) (p := p + utf8Len s + utf8Len b) (e := [])
      (by simp [Blanks]) hu
    simp only [List.nil_append, utf8Len, Nat.add_zero] at hw
    rw [hw] at h6 ⊢
    simp only at h6 ⊢
    obtain ⟨ks, h7, h8⟩ := after_entry hc hb hu h h6 herr
    generalize hx : (if St.peek ⟨toksAt u (p + utf8Len s + utf8Len b), []⟩ = .comma ∨
      St.peek ⟨toksAt u (p + utf8Len s + utf8Len b), []⟩ = .newline then
        St.bump ⟨toksAt u (p + utf8Len s + utf8Len b), []⟩
        else ([], ⟨toksAt u (p + utf8Len s + utf8Len b), []⟩)).1 = g5 at *
    have hg5 : ∀ pend, kidsOf pend (g5 ++ g6) = kidsOf pend g6 := by
      intro pend
      rw [← hx]
      split
      · rename_i hh
        rw [St.bump]
        split
        · rfl
        · rename_i t' ts' hh'
          have : t'.kind = .comma ∨ t'.kind = .newline := by
            have hh' : toksAt u (p + utf8Len s + utf8Len b) = t' :: ts' := hh'
            rw [hh'] at hh; exact hh
          rcases this with h | h <;> simp [kidsOf, h, SyntaxKind.ofToken]
      · rfl
    refine ⟨(pend, cs) :: ks, ?_, ?_⟩
    · simp only [List.nil_append]
      rw [kidsOf, if_neg hne, List.append_assoc, kidsOf_ws hws, hg5, h7]
      rfl
    · have e1 : hasToken .NEWLINE ([] ++ [] ++ (Green.node .ENTRY cs :: (ws ++ g5 ++ g6))) =
          hasToken .NEWLINE (g5 ++ g6) := by
        simp [hasToken, hasToken_append, hwn]
      rw [e1]
      refine hqq _ _ _ _ hrc h8 ?_
      intro hn
      rw [← hx, if_pos (.inr hn), hasToken_append, Bool.or_eq_true]
      left
      rw [St.bump]
      split
      · rename_i hh
        have hh : toksAt u (p + utf8Len s + utf8Len b) = [] := hh
        rw [hh] at hn; simp [St.peek] at hn
      · rename_i t' ts' hh
        have hh : toksAt u (p + utf8Len s + utf8Len b) = t' :: ts' := hh
        rw [hh] at hn
        have : t'.kind = .newline := hn
        simp [hasToken, this, SyntaxKind.ofToken]

end Styx.Cst
