import Verif.Cst.Lines

/-! # How the parser for concrete syntax trees reads lines that the source formatter has written -/

namespace Styx.Cst

open Styx Styx.Spec

variable {ind : List Char} {source : List Char} {c : Option TokenKind}

/-! ## The loops of the parser -/

/-- What the loop over entries makes of tokens. -/
def EntLoop (source : List Char) (c : Option TokenKind) (ts : List Token) (g : List Green) (ts' : List Token) : Prop :=
  ∃ n, parseEntries source n c ⟨ts, []⟩ = some (g, ⟨ts', []⟩)

/-- What the loop over items makes of tokens. -/
def ItemLoop (source : List Char) (ts : List Token) (g : List Green) (ts' : List Token) : Prop :=
  ∃ n, parseItems source n ⟨ts, []⟩ = some (g, ⟨ts', []⟩)

theorem entLoop_trivia {t : Token} {ts ts' : List Token} {g : List Green} (ht : isTrivia t.kind = true)
    (h : EntLoop source c (t :: ts) g ts') : ∃ g', g = tokG t :: g' ∧ EntLoop source c ts g' ts' := by
  obtain ⟨n, h⟩ := h
  rw [peel_trivia _ _ _ _ _ _ ht, Option.map_eq_some_iff] at h
  obtain ⟨⟨g', st'⟩, h1, h2⟩ := h
  cases h2
  exact ⟨g', rfl, n, h1⟩

theorem itemLoop_trivia {t : Token} {ts ts' : List Token} {g : List Green} (ht : isTrivia t.kind = true)
    (h : ItemLoop source (t :: ts) g ts') : ∃ g', g = tokG t :: g' ∧ ItemLoop source ts g' ts' := by
  obtain ⟨n, h⟩ := h
  rw [items_trivia _ _ _ _ _ ht, Option.map_eq_some_iff] at h
  obtain ⟨⟨g', st'⟩, h1, h2⟩ := h
  cases h2
  exact ⟨g', rfl, n, h1⟩

/-- After spaces and doc comments there is no other comment. -/
def NoCom (ts : List Token) : Prop := ∀ t r, (bumpDocs true ts).2 = t :: r → t.kind ≠ .lineComment

theorem noCom_skip {t : Token} {ts : List Token} (ht : t.kind = .whitespace ∨ t.kind = .newline ∨ t.kind = .docComment)
    (h : NoCom ts) : NoCom (t :: ts) := by
  have e1 : bumpDocs true (t :: ts) = (tokG t :: (bumpDocs true ts).1, (bumpDocs true ts).2) := by
    rw [bumpDocs, if_pos]
    rcases ht with h | h | h
    · exact .inr ⟨rfl, .inl h⟩
    · exact .inr ⟨rfl, .inr h⟩
    · exact .inl h
  intro x r hx
  rw [e1] at hx
  exact h x r hx

theorem noCom_head {t : Token} {ts : List Token} (h1 : t.kind ≠ .whitespace) (h2 : t.kind ≠ .newline)
    (h3 : t.kind ≠ .docComment) (h4 : t.kind ≠ .lineComment) : NoCom (t :: ts) := by
  have e1 : bumpDocs true (t :: ts) = ([], t :: ts) := by
    rw [bumpDocs, if_neg]
    rintro (h | ⟨-, h | h⟩)
    · exact h3 h
    · exact h1 h
    · exact h2 h
  intro x r hx
  rw [e1] at hx
  cases hx
  exact h4

theorem docs_exact (n : Nat) (e : List PErr) : ∀ (ts : List Token) (z : List Green) (st : St), NoCom ts →
    cont source n c ⟨(bumpDocs true ts).2, e⟩ = some (z, st) →
    ∃ m, parseEntries source m c ⟨ts, e⟩ = some ((bumpDocs true ts).1 ++ z, st) := by
  intro ts
  induction ts with
  | nil =>
    intro z st _ h
    refine ⟨n + 1, ?_⟩
    rw [parseEntries_cont]
    have : cont source n c ⟨[], e⟩ = some (z, st) := h
    simp [St.skipTrivia, St.bumpWhile, bumpWhile, bumpDocs, this]
  | cons t ts ih =>
    intro z st hnc h
    by_cases hd : t.kind = .docComment
    · have e1 : bumpDocs true (t :: ts) = bumpDocs false (t :: ts) := by simp [bumpDocs, hd]
      rw [e1] at h ⊢
      refine ⟨n + 1, ?_⟩
      have h1 : St.skipTrivia ⟨t :: ts, e⟩ = ([], ⟨t :: ts, e⟩) := by
        simp [St.skipTrivia, St.bumpWhile, bumpWhile, hd, isTrivia]
      rw [parseEntries_cont, h1]
      simp only [h]
      simp
    · by_cases hw : t.kind = .whitespace ∨ t.kind = .newline
      · have e1 : bumpDocs true (t :: ts) = (tokG t :: (bumpDocs true ts).1, (bumpDocs true ts).2) := by
          rw [bumpDocs, if_pos (.inr ⟨rfl, hw⟩)]
        rw [e1] at h ⊢
        have hnc' : NoCom ts := by
          intro x r hx
          refine hnc x r ?_
          rw [e1]
          exact hx
        obtain ⟨m, h1⟩ := ih z st hnc' h
        refine ⟨m, ?_⟩
        rw [peel_trivia _ _ _ _ _ _ (by rcases hw with h | h <;> simp [h, isTrivia]), h1]
        rfl
      · have e1 : bumpDocs true (t :: ts) = ([], t :: ts) := by
          rw [bumpDocs, if_neg]
          rintro (h | ⟨-, h⟩)
          · exact hd h
          · exact hw h
        have hl : t.kind ≠ .lineComment := hnc t ts (by rw [e1])
        rw [e1] at h ⊢
        refine ⟨n + 1, ?_⟩
        have h1 : St.skipTrivia ⟨t :: ts, e⟩ = ([], ⟨t :: ts, e⟩) := by
          have : isTrivia t.kind = false := by
            cases hk : t.kind <;> simp_all [isTrivia]
          simp [St.skipTrivia, St.bumpWhile, bumpWhile, this]
        have h2 : bumpDocs false (t :: ts) = ([], t :: ts) := by simp [bumpDocs, hd]
        rw [parseEntries_cont, h1]
        simp only [h2, h]
        simp

theorem entLoop_doc {d : Token} {ts ts' : List Token} {g : List Green} (hd : d.kind = .docComment) (hn : NoCom ts)
    (h : EntLoop source c (d :: ts) g ts') : ∃ g', g = tokG d :: g' ∧ EntLoop source c ts g' ts' := by
  obtain ⟨n, h⟩ := h
  cases n with
  | zero => simp [parseEntries] at h
  | succ n =>
    rw [parseEntries_cont] at h
    have h1 : St.skipTrivia ⟨d :: ts, []⟩ = ([], ⟨d :: ts, []⟩) := by
      simp [St.skipTrivia, St.bumpWhile, bumpWhile, hd, isTrivia]
    have h2 : bumpDocs false (d :: ts) = (tokG d :: (bumpDocs true ts).1, (bumpDocs true ts).2) := by
      rw [bumpDocs, if_pos (.inl hd)]
    simp only [h1, h2, List.nil_append, Option.map_eq_some_iff, Prod.exists, Prod.mk.injEq] at h
    obtain ⟨z, st', h3, rfl, rfl⟩ := h
    obtain ⟨m, h4⟩ := docs_exact n [] ts z _ hn h3
    exact ⟨_, rfl, m, h4⟩

/-! ## Entries -/

/-- What reading the entry `u` gives. -/
def EntReads (c : Option TokenKind) (u : List Char) (e : Tail) (q : List Green → Prop) : Prop :=
  (∀ rest p, Follows e rest → AtomStart (St.peek ⟨toksAt (u ++ rest) p, []⟩)) ∧
  ∀ source rest n p g st, NoBlank rest → EndAt c rest → Follows e rest → Here source (u ++ rest) p →
    parseEntry source n c ⟨toksAt (u ++ rest) p, []⟩ = some (g, st) → st.errors = [] →
    ∃ cs, g = .node .ENTRY cs ∧ q cs ∧ st = ⟨toksAt rest (p + utf8Len u), []⟩

/-- What reading the item `u` gives. -/
def ItemReads (u : List Char) (e : Tail) (q : List Green → Prop) : Prop :=
  (∀ rest p, Follows e rest → AtomStart (St.peek ⟨toksAt (u ++ rest) p, []⟩)) ∧
  AtomReads u e fun g => q [.node .KEY [g]]

/-- An entry and what follows. -/
theorem entLoop_entry (hc : Closing c) {u rest : List Char} {e : Tail} {q : List Green → Prop} (hr : EntReads c u e q)
    {p : Nat} (hb : NoBlank rest) (he : EndAt c rest) (hf : Follows e rest) (hh : Here source (u ++ rest) p)
    {g : List Green} {ts' : List Token} (h : EntLoop source c (toksAt (u ++ rest) p) g ts') :
    ∃ cs g', g = .node .ENTRY cs :: g' ∧ q cs ∧
      (rest.head? ≠ some ',' → EntLoop source c (toksAt rest (p + utf8Len u)) g' ts') ∧
      ∀ r, rest = ',' :: r → ∃ g'', g' = .token .COMMA [','] :: g'' ∧
        EntLoop source c (toksAt r (p + utf8Len u + 1)) g'' ts' := by
  obtain ⟨n, hp⟩ := h
  cases n with
  | zero => simp [parseEntries] at hp
  | succ n =>
    have hs := hr.1 rest p hf
    obtain ⟨t, ts, hts⟩ : ∃ t ts, toksAt (u ++ rest) p = t :: ts := by
      cases ht : toksAt (u ++ rest) p with
      | nil => rw [ht] at hs; simp [St.peek, AtomStart] at hs
      | cons t ts => exact ⟨t, ts, rfl⟩
    have hk : AtomStart t.kind := by rw [hts] at hs; exact hs
    have h1 : St.skipTrivia ⟨t :: ts, []⟩ = ([], ⟨t :: ts, []⟩) := skipTrivia_id (atomStart_notTrivia hk)
    have h2 : bumpDocs false (t :: ts) = ([], t :: ts) := by
      rcases hk with h | h | h | h | h | h | h | h <;> simp [bumpDocs, h]
    have h3 : (St.atEof ⟨t :: ts, []⟩ || c == some (St.peek ⟨t :: ts, []⟩)) = false := by
      rcases hc with rfl | rfl <;> rcases hk with h | h | h | h | h | h | h | h <;> simp [St.atEof, St.peek, h]
    rw [parseEntries_cont, hts] at hp
    simp only [h1, h2] at hp
    rw [cont, if_neg (by rw [h3]; simp)] at hp
    simp only [Option.map_eq_some_iff, Option.bind_eq_some_iff, Prod.exists, Option.some.injEq, Prod.mk.injEq] at hp
    obtain ⟨g', st', ⟨g3, st3, h4, g6, st6, h6, rfl, rfl⟩, rfl, rfl⟩ := hp
    have e3 : st3.errors = [] := by
      have := (allClean source n).1 _ _ _ h6 rfl
      exact clean_ifBump st3.skipWs.2 _ this
    rw [← hts] at h4
    obtain ⟨cs, rfl, hq, rfl⟩ := hr.2 _ _ _ _ _ _ hb he hf hh h4 e3
    have hw : St.skipWs ⟨toksAt rest (p + utf8Len u), []⟩ = ([], ⟨toksAt rest (p + utf8Len u), []⟩) := by
      apply skipWs_id
      intro hpk
      cases rest with
      | nil => simp [St.peek, toksAt_nil] at hpk
      | cons x r =>
        have := he.peek hc (p + utf8Len u) []
        simp [hpk] at this
    rw [hw] at h6 ⊢
    simp only [List.nil_append] at h6 ⊢
    refine ⟨cs, _, rfl, hq, ?_, ?_⟩
    · intro hne
      have hnc : St.peek ⟨toksAt rest (p + utf8Len u), []⟩ ≠ .comma := by
        intro hpk
        cases rest with
        | nil => simp [St.peek, toksAt_nil] at hpk
        | cons x r =>
          obtain ⟨t, ts, r', h7, -, h8, h9, -⟩ := toks_head x r (p + utf8Len u)
          have hk : t.kind = .comma := by simpa [St.peek, h7] using hpk
          rw [hk] at h9
          have : x = ',' := by
            have : x :: r' = [','] := h9
            simp at this; exact this.1
          simp [this] at hne
      by_cases hnl : St.peek ⟨toksAt rest (p + utf8Len u), []⟩ = .newline
      · simp only [hnl, or_true, if_true] at h6 ⊢
        cases ht : toksAt rest (p + utf8Len u) with
        | nil => rw [ht] at hnl; simp [St.peek] at hnl
        | cons t ts =>
          rw [ht] at hnl h6
          have hk : t.kind = .newline := hnl
          simp only [St.bump] at h6 ⊢
          refine ⟨n, ?_⟩
          rw [peel_trivia _ _ _ _ _ _ (by rw [hk]; rfl), h6]
          rfl
      · simp only [hnc, hnl, or_self, if_false] at h6 ⊢
        exact ⟨n, h6⟩
    · rintro r rfl
      rw [toks_comma] at h6 ⊢
      simp only [St.peek, St.bump, List.head?_cons, Option.map_some, Option.getD_some, true_or, if_true,
        SyntaxKind.ofToken, List.singleton_append] at h6 ⊢
      exact ⟨g6, rfl, n, h6⟩

/-- An item and what follows. -/
theorem itemLoop_item {u rest : List Char} {e : Tail} {q : List Green → Prop} (hr : ItemReads u e q)
    {p : Nat} (hf : Follows e rest) (hh : Here source (u ++ rest) p)
    {g : List Green} {ts' : List Token} (h : ItemLoop source (toksAt (u ++ rest) p) g ts') :
    ∃ cs g', g = .node .ENTRY cs :: g' ∧ q cs ∧ ItemLoop source (toksAt rest (p + utf8Len u)) g' ts' := by
  obtain ⟨n, hp⟩ := h
  cases n with
  | zero => simp [parseItems] at hp
  | succ n =>
    have hs := hr.1 rest p hf
    obtain ⟨t, ts, h1⟩ : ∃ t ts, toksAt (u ++ rest) p = t :: ts := by
      cases ht : toksAt (u ++ rest) p with
      | nil => rw [ht] at hs; simp [St.peek, AtomStart] at hs
      | cons t ts => exact ⟨t, ts, rfl⟩
    have h2 : AtomStart t.kind := by rw [h1] at hs; exact hs
    rw [parseItems, h1, skipTrivia_id (atomStart_notTrivia h2)] at hp
    have h4 : St.atEof ⟨t :: ts, []⟩ = false := by
      rcases h2 with h | h | h | h | h | h | h | h <;> simp [St.atEof, St.peek, h]
    have h5 : ¬ St.peek ⟨t :: ts, []⟩ = .rparen := by
      rcases h2 with h | h | h | h | h | h | h | h <;> simp [St.peek, h]
    simp only [h4, Bool.false_eq_true, if_false, h5, Option.bind_eq_bind, Option.bind_eq_some_iff, Prod.exists,
      Option.some.injEq, Prod.mk.injEq] at hp
    obtain ⟨g2, st2, h6, g4, st4, h7, rfl, rfl⟩ := hp
    rw [← h1] at h6
    have e1 : st2.skipWs.2.errors = [] := (allClean source n).2.2.2.2.2.2 _ _ h7 rfl
    have e2 : st2.errors = [] := e1
    obtain ⟨g, rfl, hg, rfl⟩ := hr.2 _ _ _ _ _ _ hf hh h6 e2
    refine ⟨_, _, by simp only [List.nil_append, List.cons_append]; rfl, hg, n, ?_⟩
    rw [items_skipWs, h7]
    rfl

theorem entLoop_end {x : List Char} (hx : (x = [] ∧ c = none) ∨ ∃ r, x = '}' :: r ∧ c = some .rbrace) {p : Nat}
    {g : List Green} {ts' : List Token} (h : EntLoop source c (toksAt x p) g ts') : g = [] ∧ ts' = toksAt x p := by
  obtain ⟨n, hp⟩ := h
  cases n with
  | zero => simp [parseEntries] at hp
  | succ n =>
    rcases hx with ⟨rfl, rfl⟩ | ⟨r, rfl, rfl⟩
    · rw [toksAt_nil, parseEntries_cont, skipTrivia_id rfl] at hp
      simp only [bumpDocs, reduceCtorEq, and_false, or_self, if_false, Bool.false_eq_true] at hp
      rw [cont, if_pos (by simp [St.peek, St.atEof])] at hp
      cases hp
      exact ⟨rfl, rfl⟩
    · rw [toks_rbrace] at hp ⊢
      rw [parseEntries_cont, skipTrivia_id rfl] at hp
      simp only [bumpDocs, reduceCtorEq, and_false, or_self, if_false, Bool.false_eq_true] at hp
      rw [cont, if_pos (by simp [St.peek])] at hp
      cases hp
      exact ⟨rfl, rfl⟩

theorem itemLoop_end {r : List Char} {p : Nat} {g : List Green} {ts' : List Token}
    (h : ItemLoop source (toksAt (')' :: r) p) g ts') : g = [] ∧ ts' = toksAt (')' :: r) p := by
  obtain ⟨n, hp⟩ := h
  cases n with
  | zero => simp [parseItems] at hp
  | succ n =>
    rw [toks_rparen] at hp ⊢
    rw [parseItems, skipTrivia_id rfl] at hp
    simp only [St.atEof, St.peek, List.head?_cons, Option.map_some, Option.getD_some, if_true, beq_iff_eq,
      reduceCtorEq, if_false, Option.some.injEq, Prod.mk.injEq] at hp
    obtain ⟨rfl, hp⟩ := hp
    cases hp
    exact ⟨rfl, rfl⟩

/-! ## Lines -/

/-- The lines as text: line breaks, the indentation and what is on the line. -/
inductive Printed (ind : List Char) (lvl : Nat) (dc : Bool) (R : List Green → List Char → Prop) :
    Bool → List (Nat × Ln) → List Char → Prop
  | nil {w} : Printed ind lvl dc R w [] []
  | com {w m t ls s} : (w = true → 1 ≤ m) → CommentText t → Printed ind lvl dc R true ls s →
      Printed ind lvl dc R w ((m, .com t) :: ls) (List.replicate m '\n' ++ (indentOf ind lvl ++ (t ++ s)))
  | doc {w m body ls s} : dc = true → (w = true → 1 ≤ m) → (∀ c ∈ body, c ≠ '\n' ∧ c ≠ '\r') →
      Printed ind lvl dc R true ls s →
      Printed ind lvl dc R w ((m, .doc ('/' :: '/' :: '/' :: body)) :: ls)
        (List.replicate m '\n' ++ (indentOf ind lvl ++ ('/' :: '/' :: '/' :: body ++ s)))
  | ent {w m c u ls s} : (w = true → 1 ≤ m) → R c u → Printed ind lvl dc R true ls s →
      Printed ind lvl dc R w ((m, .ent c) :: ls) (List.replicate m '\n' ++ (indentOf ind lvl ++ (u ++ s)))

/-- No comment after a doc comment; `p`: the line before is a doc comment. -/
def DocOk : Bool → List (Nat × Ln) → Prop
  | _, [] => True
  | p, (_, .com _) :: ls => p = false ∧ DocOk false ls
  | _, (_, .doc _) :: ls => DocOk true ls
  | _, (_, .ent _) :: ls => DocOk false ls

/-- A loop that reads lines. -/
structure Loop (source : List Char) (dc : Bool) (R : List Green → List Char → Prop) (Q : List Green → List Green → Prop)
    (L : List Token → List Green → List Token → Prop) : Prop where
  trivia : ∀ t ts g ts', isTrivia t.kind = true → L (t :: ts) g ts' → ∃ g', g = tokG t :: g' ∧ L ts g' ts'
  doc : dc = true → ∀ t ts g ts', t.kind = .docComment → NoCom ts → L (t :: ts) g ts' →
    ∃ g', g = tokG t :: g' ∧ L ts g' ts'
  entry : ∀ c u rest p g ts', R c u → Here source (u ++ '\n' :: rest) p → L (toksAt (u ++ '\n' :: rest) p) g ts' →
    ∃ c' g', Q c c' ∧ g = .node .ENTRY c' :: g' ∧ L (toksAt ('\n' :: rest) (p + utf8Len u)) g' ts'
  head : ∀ c u rest p, R c u → AtomStart (St.peek ⟨toksAt (u ++ '\n' :: rest) p, []⟩)

/-- What is known about what was read. -/
structure Facts (Q : List Green → List Green → Prop) (ls : List (Nat × Ln)) (g : List Green) : Prop where
  lines : ∀ rst n, LnsRel Q (bumpFirst n ls) (items rst n g)
  comma : hasToken .COMMA g = false
  newline : hasToken .NEWLINE g = true
  elem : ∀ x ∈ g, Elem x

variable {dc : Bool} {R : List Green → List Char → Prop} {Q : List Green → List Green → Prop}
  {L : List Token → List Green → List Token → Prop}

theorem toks_nl (s : List Char) (p : Nat) : toksAt ('\n' :: s) p = ⟨.newline, p, p + 1, ['\n']⟩ :: toksAt s (p + 1) :=
  toks_newline (n := ['\n']) (.inl rfl) s p

/-- Line breaks and the indentation. -/
theorem loop_break (hL : Loop source dc R Q L) {b r : List Char} (hb : Blanks b) (hr : NoBlank r) :
    ∀ (m p : Nat) (g : List Green) (ts' : List Token), L (toksAt (List.replicate m '\n' ++ (b ++ r)) p) g ts' →
    ∃ g', L (toksAt r (p + utf8Len (List.replicate m '\n' ++ b))) g' ts' ∧
      (∀ rst n, items rst n g = items rst (n + m) g') ∧ hasToken .COMMA g = hasToken .COMMA g' ∧
      (1 ≤ m ∨ hasToken .NEWLINE g' = true → hasToken .NEWLINE g = true) ∧
      ((∀ x ∈ g', Elem x) → ∀ x ∈ g, Elem x) := by
  intro m
  induction m with
  | zero =>
    intro p g ts' h
    simp only [List.replicate_zero, List.nil_append] at h ⊢
    by_cases hne : b = []
    · subst hne
      exact ⟨g, by simpa using h, fun _ _ => rfl, rfl, by simp, id⟩
    · rw [toks_blanks hb hne hr] at h
      obtain ⟨g', rfl, h1⟩ := hL.trivia _ _ _ _ rfl h
      refine ⟨g', h1, fun _ _ => rfl, by simp [hasToken, SyntaxKind.ofToken], ?_, ?_⟩
      · simp [hasToken, SyntaxKind.ofToken]
      · intro hx x hm
        rcases List.mem_cons.1 hm with rfl | hm
        · simp [Elem, SyntaxKind.ofToken]
        · exact hx x hm
  | succ m ih =>
    intro p g ts' h
    rw [List.replicate_succ, List.cons_append, toks_nl] at h
    obtain ⟨g1, rfl, h1⟩ := hL.trivia _ _ _ _ rfl h
    obtain ⟨g', h2, h3, h4, h5, h6⟩ := ih _ _ _ h1
    refine ⟨g', ?_, ?_, ?_, ?_, ?_⟩
    · have e : p + utf8Len (List.replicate (m + 1) '\n' ++ b) = p + 1 + utf8Len (List.replicate m '\n' ++ b) := by
        rw [List.replicate_succ, List.cons_append, utf8Len_cons, show '\n'.utf8Size = 1 from rfl]
        omega
      rw [e]
      exact h2
    · intro rst n
      rw [show n + (m + 1) = n + 1 + m by omega, ← h3]
      rfl
    · rw [← h4]
      simp [hasToken, SyntaxKind.ofToken]
    · intro _
      simp [hasToken, SyntaxKind.ofToken]
    · intro hx x hm
      rcases List.mem_cons.1 hm with rfl | hm
      · simp [Elem, SyntaxKind.ofToken]
      · exact h6 hx x hm

theorem bump_zero (ls : List (Nat × Ln)) : bumpFirst 0 ls = ls := by
  cases ls <;> simp [bumpFirst]

theorem atomStart_noCom {s : List Char} {p : Nat} (h : AtomStart (St.peek ⟨toksAt s p, []⟩)) : NoCom (toksAt s p) := by
  cases hts : toksAt s p with
  | nil => rw [hts] at h; simp [St.peek, AtomStart] at h
  | cons t ts =>
    have h : AtomStart t.kind := by rw [hts] at h; exact h
    rcases h with h | h | h | h | h | h | h | h <;> exact noCom_head (by simp [h]) (by simp [h]) (by simp [h]) (by simp [h])

theorem noCom_breaks {b r : List Char} (hb : Blanks b) (hr : NoBlank r) (h : ∀ p, NoCom (toksAt r p)) :
    ∀ (m p : Nat), NoCom (toksAt (List.replicate m '\n' ++ (b ++ r)) p) := by
  intro m
  induction m with
  | zero =>
    intro p
    simp only [List.replicate_zero, List.nil_append]
    by_cases hne : b = []
    · subst hne; exact h p
    · rw [toks_blanks hb hne hr]
      exact noCom_skip (.inl rfl) (h _)
  | succ m ih =>
    intro p
    rw [List.replicate_succ, List.cons_append, toks_nl]
    exact noCom_skip (.inr (.inl rfl)) (ih _)

theorem printed_nl {lvl : Nat} {ls : List (Nat × Ln)} {s : List Char} (h : Printed ind lvl dc R true ls s) :
    s = [] ∨ ∃ s', s = '\n' :: s' := by
  have key : ∀ m (r : List Char), (true = true → 1 ≤ m) → ∃ s', List.replicate m '\n' ++ r = '\n' :: s' := by
    intro m r hm
    obtain ⟨k, rfl⟩ : ∃ k, m = k + 1 := ⟨m - 1, by have := hm rfl; omega⟩
    exact ⟨_, rfl⟩
  cases h with
  | nil => exact .inl rfl
  | com h _ _ => exact .inr (key _ _ h)
  | doc _ h _ _ => exact .inr (key _ _ h)
  | ent h _ _ => exact .inr (key _ _ h)

theorem printed_rest {lvl : Nat} {ls : List (Nat × Ln)} {s : List Char} (h : Printed ind lvl dc R true ls s) (z : List Char) :
    ∃ r, s ++ '\n' :: z = '\n' :: r := by
  rcases printed_nl h with rfl | ⟨s', rfl⟩
  · exact ⟨_, rfl⟩
  · exact ⟨_, rfl⟩

theorem comment_noBlank {t : List Char} (ht : CommentText t) (s : List Char) : NoBlank (t ++ s) := by
  obtain ⟨r, rfl, -⟩ := ht
  intro c r e
  cases e
  rfl

theorem printed_noCom (hi : Blanks ind) (hL : Loop source dc R Q L) {lvl : Nat} {w : Bool} {ls : List (Nat × Ln)} {s : List Char}
    (h : Printed ind lvl dc R w ls s) {z : List Char} (hz : ∀ p, NoCom (toksAt ('\n' :: z) p)) :
    DocOk true ls → ∀ p, NoCom (toksAt (s ++ '\n' :: z) p) := by
  induction h with
  | nil => intro _ p; exact hz p
  | com => intro hd; simp [DocOk] at hd
  | @doc w m body ls s _ hm hbody hp ih =>
    intro hd p
    rw [List.append_assoc, List.append_assoc]
    refine noCom_breaks (blanks_indent hi _) (fun c r e => by cases e; rfl) (fun p => ?_) m p
    rw [List.append_assoc]
    obtain ⟨r, hr⟩ := printed_rest hp z
    rw [hr, toks_doc hbody (.inr (.inl ⟨_, rfl⟩)), ← hr]
    exact noCom_skip (.inr (.inr rfl)) (ih hd _)
  | @ent w m c u ls s hm hu hp ih =>
    intro hd p
    rw [List.append_assoc, List.append_assoc, List.append_assoc]
    obtain ⟨r, hr⟩ := printed_rest hp z
    rw [hr]
    refine noCom_breaks (blanks_indent hi _) (atomStart_noBlank (p := 0) (er := []) (hL.head c u r _ hu)).1 (fun p => ?_) m p
    exact atomStart_noCom (hL.head c u r p hu)

/-- The lines are read as they are. -/
theorem lines_read (hi : Blanks ind) (hL : Loop source dc R Q L) {lvl : Nat} {w : Bool} {ls : List (Nat × Ln)} {s : List Char}
    (h : Printed ind lvl dc R w ls s) {z : List Char} (hnc : ∀ p, NoCom (toksAt ('\n' :: z) p)) {fin : List Token} :
    ∀ (d : Bool) (p : Nat) (g : List Green) (ts' : List Token), DocOk d ls → Here source (s ++ '\n' :: z) p →
      (∀ g ts', L (toksAt ('\n' :: z) (p + utf8Len s)) g ts' → Facts Q [] g ∧ ts' = fin) →
      L (toksAt (s ++ '\n' :: z) p) g ts' → Facts Q ls g ∧ ts' = fin := by
  induction h with
  | nil =>
    intro d p g ts' _ _ hz hl
    exact hz g ts' hl
  | @com w m t ls s hm ht hp ih =>
    intro d p g ts' hd hh hz hl
    rw [List.append_assoc, List.append_assoc, List.append_assoc] at hh hl
    obtain ⟨g1, h1, h2, h3, h4, h5⟩ := loop_break hL (blanks_indent hi lvl) (comment_noBlank ht _) m _ _ _ hl
    obtain ⟨r, hr⟩ := printed_rest hp z
    have hh' := hh.tail.tail.tail
    rw [hr] at h1 hh'
    rw [toks_comment ht (.inr (.inl ⟨_, rfl⟩))] at h1
    rw [← hr] at h1 hh'
    obtain ⟨g2, rfl, h6⟩ := hL.trivia _ _ _ _ rfl h1
    have e0 : p + utf8Len (List.replicate m '\n') + utf8Len (indentOf ind lvl) + utf8Len t =
        p + utf8Len (List.replicate m '\n' ++ indentOf ind lvl) + utf8Len t := by rw [utf8Len_append]; omega
    rw [e0] at hh'
    obtain ⟨⟨f1, f2, f3, f4⟩, rfl⟩ := ih false _ g2 ts' hd.2 hh' (fun g ts' hg => hz g ts' (by
      simp only [utf8Len_append, Nat.add_assoc] at hg ⊢; exact hg)) h6
    refine ⟨⟨?_, ?_, ?_, ?_⟩, rfl⟩
    · intro rst n
      rw [h2]
      have := f1 rst 0
      rw [bump_zero] at this
      exact .cons .com this
    · rw [h3]; simpa [hasToken, SyntaxKind.ofToken] using f2
    · exact h4 (.inr (by simpa [hasToken, SyntaxKind.ofToken] using f3))
    · refine h5 fun x hx => ?_
      rcases List.mem_cons.1 hx with rfl | hx
      · simp [Elem, SyntaxKind.ofToken]
      · exact f4 x hx
  | @doc w m body ls s hdc hm hbody hp ih =>
    intro d p g ts' hd hh hz hl
    rw [List.append_assoc, List.append_assoc, List.append_assoc] at hh hl
    obtain ⟨g1, h1, h2, h3, h4, h5⟩ := loop_break hL (blanks_indent hi lvl) (fun c r e => by cases e; rfl) m _ _ _ hl
    obtain ⟨r, hr⟩ := printed_rest hp z
    have hh' := hh.tail.tail.tail
    rw [hr] at h1 hh'
    rw [toks_doc hbody (.inr (.inl ⟨_, rfl⟩))] at h1
    rw [← hr] at h1 hh'
    obtain ⟨g2, rfl, h6⟩ := hL.doc hdc _ _ _ _ rfl (printed_noCom hi hL hp hnc hd _) h1
    have e0 : p + utf8Len (List.replicate m '\n') + utf8Len (indentOf ind lvl) + utf8Len ('/' :: '/' :: '/' :: body) =
        p + utf8Len (List.replicate m '\n' ++ indentOf ind lvl) + utf8Len ('/' :: '/' :: '/' :: body) := by
      rw [utf8Len_append]; omega
    rw [e0] at hh'
    obtain ⟨⟨f1, f2, f3, f4⟩, rfl⟩ := ih true _ g2 ts' hd hh' (fun g ts' hg => hz g ts' (by
      simp only [utf8Len_append, Nat.add_assoc] at hg ⊢; exact hg)) h6
    refine ⟨⟨?_, ?_, ?_, ?_⟩, rfl⟩
    · intro rst n
      rw [h2]
      have := f1 rst 0
      rw [bump_zero] at this
      exact .cons .doc this
    · rw [h3]; simpa [hasToken, SyntaxKind.ofToken] using f2
    · exact h4 (.inr (by simpa [hasToken, SyntaxKind.ofToken] using f3))
    · refine h5 fun x hx => ?_
      rcases List.mem_cons.1 hx with rfl | hx
      · simp [Elem, SyntaxKind.ofToken]
      · exact f4 x hx
  | @ent w m c u ls s hm hu hp ih =>
    intro d p g ts' hd hh hz hl
    rw [List.append_assoc, List.append_assoc, List.append_assoc] at hh hl
    obtain ⟨r, hr⟩ := printed_rest hp z
    rw [hr] at hh hl
    obtain ⟨g1, h1, h2, h3, h4, h5⟩ := loop_break hL (blanks_indent hi lvl)
      (atomStart_noBlank (p := 0) (er := []) (hL.head c u r _ hu)).1 m _ _ _ hl
    have hh1 := hh.tail.tail
    rw [Nat.add_assoc, ← utf8Len_append] at hh1
    obtain ⟨c', g2, hq, rfl, h6⟩ := hL.entry _ _ _ _ _ _ hu hh1 h1
    have hh' := hh1.tail
    rw [← hr] at h6 hh'
    obtain ⟨⟨f1, f2, f3, f4⟩, rfl⟩ := ih false _ g2 ts' hd hh' (fun g ts' hg => hz g ts' (by
      simp only [utf8Len_append, Nat.add_assoc] at hg ⊢; exact hg)) h6
    refine ⟨⟨?_, ?_, ?_, ?_⟩, rfl⟩
    · intro rst n
      rw [h2]
      have := f1 rst 0
      rw [bump_zero] at this
      exact .cons (.ent hq) this
    · rw [h3]; simpa [hasToken] using f2
    · exact h4 (.inr (by simpa [hasToken] using f3))
    · refine h5 fun x hx => ?_
      rcases List.mem_cons.1 hx with rfl | hx
      · simp [Elem]
      · exact f4 x hx

/-- The end of the lines. -/
theorem lines_end (hL : Loop source dc R Q L) {b x : List Char} (hb : Blanks b) (hx : NoBlank x) {p : Nat} {g : List Green}
    {ts' : List Token} (hend : ∀ p g ts', L (toksAt x p) g ts' → g = [] ∧ ts' = toksAt x p)
    (h : L (toksAt ('\n' :: (b ++ x)) p) g ts') : Facts Q [] g ∧ ts' = toksAt x (p + utf8Len ('\n' :: b)) := by
  have h' : L (toksAt (List.replicate 1 '\n' ++ (b ++ x)) p) g ts' := h
  obtain ⟨g', h1, h2, h3, h4, h5⟩ := loop_break hL hb hx 1 _ _ _ h'
  obtain ⟨rfl, rfl⟩ := hend _ _ _ h1
  refine ⟨⟨?_, ?_, h4 (.inl (Nat.le_refl 1)), h5 (by simp)⟩, rfl⟩
  · intro rst n
    rw [h2]
    exact .nil
  · rw [h3]; rfl

theorem noCom_end {b x : List Char} (hb : Blanks b) (hx : x = [] ∨ (∃ r, x = '}' :: r) ∨ ∃ r, x = ')' :: r) (p : Nat) :
    NoCom (toksAt ('\n' :: (b ++ x)) p) := by
  have hnb : NoBlank x := by
    intro c r e
    rcases hx with rfl | ⟨r', rfl⟩ | ⟨r', rfl⟩ <;> cases e <;> rfl
  refine noCom_breaks hb hnb (fun p => ?_) 1 p
  rcases hx with rfl | ⟨r', rfl⟩ | ⟨r', rfl⟩
  · rw [toksAt_nil]; exact noCom_head (by simp) (by simp) (by simp) (by simp)
  · rw [toks_rbrace]; exact noCom_head (by simp) (by simp) (by simp) (by simp)
  · rw [toks_rparen]; exact noCom_head (by simp) (by simp) (by simp) (by simp)

end Styx.Cst
