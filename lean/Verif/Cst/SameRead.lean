import Verif.Cst.Same

/-! # Reading what the source formatter has written: the loops, and brackets -/

namespace Styx.Cst

open Styx Styx.Spec

variable {ind : List Char} {source : List Char} {c : Option TokenKind}

/-! ## The loops -/

/-- The entry is written as `u`, and reading `u` gives an entry that is written in the same way; `nl`: it may be a heredoc. -/
def EntR (ind : List Char) (nl : Bool) (c : Option TokenKind) (cs : List Green) (u : List Char) : Prop :=
  ∃ e, (lineTail e = true → nl = true) ∧ EntReads c u e (EntSame ind cs)

/-- The same for items. -/
def ItemR (ind : List Char) (nl : Bool) (cs : List Green) (u : List Char) : Prop :=
  ∃ e, (lineTail e = true → nl = true) ∧ e.notAttrs ∧ ItemReads u e (ItemSame ind cs)

theorem noBlank_newline (r : List Char) : NoBlank ('\n' :: r) := by
  intro c r e; cases e; rfl

theorem endAt_newline (r : List Char) : EndAt c ('\n' :: r) := by
  intro p er
  rw [toks_nl]
  simp [St.atEntryEnd, St.peek]

theorem endAt_rbrace (r : List Char) : EndAt (some .rbrace) ('}' :: r) := by
  intro p er
  rw [toks_rbrace]
  simp [St.atEntryEnd, St.peek]

theorem endAt_comma (r : List Char) : EndAt c (',' :: r) := by
  intro p er
  rw [toks_comma]
  simp [St.atEntryEnd, St.peek]

theorem loop_entries (hc : Closing c) (nl : Bool) :
    Loop source true (EntR ind nl c) (EntSame ind) (EntLoop source c) where
  trivia := fun _ _ _ _ ht h => entLoop_trivia ht h
  doc := fun _ _ _ _ _ hd hn h => entLoop_doc hd hn h
  entry := by
    rintro cs u rest p g ts' ⟨e, -, hr⟩ hh h
    obtain ⟨cs', g', h1, h2, h3, -⟩ := entLoop_entry hc hr (noBlank_newline rest) (endAt_newline rest) (follows_newline e rest) hh h
    exact ⟨cs', g', h2, h1, h3 (by simp)⟩
  head := by
    rintro cs u rest p ⟨e, -, hr⟩
    exact hr.1 _ _ (follows_newline e rest)

theorem loop_items (nl : Bool) : Loop source false (ItemR ind nl) (ItemSame ind) (ItemLoop source) where
  trivia := fun _ _ _ _ ht h => itemLoop_trivia ht h
  doc := fun h => by cases h
  entry := by
    rintro cs u rest p g ts' ⟨e, -, -, hr⟩ hh h
    obtain ⟨cs', g', h1, h2, h3⟩ := itemLoop_item hr (follows_newline e rest) hh h
    exact ⟨cs', g', h2, h1, h3⟩
  head := by
    rintro cs u rest p ⟨e, -, -, hr⟩
    exact hr.1 _ _ (follows_newline e rest)

theorem not_line {e : Tail} (h : lineTail e = true → false = true) : lineTail e = false := by
  cases he : lineTail e
  · rfl
  · exact absurd (h he) (by simp)

theorem loopI_entries : LoopI source (EntR ind false (some .rbrace)) (EntSame ind) [',', ' '] '}' (EntLoop source (some .rbrace)) where
  last := by
    rintro cs u rest p g ts' ⟨e, he, hr⟩ hh h
    obtain ⟨cs', g', h1, h2, h3, -⟩ := entLoop_entry (.inr rfl) hr (by intro c r e; cases e; rfl) (endAt_rbrace rest)
      (follows_sep (not_line he) (by simp)) hh h
    obtain ⟨rfl, rfl⟩ := entLoop_end (.inr ⟨_, rfl, rfl⟩) (h3 (by simp))
    exact ⟨cs', h2, h1, rfl⟩
  next := by
    rintro cs u c2 u2 rest p g ts' ⟨e, he, hr⟩ ⟨e2, he2, hr2⟩ hne hh hrest h
    obtain ⟨cs', g', h1, h2, -, h3⟩ := entLoop_entry (rest := [',', ' '] ++ (u2 ++ rest)) (.inr rfl) hr
      (by intro c r e; cases e; rfl) (endAt_comma _) (follows_sep (not_line he) (by simp)) hh h
    obtain ⟨g2, rfl, h4⟩ := h3 _ rfl
    have hs : Follows e2 rest := by
      cases rest with
      | nil => exact absurd rfl hne
      | cons x r =>
        refine follows_sep (not_line he2) ?_
        simp at hrest
        rcases hrest with rfl | rfl <;> simp
    have hnb := (atomStart_noBlank (hr2.1 rest 0 hs)).1
    rw [show [' '].append (u2 ++ rest) = [' '] ++ (u2 ++ rest) from rfl] at h4
    rw [toks_blanks (b := [' ']) (by simp [Blanks, Blank]) (by simp) hnb] at h4
    obtain ⟨g3, rfl, h5⟩ := entLoop_trivia rfl h4
    refine ⟨cs', [.token .COMMA [','], tokG ⟨.whitespace, p + utf8Len u + 1, p + utf8Len u + 1 + utf8Len [' '], [' ']⟩], g3, h2, ?_, ?_, ?_⟩
    · rw [h1]; rfl
    · intro x hx
      simp only [List.mem_cons, List.not_mem_nil, or_false] at hx
      rcases hx with rfl | rfl
      · exact ⟨_, .inl rfl⟩
      · exact ⟨_, .inr rfl⟩
    · have e : p + utf8Len (u ++ [',', ' ']) = p + utf8Len u + 1 + utf8Len [' '] := by
        simp only [utf8Len_append, utf8Len, show ','.utf8Size = 1 from rfl, show ' '.utf8Size = 1 from rfl]
        omega
      rw [e]
      exact h5

theorem loopI_items : LoopI source (ItemR ind false) (ItemSame ind) [' '] ')' (ItemLoop source) where
  last := by
    rintro cs u rest p g ts' ⟨e, he, ha, hr⟩ hh h
    obtain ⟨cs', g', h1, h2, h3⟩ := itemLoop_item hr (follows_sep (not_line he) (by simp)) hh h
    obtain ⟨rfl, rfl⟩ := itemLoop_end h3
    exact ⟨cs', h2, h1, rfl⟩
  next := by
    rintro cs u c2 u2 rest p g ts' ⟨e, he, ha, hr⟩ ⟨e2, he2, ha2, hr2⟩ hne hh hrest h
    obtain ⟨cs', g', h1, h2, h3⟩ := itemLoop_item (rest := [' '] ++ (u2 ++ rest)) hr (follows_blank (not_line he) ha _) hh h
    have hs : Follows e2 rest := by
      cases rest with
      | nil => exact absurd rfl hne
      | cons x r =>
        simp at hrest
        rcases hrest with rfl | rfl
        · exact follows_blank (not_line he2) ha2 _
        · exact follows_sep (not_line he2) (by simp)
    have hnb := (atomStart_noBlank (hr2.1 rest 0 hs)).1
    rw [toks_blanks (b := [' ']) (by simp [Blanks, Blank]) (by simp) hnb] at h3
    obtain ⟨g3, rfl, h5⟩ := itemLoop_trivia rfl h3
    refine ⟨cs', [tokG ⟨.whitespace, p + utf8Len u, p + utf8Len u + utf8Len [' '], [' ']⟩], g3, h2, ?_, ?_, ?_⟩
    · rw [h1]; rfl
    · intro x hx
      simp only [List.mem_cons, List.not_mem_nil, or_false] at hx
      subst hx
      exact ⟨_, .inr rfl⟩
    · rw [utf8Len_append, ← Nat.add_assoc]
      exact h5

/-! ## Brackets -/

theorem atom_parens {t : List Char} {q : List Green → Prop}
    (h : ∀ source rest p g ts', Here source (t ++ ')' :: rest) p → ItemLoop source (toksAt (t ++ ')' :: rest) p) g ts' →
      q g ∧ ts' = toksAt (')' :: rest) (p + utf8Len t)) :
    AtomReads ('(' :: (t ++ [')'])) .closed fun g => ∃ m, g = .node .SEQUENCE (.token .L_PAREN ['('] :: m ++ [.token .R_PAREN [')']]) ∧ q m := by
  intro source rest n p gs st _ hh hp herr
  cases n with
  | zero => simp [parseAtom] at hp
  | succ n =>
    have e0 : '(' :: (t ++ [')']) ++ rest = '(' :: (t ++ ')' :: rest) := by simp
    rw [e0] at hh hp
    rw [toks_lparen] at hp
    rw [parseAtom.eq_def] at hp
    have hpk : St.peek ⟨⟨TokenKind.lparen, p, p + 1, ['(']⟩ :: toksAt (t ++ ')' :: rest) (p + 1), []⟩ = .lparen := rfl
    have hbp : St.bump ⟨⟨TokenKind.lparen, p, p + 1, ['(']⟩ :: toksAt (t ++ ')' :: rest) (p + 1), []⟩ =
      ([.token .L_PAREN ['(']], ⟨toksAt (t ++ ')' :: rest) (p + 1), []⟩) := rfl
    simp only [hpk, hbp, Option.bind_eq_bind,
      Option.bind_eq_some_iff, Prod.exists, Option.some.injEq, Prod.mk.injEq] at hp
    obtain ⟨g2, st2, h1, h2, h3⟩ := hp
    have e2 : st2.errors = [] := by
      rw [← h3] at herr
      exact clean_ifBump st2 _ herr
    obtain ⟨toks, er⟩ := st2
    simp only at e2
    subst e2
    obtain ⟨h4, rfl⟩ := h _ _ _ _ _ hh.cons ⟨n, h1⟩
    rw [toks_rparen] at h2 h3
    simp only [St.peek, St.bump, List.head?_cons, Option.map_some, Option.getD_some, if_true, SyntaxKind.ofToken] at h2 h3
    subst h2 h3
    refine ⟨_, rfl, ⟨g2, by simp, h4⟩, ?_⟩
    congr 2
    simp only [utf8Len_append, utf8Len, show '('.utf8Size = 1 from rfl, show ')'.utf8Size = 1 from rfl]
    omega

theorem atom_braces {t : List Char} {q : List Green → Prop}
    (h : ∀ source rest p g ts', Here source (t ++ '}' :: rest) p → EntLoop source (some .rbrace) (toksAt (t ++ '}' :: rest) p) g ts' →
      q g ∧ ts' = toksAt ('}' :: rest) (p + utf8Len t)) :
    AtomReads ('{' :: (t ++ ['}'])) .closed fun g => ∃ m, g = .node .OBJECT (.token .L_BRACE ['{'] :: m ++ [.token .R_BRACE ['}']]) ∧ q m := by
  intro source rest n p gs st _ hh hp herr
  cases n with
  | zero => simp [parseAtom] at hp
  | succ n =>
    have e0 : '{' :: (t ++ ['}']) ++ rest = '{' :: (t ++ '}' :: rest) := by simp
    rw [e0] at hh hp
    rw [toks_lbrace] at hp
    rw [parseAtom.eq_def] at hp
    have hpk : St.peek ⟨⟨TokenKind.lbrace, p, p + 1, ['{']⟩ :: toksAt (t ++ '}' :: rest) (p + 1), []⟩ = .lbrace := rfl
    have hbp : St.bump ⟨⟨TokenKind.lbrace, p, p + 1, ['{']⟩ :: toksAt (t ++ '}' :: rest) (p + 1), []⟩ =
      ([.token .L_BRACE ['{']], ⟨toksAt (t ++ '}' :: rest) (p + 1), []⟩) := rfl
    simp only [hpk, hbp, Option.bind_eq_bind,
      Option.bind_eq_some_iff, Prod.exists, Option.some.injEq, Prod.mk.injEq] at hp
    obtain ⟨g2, st2, h1, h2, h3⟩ := hp
    have e2 : st2.errors = [] := by
      rw [← h3] at herr
      split at herr
      · have : st2.skipTrivia.2.errors = [] := by
          rw [St.bump] at herr
          split at herr <;> exact herr
        exact this
      · simp [St.err] at herr
    obtain ⟨toks, er⟩ := st2
    simp only at e2
    subst e2
    obtain ⟨h4, rfl⟩ := h _ _ _ _ _ hh.cons ⟨n, h1⟩
    rw [toks_rbrace, skipTrivia_id rfl] at h2 h3
    simp only [St.peek, St.bump, List.head?_cons, Option.map_some, Option.getD_some, if_true, List.append_nil,
      SyntaxKind.ofToken] at h2 h3
    subst h2 h3
    refine ⟨_, rfl, ⟨g2, by simp, h4⟩, ?_⟩
    congr 2
    simp only [utf8Len_append, utf8Len, show '{'.utf8Size = 1 from rfl, show '}'.utf8Size = 1 from rfl]
    omega

/-- Kinds of brackets. -/
def Bracket (k : SyntaxKind) : Prop := k = .L_BRACE ∨ k = .R_BRACE ∨ k = .L_PAREN ∨ k = .R_PAREN

theorem wrap_facts {l r : SyntaxKind} {a b : List Char} (hl : Bracket l) (hr : Bracket r) (m : List Green) :
    entriesOf (.token l a :: m ++ [.token r b]) = entriesOf m ∧
    hasToken .NEWLINE (.token l a :: m ++ [.token r b]) = hasToken .NEWLINE m ∧
    hasToken .LINE_COMMENT (.token l a :: m ++ [.token r b]) = hasToken .LINE_COMMENT m ∧
    hasToken .DOC_COMMENT (.token l a :: m ++ [.token r b]) = hasToken .DOC_COMMENT m ∧
    hasToken .COMMA (.token l a :: m ++ [.token r b]) = hasToken .COMMA m ∧
    hasKind .LINE_COMMENT (.token l a :: m ++ [.token r b]) = hasKind .LINE_COMMENT m ∧
    hasKind .DOC_COMMENT (.token l a :: m ++ [.token r b]) = hasKind .DOC_COMMENT m := by
  have e1 : entriesOf (.token l a :: m ++ [.token r b]) = entriesOf m := by
    show nodesOf .ENTRY (m ++ [.token r b]) = nodesOf .ENTRY m
    rw [nodesOf_app]
    simp [nodesOf]
  have e2 : ∀ k, ¬ Bracket k → hasToken k (.token l a :: m ++ [.token r b]) = hasToken k m := by
    intro k hk
    rw [List.cons_append, hasToken, hasToken_app]
    have h1 : (l == k) = false := by
      cases h : (l == k) with
      | false => rfl
      | true => exact absurd (by rw [← (by simpa using h : l = k)]; exact hl) hk
    have h2 : (r == k) = false := by
      cases h : (r == k) with
      | false => rfl
      | true => exact absurd (by rw [← (by simpa using h : r = k)]; exact hr) hk
    simp [hasToken, h1, h2]
  have e3 : ∀ k, ¬ Bracket k → hasKind k (.token l a :: m ++ [.token r b]) = hasKind k m := by
    intro k hk
    have h1 : (l == k) = false := by
      cases h : (l == k) with
      | false => rfl
      | true => exact absurd (by rw [← (by simpa using h : l = k)]; exact hl) hk
    have h2 : (r == k) = false := by
      cases h : (r == k) with
      | false => rfl
      | true => exact absurd (by rw [← (by simpa using h : r = k)]; exact hr) hk
    simp only [hasKind, List.cons_append, List.any_cons, List.any_append, Green.kind, List.any_nil, h1, h2]
    simp
  refine ⟨e1, e2 _ ?_, e2 _ ?_, e2 _ ?_, e2 _ ?_, e3 _ ?_, e3 _ ?_⟩ <;> simp [Bracket]

theorem wrap_items {l r : SyntaxKind} {a b : List Char} (hl : Bracket l) (hr : Bracket r) (rst : Bool) (n : Nat) (m : List Green) :
    items rst n (.token l a :: m ++ [.token r b]) = items rst n m := by
  have snoc : ∀ (m : List Green) (n : Nat), items rst n (m ++ [.token r b]) = items rst n m := by
    intro m
    induction m with
    | nil => intro n; rcases hr with rfl | rfl | rfl | rfl <;> rfl
    | cons g gs ih =>
      intro n
      cases g with
      | token k t =>
        rw [List.cons_append, items.eq_def, items.eq_def rst n (_ :: gs)]
        simp only [ih]
      | node k cs => rw [List.cons_append, items, items, ih]
  have first : items rst n (.token l a :: (m ++ [.token r b])) = items rst n (m ++ [.token r b]) := by
    rcases hl with rfl | rfl | rfl | rfl <;> rfl
  rw [List.cons_append, first, snoc]

theorem lns_facts {R : List Green → List Green → Prop} {ls ls' : List (Nat × Ln)} (h : LnsRel R ls ls') :
    All2 R (ls.filterMap (·.2.entry)) (ls'.filterMap (·.2.entry)) ∧ ls'.any (·.2.isCom) = ls.any (·.2.isCom) ∧
      ls'.any (·.2.isDoc) = ls.any (·.2.isDoc) := by
  induction h with
  | nil => exact ⟨.nil, rfl, rfl⟩
  | cons h1 _ ih =>
    obtain ⟨i1, i2, i3⟩ := ih
    cases h1 with
    | com => exact ⟨i1, by rw [List.any_cons, List.any_cons, i2], by rw [List.any_cons, List.any_cons, i3]⟩
    | doc => exact ⟨i1, by rw [List.any_cons, List.any_cons, i2], by rw [List.any_cons, List.any_cons, i3]⟩
    | ent h => exact ⟨.cons h i1, by rw [List.any_cons, List.any_cons, i2]; rfl, by rw [List.any_cons, List.any_cons, i3]; rfl⟩

theorem normB_facts : ∀ (ls : List (Nat × Ln)) (w : Bool),
    (normB w ls).filterMap (·.2.entry) = ls.filterMap (·.2.entry) ∧ (normB w ls).any (·.2.isCom) = ls.any (·.2.isCom) ∧
      (normB w ls).any (·.2.isDoc) = ls.any (·.2.isDoc)
  | [], _ => ⟨rfl, rfl, rfl⟩
  | (n, l) :: ls, w => by
    obtain ⟨i1, i2, i3⟩ := normB_facts ls true
    rw [normB]
    refine ⟨?_, by rw [List.any_cons, List.any_cons, i2], by rw [List.any_cons, List.any_cons, i3]⟩
    rw [List.filterMap_cons, List.filterMap_cons, i1]

theorem bump_facts (n : Nat) (ls : List (Nat × Ln)) :
    (bumpFirst n ls).filterMap (·.2.entry) = ls.filterMap (·.2.entry) ∧ (bumpFirst n ls).any (·.2.isCom) = ls.any (·.2.isCom) ∧
      (bumpFirst n ls).any (·.2.isDoc) = ls.any (·.2.isDoc) := by
  cases ls with
  | nil => exact ⟨rfl, rfl, rfl⟩
  | cons l ls => exact ⟨rfl, rfl, rfl⟩

theorem all2_isEmpty {α β : Type} {R : α → β → Prop} {as : List α} {bs : List β} (h : All2 R as bs) : bs.isEmpty = as.isEmpty := by
  cases h <;> rfl

end Styx.Cst
