import Verif.Cst.Fuel
import Verif.Cst.InkSpec
import Verif.Props.Tokenizer

/-! # The shape of trees that are parsed without error -/

namespace Styx.Cst

open Styx Styx.Spec

theorem ink_append (a b : List Char) : ink (a ++ b) = ink a ++ ink b := by simp [ink]

theorem ink_nil : ink [] = [] := rfl

/-- The ink of tokens. -/
def TokShape (k : SyntaxKind) (t : List Char) : Prop :=
  (k = .WHITESPACE ∨ k = .NEWLINE ∨ k = .COMMA ∨ k = .EOF → ink t = []) ∧
  (k = .L_BRACE → t = ['{']) ∧ (k = .R_BRACE → t = ['}']) ∧ (k = .L_PAREN → t = ['(']) ∧
  (k = .R_PAREN → t = [')']) ∧ (k = .GT → t = ['>']) ∧ (k = .AT → t = ['@']) ∧ (k = .SLASH → t = ['/'])

theorem tokShape (tk : TokenKind) (t : List Char) (h : KindText tk t) :
    TokShape (SyntaxKind.ofToken tk) t := by
  have ws : (∀ c ∈ t, c = ' ' ∨ c = '\t') → ink t = [] := by
    intro h
    simp only [ink, List.filter_eq_nil_iff, Bool.not_eq_true', Bool.not_eq_false]
    intro c hc
    rcases h c hc with rfl | rfl <;> rfl
  cases tk <;> simp only [KindText] at h <;> simp only [TokShape, SyntaxKind.ofToken] <;>
    simp [h, ink_nil]
  · rfl
  · exact ws h.2
  · rcases h with rfl | rfl <;> rfl

/-- Nodes that an atom is parsed to. -/
def AtomKind (k : SyntaxKind) : Prop :=
  k = .SCALAR ∨ k = .UNIT ∨ k = .TAG ∨ k = .HEREDOC ∨ k = .OBJECT ∨ k = .SEQUENCE

/-- Blanks. -/
def IsWs (g : Green) : Prop := ∃ t, g = .token .WHITESPACE t

/-- What is between the braces of an object, or in a document. -/
def Elem : Green → Prop
  | .token k _ => k = .WHITESPACE ∨ k = .NEWLINE ∨ k = .COMMA ∨ k = .LINE_COMMENT ∨ k = .DOC_COMMENT
  | .node k _ => k = .ENTRY

/-- What is between the parentheses of a sequence. -/
def SeqElem : Green → Prop
  | .token k _ => k = .WHITESPACE ∨ k = .NEWLINE ∨ k = .LINE_COMMENT
  | .node k cs => k = .ENTRY ∧ ∃ k' cs', cs = [.node .KEY [.node k' cs']] ∧ AtomKind k'

/-- The children of a node of a kind. -/
def NodeShape : SyntaxKind → List Green → Prop
  | .DOCUMENT, cs => ∀ g ∈ cs, Elem g
  | .OBJECT, cs => ∃ mid, cs = .token .L_BRACE ['{'] :: mid ++ [.token .R_BRACE ['}']] ∧ ∀ g ∈ mid, Elem g
  | .SEQUENCE, cs => ∃ mid, cs = .token .L_PAREN ['('] :: mid ++ [.token .R_PAREN [')']] ∧
      ∀ g ∈ mid, SeqElem g
  | .ENTRY, cs => (∃ a, cs = [.node .ATTRIBUTES a]) ∨
      ∃ key ws vs, cs = key ++ ws ++ vs ∧ (key = [] ∨ ∃ c, key = [.node .KEY c]) ∧
        (∀ g ∈ ws, IsWs g) ∧ ∀ g ∈ vs, IsWs g ∨ ∃ c, g = .node .VALUE c
  | .KEY, cs => ∃ k c, cs = [.node k c] ∧ AtomKind k
  | .VALUE, cs => ∃ k c, cs = [.node k c] ∧ (AtomKind k ∨ k = .ATTRIBUTES)
  | .ATTRIBUTES, cs => ∀ g ∈ cs, IsWs g ∨ ∃ c, g = .node .ATTRIBUTE c
  | .ATTRIBUTE, cs => ∃ t k c, cs = [.token .BARE_SCALAR t, .token .GT ['>'], .node k c] ∧ AtomKind k
  | .SCALAR, cs => ∃ k t, cs = [.token k t] ∧ (k = .BARE_SCALAR ∨ k = .QUOTED_SCALAR ∨ k = .RAW_SCALAR)
  | .TAG, cs => ∃ t, cs = [.token .TAG_TOKEN t] ∨ ∃ c, cs = [.token .TAG_TOKEN t, .node .TAG_PAYLOAD c]
  | .TAG_PAYLOAD, cs => ∃ k c, AtomKind k ∧ (cs = [.node k c] ∨ cs = [.token .SLASH ['/'], .node k c])
  | .UNIT, cs => cs = [.token .AT ['@']]
  | .HEREDOC, _ => True
  | _, _ => False

mutual
/-- The shape of a tree. -/
def Shaped : Green → Prop
  | .token k t => TokShape k t
  | .node k cs => NodeShape k cs ∧ ShapedL cs
/-- The shape of all the elements of a list. -/
def ShapedL : List Green → Prop
  | [] => True
  | g :: gs => Shaped g ∧ ShapedL gs
end

theorem shapedL_iff (cs : List Green) : ShapedL cs ↔ ∀ g ∈ cs, Shaped g := by
  induction cs with
  | nil => simp [ShapedL]
  | cons g gs ih => simp [ShapedL, ih]

/-- The texts of tokens are as their kinds require. -/
def TextsOk (ts : List Token) : Prop := ∀ t ∈ ts, KindText t.kind t.text

/-! ## Errors stay -/

/-- If there is no error afterwards there was none before. -/
def Clean (st st' : St) : Prop := st'.errors = [] → st.errors = []

theorem Clean.trans {a b c : St} (h : Clean a b) (h' : Clean b c) : Clean a c := fun hc => h (h' hc)

theorem clean_err (st : St) (m : Msg) {st' : St} (h : Clean (st.err m) st') : st'.errors ≠ [] := by
  intro h'
  have := h h'
  simp [St.err] at this

theorem clean_bump (st : St) : Clean st st.bump.2 := by
  obtain ⟨ts, e⟩ := st
  cases ts <;> exact id

theorem clean_refl (st : St) : Clean st st := id

theorem clean_ofErr {st : St} {m : Msg} {st' : St} (h : Clean (st.err m) st') : Clean st st' :=
  fun h' => absurd h' (clean_err st m h)

/-- No function forgets errors. -/
def AllClean (source : List Char) (n : Nat) : Prop :=
  (∀ c st r, parseEntries source n c st = some r → Clean st r.2) ∧
  (∀ c st r, parseEntry source n c st = some r → Clean st r.2) ∧
  (∀ c k st r, parseValues source n c k st = some r → Clean st r.2) ∧
  (∀ c st r, parseAttributes source n c st = some r → Clean st r.2) ∧
  (∀ st r, parseAttribute source n st = some r → Clean st r.2) ∧
  (∀ st r, parseAtom source n st = some r → Clean st r.2) ∧
  (∀ st r, parseItems source n st = some r → Clean st r.2)

theorem clean_ifBump (st : St) (c : Prop) [Decidable c] : Clean st (if c then st.bump else ([], st)).2 := by
  split
  · exact clean_bump st
  · exact id

theorem clean_ifErr (st : St) (c : Prop) [Decidable c] (m : Msg) :
    Clean st (if c then st.bump else ([], st.err m)).2 := by
  split
  · exact clean_bump st
  · exact clean_ofErr (clean_refl _)

theorem clean_ifSkip (st : St) (c : Prop) [Decidable c] (m : Msg) :
    Clean st (if c then (st.err m).skipWs else ([], st)).2 := by
  split
  · exact clean_ofErr (m := m) (fun h => h)
  · exact id

theorem clean_heredoc (st : St) : Clean st st.heredoc.2 := by
  simp only [St.heredoc]
  exact ((clean_bump st).trans (clean_ifBump st.bump.2 _)).trans (clean_ifErr _ _ _)

theorem allClean (source : List Char) : ∀ n, AllClean source n := by
  intro n
  induction n with
  | zero =>
    refine ⟨?_, ?_, ?_, ?_, ?_, ?_, ?_⟩ <;> intros <;>
      simp_all [parseEntries, parseEntry, parseValues, parseAttributes, parseAttribute, parseAtom,
        parseItems]
  | succ n ih =>
    obtain ⟨iEntries, iEntry, iValues, iAttrs, iAttr, iAtom, iItems⟩ := ih
    refine ⟨?_, ?_, ?_, ?_, ?_, ?_, ?_⟩
    · intro c st r h
      rw [parseEntries] at h
      simp only [Option.bind_eq_bind] at h
      split at h
      · cases h
        exact id
      · simp only [Option.bind_eq_some_iff, Prod.exists, Option.some.injEq] at h
        obtain ⟨g3, st3, h3, g6, st6, h6, rfl⟩ := h
        have e1 := iEntry _ _ _ h3
        have e2 := iEntries _ _ _ h6
        intro h
        exact e1 (clean_ifBump st3.skipWs.2 _ (e2 h))
    · intro c st r h
      rw [parseEntry] at h
      simp only [Option.bind_eq_bind] at h
      split at h
      · simp only [Option.bind_eq_some_iff, Prod.exists, Option.some.injEq] at h
        obtain ⟨g, st1, h1, rfl⟩ := h
        exact iAttrs _ _ _ h1
      · simp only [Option.bind_eq_some_iff, Prod.exists, Option.some.injEq] at h
        obtain ⟨g1, st1, h1, g3, st3, h3, rfl⟩ := h
        have e1 : Clean st st1 := by
          split at h1
          · cases h1; exact id
          · simp only [Option.bind_eq_some_iff, Prod.exists, Option.some.injEq, Prod.mk.injEq] at h1
            obtain ⟨g, st', h1, rfl, rfl⟩ := h1
            exact iAtom _ _ h1
        have e2 := iValues _ _ _ _ h3
        intro h
        exact e1 (e2 h)
    · intro c k st r h
      rw [parseValues] at h
      simp only [Option.bind_eq_bind] at h
      split at h
      · cases h; exact id
      · simp only [Option.bind_eq_some_iff, Prod.exists, Option.some.injEq] at h
        obtain ⟨g1, st1, h1, g3, st3, h3, rfl⟩ := h
        have e1 : Clean st st1 := by
          split at h1
          · simp only [Option.bind_eq_some_iff, Prod.exists, Option.some.injEq, Prod.mk.injEq] at h1
            obtain ⟨g, st', h1, rfl, rfl⟩ := h1
            exact iAttrs _ _ _ h1
          · simp only [Option.bind_eq_some_iff, Prod.exists, Option.some.injEq, Prod.mk.injEq] at h1
            obtain ⟨g, st', h1, rfl, rfl⟩ := h1
            have := iAtom _ _ h1
            split at this
            · exact clean_ofErr this
            · exact this
        have e2 := iValues _ _ _ _ h3
        intro h
        exact e1 (e2 h)
    · intro c st r h
      rw [parseAttributes] at h
      simp only [Option.bind_eq_bind] at h
      split at h
      · simp only [Option.bind_eq_some_iff, Prod.exists] at h
        obtain ⟨g1, st1, h1, h⟩ := h
        have e1 := iAttr _ _ h1
        split at h
        · cases h; exact e1
        · simp only [Option.bind_eq_some_iff, Prod.exists, Option.some.injEq] at h
          obtain ⟨g3, st3, h3, rfl⟩ := h
          have e2 := iAttrs _ _ _ h3
          intro h
          exact e1 (e2 h)
      · cases h; exact id
    · intro st r h
      rw [parseAttribute] at h
      simp only [Option.bind_eq_bind, Option.bind_eq_some_iff, Prod.exists, Option.some.injEq] at h
      obtain ⟨g4, st4, h4, rfl⟩ := h
      have e1 := iAtom _ _ h4
      refine Clean.trans ?_ e1
      have e2 := (clean_bump st).trans (clean_ifErr st.bump.2 (st.bump.2.peek = .gt) .expectedGt)
      exact e2.trans (clean_ifSkip _ _ _)
    · intro st r h
      rw [parseAtom.eq_def] at h
      simp only [Option.bind_eq_bind] at h
      split at h
      · simp only [Option.bind_eq_some_iff, Prod.exists, Option.some.injEq] at h
        obtain ⟨g2, st2, h2, rfl⟩ := h
        have e1 := (clean_bump st).trans (iEntries _ _ _ h2)
        refine e1.trans ?_
        intro h
        exact clean_ifErr st2.skipTrivia.2 _ _ h
      · simp only [Option.bind_eq_some_iff, Prod.exists, Option.some.injEq] at h
        obtain ⟨g2, st2, h2, rfl⟩ := h
        exact ((clean_bump st).trans (iItems _ _ h2)).trans (clean_ifBump _ _)
      · cases h
        exact clean_bump st
      · rename_i hk
        obtain ⟨ts, e⟩ := st
        cases ts with
        | nil => simp [St.peek] at hk
        | cons t ts =>
          simp only [Option.bind_eq_some_iff, Prod.exists, Option.some.injEq] at h
          obtain ⟨g, st1, h1, rfl⟩ := h
          split at h1
          · simp only [Option.bind_eq_some_iff, Prod.exists, Option.some.injEq, Prod.mk.injEq] at h1
            obtain ⟨g', st', h1, rfl, rfl⟩ := h1
            have e1 := iAtom _ _ h1
            exact fun h => e1 h
          · cases h1
            exact id
      · cases h; exact clean_bump st
      · cases h; exact clean_bump st
      · cases h; exact clean_bump st
      · cases h; exact clean_heredoc st
      · cases h
        exact clean_ofErr (clean_bump _)
    · intro st r h
      rw [parseItems] at h
      simp only [Option.bind_eq_bind] at h
      split at h
      · cases h
        intro h
        simp [St.err] at h
      · split at h
        · cases h
          exact id
        · simp only [Option.bind_eq_some_iff, Prod.exists, Option.some.injEq] at h
          obtain ⟨g2, st2, h2, g4, st4, h4, rfl⟩ := h
          have e1 := iAtom _ _ h2
          have e2 := iItems _ _ h4
          intro h
          exact e1 (e2 h)

/-! ## Shapes -/

theorem textsOk_eats {st st' : St} {g : List Green} (h : TextsOk st.toks) (he : Eats st g st') :
    TextsOk st'.toks := by
  obtain ⟨pre, hp, -⟩ := he
  intro t ht
  exact h t (by rw [hp]; simp [ht])

theorem bumpWhile_shape (p : TokenKind → Bool) (ts : List Token) (h : TextsOk ts) :
    ∀ g ∈ (bumpWhile p ts).1, ∃ k t, p k = true ∧ g = .token (SyntaxKind.ofToken k) t ∧ KindText k t := by
  induction ts with
  | nil => simp [bumpWhile]
  | cons t ts ih =>
    rw [bumpWhile]
    split
    · rename_i hp
      simp only [List.mem_cons, forall_eq_or_imp]
      exact ⟨⟨_, _, hp, rfl, h t (by simp)⟩, ih (fun t' ht' => h t' (by simp [ht']))⟩
    · simp

theorem bumpDocs_shape (ts : List Token) : ∀ (a : Bool), TextsOk ts → ∀ g ∈ (bumpDocs a ts).1, Elem g ∧ Shaped g := by
  induction ts with
  | nil => simp [bumpDocs]
  | cons t ts ih =>
    intro a h
    rw [bumpDocs]
    split
    · rename_i hp
      simp only [List.mem_cons, forall_eq_or_imp]
      refine ⟨⟨?_, tokShape _ _ (h t (by simp))⟩, ih true (fun t' ht' => h t' (by simp [ht']))⟩
      rcases hp with hp | ⟨-, hp | hp⟩ <;> simp [Elem, hp, SyntaxKind.ofToken]
    · simp

theorem skipWs_shape (st : St) (h : TextsOk st.toks) : ∀ g ∈ st.skipWs.1, IsWs g ∧ Shaped g := by
  intro g hg
  obtain ⟨k, t, hk, rfl, ht⟩ := bumpWhile_shape _ _ h g hg
  have : k = .whitespace := by simpa using hk
  subst this
  exact ⟨⟨t, rfl⟩, tokShape _ _ ht⟩

theorem skipTrivia_shape (st : St) (h : TextsOk st.toks) :
    ∀ g ∈ st.skipTrivia.1, Elem g ∧ SeqElem g ∧ Shaped g := by
  intro g hg
  obtain ⟨k, t, hk, rfl, ht⟩ := bumpWhile_shape _ _ h g hg
  refine ⟨?_, ?_, tokShape _ _ ht⟩ <;> cases k <;> simp_all [isTrivia, Elem, SeqElem, SyntaxKind.ofToken]

theorem bump_shape {st : St} {k : TokenKind} (hk : st.peek = k) (hne : k ≠ .eof) (h : TextsOk st.toks) :
    ∃ t, st.bump.1 = [.token (SyntaxKind.ofToken k) t] ∧ KindText k t := by
  obtain ⟨ts, e⟩ := st
  cases ts with
  | nil => simp [St.peek] at hk; exact absurd hk.symm hne
  | cons t ts =>
    have : t.kind = k := by simpa [St.peek] using hk
    subst this
    exact ⟨t.text, rfl, h t (by simp)⟩

theorem tagTree_shape (segs : List (List Char)) : ∀ payload : List Green, segs ≠ [] →
    (payload = [] ∨ ∃ c, payload = [.node .TAG_PAYLOAD c] ∧ Shaped (.node .TAG_PAYLOAD c)) →
    ∃ cs, tagTree segs payload = .node .TAG cs ∧ Shaped (.node .TAG cs) := by
  have tok : ∀ t, TokShape .TAG_TOKEN t := by intro t; simp [TokShape]
  induction segs with
  | nil => simp
  | cons seg segs ih =>
    intro payload _ hp
    cases segs with
    | nil =>
      refine ⟨_, rfl, ?_⟩
      rcases hp with rfl | ⟨c, rfl, hc⟩
      · simp [Shaped, ShapedL, NodeShape, tok]
      · simp only [Shaped, ShapedL, NodeShape, tok, and_true, true_and]
        exact ⟨⟨_, .inr ⟨_, rfl⟩⟩, by simpa [Shaped, NodeShape] using hc⟩
    | cons seg' segs =>
      obtain ⟨cs, h1, h2⟩ := ih payload (by simp) hp
      refine ⟨_, rfl, ?_⟩
      rw [h1]
      simp only [Shaped, ShapedL, NodeShape, tok, and_true, true_and]
      refine ⟨⟨_, .inr ⟨_, rfl⟩⟩, ⟨_, _, .inr (.inr (.inl rfl)), .inr rfl⟩, ?_, by simpa [Shaped, NodeShape] using h2⟩
      simp [TokShape]

theorem splitSlashAt_ne : ∀ s : List Char, splitSlashAt s ≠ []
  | [] => by simp [splitSlashAt]
  | [c] => by simp [splitSlashAt]
  | c :: d :: cs => by
    rw [splitSlashAt]
    split
    · simp
    · split <;> simp

/-- The shapes of what the functions return when there is no error. -/
def AllShape (source : List Char) (n : Nat) : Prop :=
  (∀ c st r, parseEntries source n c st = some r → TextsOk st.toks → r.2.errors = [] →
    ∀ g ∈ r.1, Elem g ∧ Shaped g) ∧
  (∀ c st r, parseEntry source n c st = some r → TextsOk st.toks → r.2.errors = [] →
    ∃ cs, r.1 = .node .ENTRY cs ∧ Shaped r.1) ∧
  (∀ c k st r, parseValues source n c k st = some r → TextsOk st.toks → r.2.errors = [] →
    ∀ g ∈ r.1, (IsWs g ∨ ∃ c, g = .node .VALUE c) ∧ Shaped g) ∧
  (∀ c st r, parseAttributes source n c st = some r → TextsOk st.toks → r.2.errors = [] →
    ∀ g ∈ r.1, (IsWs g ∨ ∃ c, g = .node .ATTRIBUTE c) ∧ Shaped g) ∧
  (∀ st r, parseAttribute source n st = some r → st.peek = .bareScalar → TextsOk st.toks → r.2.errors = [] →
    ∃ cs, r.1 = .node .ATTRIBUTE cs ∧ Shaped r.1) ∧
  (∀ st r, parseAtom source n st = some r → TextsOk st.toks → r.2.errors = [] →
    ∃ k cs, r.1 = [.node k cs] ∧ AtomKind k ∧ Shaped (.node k cs)) ∧
  (∀ st r, parseItems source n st = some r → TextsOk st.toks → r.2.errors = [] →
    (∀ g ∈ r.1, SeqElem g ∧ Shaped g) ∧ r.2.peek = .rparen)

theorem allShape (source : List Char) : ∀ n, AllShape source n := by
  intro n
  induction n with
  | zero =>
    refine ⟨?_, ?_, ?_, ?_, ?_, ?_, ?_⟩ <;> intros <;>
      simp_all [parseEntries, parseEntry, parseValues, parseAttributes, parseAttribute, parseAtom,
        parseItems]
  | succ n ih =>
    obtain ⟨iEntries, iEntry, iValues, iAttrs, iAttr, iAtom, iItems⟩ := ih
    obtain ⟨eEntries, eEntry, eValues, eAttrs, eAttr, eAtom, eItems⟩ := allEat source n
    obtain ⟨cEntries, cEntry, cValues, cAttrs, cAttr, cAtom, cItems⟩ := allClean source n
    refine ⟨?_, ?_, ?_, ?_, ?_, ?_, ?_⟩
    · intro c st r h ht he
      rw [parseEntries] at h
      simp only [Option.bind_eq_bind] at h
      have t1 := textsOk_eats ht (skipTrivia_eats st)
      have s1 := skipTrivia_shape st ht
      have s2 := bumpDocs_shape st.skipTrivia.2.toks false t1
      have t2 := textsOk_eats t1 (bumpDocs_eats st.skipTrivia.2.toks false st.skipTrivia.2.errors st.skipTrivia.2.errors)
      split at h
      · cases h
        intro g hg
        rcases List.mem_append.1 hg with hg | hg
        · exact ⟨(s1 g hg).1, (s1 g hg).2.2⟩
        · exact s2 g hg
      · simp only [Option.bind_eq_some_iff, Prod.exists, Option.some.injEq] at h
        obtain ⟨g3, st3, h3, g6, st6, h6, rfl⟩ := h
        have c6 := cEntries _ _ _ h6 he
        have c3 : st3.errors = [] := clean_ifBump st3.skipWs.2 _ c6
        have t3 := textsOk_eats t2 (eEntry _ _ _ h3)
        obtain ⟨cs, s3, s3'⟩ := iEntry _ _ _ h3 t2 c3
        have t4 := textsOk_eats t3 (skipWs_eats _)
        have s4 := skipWs_shape _ t3
        have t5 := textsOk_eats t4 (bumpIf_eats st3.skipWs.2 st3.skipWs.2 (st3.skipWs.2.peek = .comma ∨ st3.skipWs.2.peek = .newline)
          (by intro h; rcases h with h | h <;> simp [h]) rfl)
        have s6 := iEntries _ _ _ h6 t5 he
        have s5 : ∀ g ∈ (if st3.skipWs.2.peek = .comma ∨ st3.skipWs.2.peek = .newline then st3.skipWs.2.bump
            else ([], st3.skipWs.2)).1, Elem g ∧ Shaped g := by
          split
          · rename_i h5
            rcases h5 with h5 | h5 <;> obtain ⟨t, hb, hk⟩ := bump_shape h5 (by decide) t4 <;>
            · rw [hb]
              intro g hg
              rw [List.mem_singleton] at hg
              subst hg
              exact ⟨by simp [Elem, SyntaxKind.ofToken], tokShape _ _ hk⟩
          · simp
        intro g hg
        simp only [List.mem_append, List.mem_singleton] at hg
        rcases hg with ((((hg | hg) | rfl) | hg) | hg) | hg
        · exact ⟨(s1 g hg).1, (s1 g hg).2.2⟩
        · exact s2 g hg
        · simp only at s3 s3'
          subst s3
          exact ⟨rfl, s3'⟩
        · obtain ⟨⟨t, rfl⟩, hs⟩ := s4 g hg
          exact ⟨.inl rfl, hs⟩
        · exact s5 g hg
        · exact s6 g hg
    · intro c st r h ht he
      rw [parseEntry] at h
      simp only [Option.bind_eq_bind] at h
      split at h
      · simp only [Option.bind_eq_some_iff, Prod.exists, Option.some.injEq] at h
        obtain ⟨g, st1, h1, rfl⟩ := h
        have s1 := iAttrs _ _ _ h1 ht he
        refine ⟨_, rfl, ?_⟩
        simp only [Shaped, ShapedL, NodeShape, and_true]
        exact ⟨.inl ⟨_, rfl⟩, fun g hg => (s1 g hg).1, (shapedL_iff _).2 fun g hg => (s1 g hg).2⟩
      · simp only [Option.bind_eq_some_iff, Prod.exists, Option.some.injEq] at h
        obtain ⟨g1, st1, h1, g3, st3, h3, rfl⟩ := h
        have c3 : st1.errors = [] := by
          have := cValues _ _ _ _ h3
          exact this he
        have e1 : Eats st g1 st1 ∧ (g1 = [] ∨ ∃ c, g1 = [.node .KEY c]) ∧ ShapedL g1 := by
          split at h1
          · cases h1; exact ⟨Eats.refl rfl, .inl rfl, trivial⟩
          · simp only [Option.bind_eq_some_iff, Prod.exists, Option.some.injEq, Prod.mk.injEq] at h1
            obtain ⟨g, st', h1, rfl, rfl⟩ := h1
            refine ⟨(eAtom _ _ h1).node .KEY, .inr ⟨_, rfl⟩, ?_⟩
            obtain ⟨k, cs, rfl, hk, hs⟩ := iAtom _ _ h1 ht c3
            simp only [Shaped] at hs
            simp only [Shaped, ShapedL, and_true]
            exact ⟨⟨_, _, rfl, hk⟩, hs⟩
        have t1 := textsOk_eats ht e1.1
        have t2 := textsOk_eats t1 (skipWs_eats st1)
        have s2 := skipWs_shape st1 t1
        have s3 := iValues _ _ _ _ h3 t2 he
        refine ⟨_, rfl, ?_⟩
        simp only [Shaped, NodeShape]
        refine ⟨.inr ⟨_, _, _, rfl, e1.2.1, fun g hg => (s2 g hg).1, fun g hg => (s3 g hg).1⟩, ?_⟩
        rw [shapedL_iff]
        intro g hg
        simp only [List.mem_append] at hg
        rcases hg with (hg | hg) | hg
        · exact (shapedL_iff _).1 e1.2.2 g hg
        · exact (s2 g hg).2
        · exact (s3 g hg).2
    · intro c k st r h ht he
      rw [parseValues] at h
      simp only [Option.bind_eq_bind] at h
      split at h
      · cases h; simp
      · simp only [Option.bind_eq_some_iff, Prod.exists, Option.some.injEq] at h
        obtain ⟨g1, st1, h1, g3, st3, h3, rfl⟩ := h
        have c3 : st1.errors = [] := by
          have := cValues _ _ _ _ h3
          exact this he
        have e1 : Eats st g1 st1 ∧ ∃ c, g1 = [.node .VALUE c] ∧ Shaped (.node .VALUE c) := by
          split at h1
          · simp only [Option.bind_eq_some_iff, Prod.exists, Option.some.injEq, Prod.mk.injEq] at h1
            obtain ⟨g, st', h1, rfl, rfl⟩ := h1
            have s1 := iAttrs _ _ _ h1 ht c3
            refine ⟨((eAttrs _ _ _ h1).node .ATTRIBUTES).node .VALUE, _, rfl, ?_⟩
            simp only [Shaped, ShapedL, and_true]
            exact ⟨⟨_, _, rfl, .inr rfl⟩, fun g hg => (s1 g hg).1, (shapedL_iff _).2 fun g hg => (s1 g hg).2⟩
          · simp only [Option.bind_eq_some_iff, Prod.exists, Option.some.injEq, Prod.mk.injEq] at h1
            obtain ⟨g, st', h1, rfl, rfl⟩ := h1
            have hts : ∀ c : Bool, (if c then st.err .tooManyAtoms else st).toks = st.toks := by
              intro c; cases c <;> rfl
            refine ⟨((eAtom _ _ h1).congr (by split <;> rfl) rfl).node .VALUE, _, rfl, ?_⟩
            obtain ⟨k, cs, rfl, hk, hs⟩ := iAtom _ _ h1 (by split <;> exact ht) c3
            simp only [Shaped] at hs
            simp only [Shaped, ShapedL, and_true]
            exact ⟨⟨_, _, rfl, .inl hk⟩, hs⟩
        obtain ⟨e1, c', rfl, s1⟩ := e1
        have t1 := textsOk_eats ht e1
        have t2 := textsOk_eats t1 (skipWs_eats st1)
        have s2 := skipWs_shape st1 t1
        have s3 := iValues _ _ _ _ h3 t2 he
        intro g hg
        simp only [List.mem_append, List.mem_singleton] at hg
        rcases hg with (rfl | hg) | hg
        · exact ⟨.inr ⟨_, rfl⟩, s1⟩
        · exact ⟨.inl (s2 g hg).1, (s2 g hg).2⟩
        · exact s3 g hg
    · intro c st r h ht he
      rw [parseAttributes] at h
      simp only [Option.bind_eq_bind] at h
      split at h
      · rename_i hat
        have hp := atAttribute_peek hat
        simp only [Option.bind_eq_some_iff, Prod.exists] at h
        obtain ⟨g1, st1, h1, h⟩ := h
        have t1 := textsOk_eats ht (eAttr _ _ (by simp [hp]) h1)
        have t2 := textsOk_eats t1 (skipWs_eats st1)
        have s2 := skipWs_shape st1 t1
        split at h
        · cases h
          obtain ⟨cs, s1, s1'⟩ := iAttr _ _ h1 hp ht he
          intro g hg
          rcases List.mem_cons.1 hg with rfl | hg
          · exact ⟨.inr ⟨cs, s1⟩, s1'⟩
          · exact ⟨.inl (s2 g hg).1, (s2 g hg).2⟩
        · simp only [Option.bind_eq_some_iff, Prod.exists, Option.some.injEq] at h
          obtain ⟨g3, st3, h3, rfl⟩ := h
          have c3 : st1.errors = [] := by
            have := cAttrs _ _ _ h3
            exact this he
          obtain ⟨cs, s1, s1'⟩ := iAttr _ _ h1 hp ht c3
          have s3 := iAttrs _ _ _ h3 t2 he
          intro g hg
          simp only [List.cons_append, List.mem_cons, List.mem_append] at hg
          rcases hg with rfl | hg | hg
          · exact ⟨.inr ⟨cs, s1⟩, s1'⟩
          · exact ⟨.inl (s2 g hg).1, (s2 g hg).2⟩
          · exact s3 g hg
      · cases h; simp
    · intro st r h hp ht he
      rw [parseAttribute] at h
      simp only [Option.bind_eq_bind, Option.bind_eq_some_iff, Prod.exists, Option.some.injEq] at h
      obtain ⟨g4, st4, h4, rfl⟩ := h
      have c4 := cAtom _ _ h4 he
      have t1 := textsOk_eats ht (bump_eats st (by simp [hp]))
      obtain ⟨x, hb, hx⟩ := bump_shape hp (by decide) ht
      by_cases hgt : st.bump.2.peek = .gt
      · simp only [hgt, if_true] at h4 c4 ⊢
        obtain ⟨y, hb', hy⟩ := bump_shape hgt (by decide) t1
        have t2 := textsOk_eats t1 (bump_eats _ (by simp [hgt]))
        by_cases hws : st.bump.2.bump.2.peek = .whitespace ∨ st.bump.2.bump.2.peek = .newline
        · rw [if_pos hws] at c4
          exact absurd c4 (by simp [St.skipWs, St.bumpWhile, St.err])
        · rw [if_neg hws] at h4 ⊢
          obtain ⟨k, cs, rfl, hk, hs⟩ := iAtom _ _ h4 t2 he
          refine ⟨_, rfl, ?_⟩
          rw [hb, hb']
          have hy' : y = ['>'] := hy
          subst hy'
          simp only [Shaped, NodeShape, SyntaxKind.ofToken]
          refine ⟨⟨x, k, cs, rfl, hk⟩, ?_⟩
          simp only [List.append_nil, List.cons_append, List.nil_append, ShapedL]
          exact ⟨tokShape _ _ hx, tokShape _ _ hy, hs, trivial⟩
      · simp only [hgt, if_false] at c4
        have := clean_ifSkip (st.bump.2.err .expectedGt) _ _ c4
        simp [St.err] at this
    · intro st r h ht he
      rw [parseAtom.eq_def] at h
      simp only [Option.bind_eq_bind] at h
      split at h
      · rename_i hk
        simp only [Option.bind_eq_some_iff, Prod.exists, Option.some.injEq] at h
        obtain ⟨g2, st2, h2, rfl⟩ := h
        obtain ⟨x, hb, hx⟩ := bump_shape hk (by decide) ht
        have t1 := textsOk_eats ht (bump_eats st (by simp [hk]))
        have t2 := textsOk_eats t1 (eEntries _ _ _ h2)
        have s3 := skipTrivia_shape st2 t2
        have t3 := textsOk_eats t2 (skipTrivia_eats st2)
        by_cases hr : st2.skipTrivia.2.peek = .rbrace
        · simp only [hr, if_true] at he ⊢
          obtain ⟨y, hb', hy⟩ := bump_shape hr (by decide) t3
          have c2 : st2.errors = [] := clean_bump st2.skipTrivia.2 he
          have s2 := iEntries _ _ _ h2 t1 c2
          refine ⟨_, _, rfl, by simp [AtomKind], ?_⟩
          have hx' : x = ['{'] := hx
          have hy' : y = ['}'] := hy
          subst hx' hy'
          rw [hb, hb']
          simp only [Shaped, NodeShape, SyntaxKind.ofToken]
          refine ⟨⟨g2 ++ st2.skipTrivia.1, by simp, ?_⟩, ?_⟩
          · intro g hg
            rcases List.mem_append.1 hg with hg | hg
            · exact (s2 g hg).1
            · exact (s3 g hg).1
          · rw [shapedL_iff]
            intro g hg
            simp only [List.mem_append, List.mem_singleton] at hg
            rcases hg with ((rfl | hg) | hg) | rfl
            · exact tokShape _ _ hx
            · exact (s2 g hg).2
            · exact (s3 g hg).2.2
            · exact tokShape _ _ hy
        · simp only [hr, if_false] at he
          simp [St.err] at he
      · rename_i hk
        simp only [Option.bind_eq_some_iff, Prod.exists, Option.some.injEq] at h
        obtain ⟨g2, st2, h2, rfl⟩ := h
        obtain ⟨x, hb, hx⟩ := bump_shape hk (by decide) ht
        have t1 := textsOk_eats ht (bump_eats st (by simp [hk]))
        have t2 := textsOk_eats t1 (eItems _ _ h2)
        have c2 : st2.errors = [] := clean_ifBump st2 _ he
        obtain ⟨s2, hr⟩ := iItems _ _ h2 t1 c2
        simp only at hr
        simp only [hr, if_true] at he ⊢
        obtain ⟨y, hb', hy⟩ := bump_shape hr (by decide) t2
        refine ⟨_, _, rfl, by simp [AtomKind], ?_⟩
        have hx' : x = ['('] := hx
        have hy' : y = [')'] := hy
        subst hx' hy'
        rw [hb, hb']
        simp only [Shaped, NodeShape, SyntaxKind.ofToken]
        refine ⟨⟨g2, by simp, fun g hg => (s2 g hg).1⟩, ?_⟩
        rw [shapedL_iff]
        intro g hg
        simp only [List.mem_append, List.mem_singleton] at hg
        rcases hg with (rfl | hg) | rfl
        · exact tokShape _ _ hx
        · exact (s2 g hg).2
        · exact tokShape _ _ hy
      · rename_i hk
        cases h
        obtain ⟨x, hb, hx⟩ := bump_shape hk (by decide) ht
        have hx' : x = ['@'] := hx
        subst hx'
        refine ⟨_, _, rfl, by simp [AtomKind], ?_⟩
        rw [hb]
        simp only [Shaped, ShapedL, NodeShape, SyntaxKind.ofToken, and_true, true_and]
        exact tokShape _ _ hx
      · rename_i hk
        obtain ⟨ts, e⟩ := st
        cases ts with
        | nil => simp [St.peek] at hk
        | cons t ts =>
          simp only [Option.bind_eq_some_iff, Prod.exists, Option.some.injEq] at h
          obtain ⟨g, st1, h1, rfl⟩ := h
          have hp : g = [] ∨ ∃ c, g = [.node .TAG_PAYLOAD c] ∧ Shaped (.node .TAG_PAYLOAD c) := by
            split at h1
            · simp only [Option.bind_eq_some_iff, Prod.exists, Option.some.injEq, Prod.mk.injEq] at h1
              obtain ⟨g', st', h1, rfl, rfl⟩ := h1
              obtain ⟨k, cs, rfl, hk, hs⟩ := iAtom _ _ h1 (fun t' ht' => ht t' (List.mem_cons_of_mem _ ht')) he
              refine .inr ⟨_, rfl, ?_⟩
              simp only [Shaped] at hs
              simp only [Shaped, ShapedL, and_true]
              exact ⟨⟨_, _, hk, .inl rfl⟩, hs⟩
            · cases h1
              exact .inl rfl
          obtain ⟨cs, h3, h4⟩ := tagTree_shape _ g (splitSlashAt_ne t.text) hp
          exact ⟨.TAG, cs, by simp [h3], by simp [AtomKind], h4⟩
      · rename_i hk
        cases h
        obtain ⟨x, hb, hx⟩ := bump_shape hk (by decide) ht
        refine ⟨_, _, rfl, by simp [AtomKind], ?_⟩
        rw [hb]
        simp only [Shaped, ShapedL, NodeShape, SyntaxKind.ofToken, and_true]
        exact ⟨⟨_, _, rfl, by simp⟩, tokShape _ _ hx⟩
      · rename_i hk
        cases h
        obtain ⟨x, hb, hx⟩ := bump_shape hk (by decide) ht
        refine ⟨_, _, rfl, by simp [AtomKind], ?_⟩
        rw [hb]
        simp only [Shaped, ShapedL, NodeShape, SyntaxKind.ofToken, and_true]
        exact ⟨⟨_, _, rfl, by simp⟩, tokShape _ _ hx⟩
      · rename_i hk
        cases h
        obtain ⟨x, hb, hx⟩ := bump_shape hk (by decide) ht
        refine ⟨_, _, rfl, by simp [AtomKind], ?_⟩
        rw [hb]
        simp only [Shaped, ShapedL, NodeShape, SyntaxKind.ofToken, and_true]
        exact ⟨⟨_, _, rfl, by simp⟩, tokShape _ _ hx⟩
      · rename_i hk
        cases h
        refine ⟨.HEREDOC, _, rfl, by simp [AtomKind], ?_⟩
        simp only [Shaped, NodeShape, true_and]
        rw [shapedL_iff]
        intro g hg
        obtain ⟨x, hb, hx⟩ := bump_shape hk (by decide) ht
        have t1 := textsOk_eats ht (bump_eats st (by simp [hk]))
        have hif : ∀ (st st' : St) (k : TokenKind), k ≠ .eof → TextsOk st.toks →
            ∀ g ∈ (if st.peek = k then st.bump else ([], st')).1, Shaped g := by
          intro st st' k hk ht g hg
          split at hg
          · rename_i h
            obtain ⟨x, hb, hx⟩ := bump_shape h hk ht
            rw [hb] at hg
            rw [List.mem_singleton] at hg
            subst hg
            exact tokShape _ _ hx
          · simp at hg
        have t2 := textsOk_eats t1 (bumpIf_eats st.bump.2 st.bump.2 (st.bump.2.peek = .heredocContent)
          (by intro h; simp [h]) rfl)
        simp only [List.mem_append] at hg
        rcases hg with (hg | hg) | hg
        · have hg : g ∈ st.bump.1 := hg
          rw [hb] at hg
          rw [List.mem_singleton] at hg
          subst hg
          exact tokShape _ _ hx
        · exact hif _ _ _ (by decide) t1 g hg
        · exact hif _ _ _ (by decide) t2 g hg
      · cases h
        have := clean_bump _ he
        simp [St.err] at this
    · intro st r h ht he
      rw [parseItems] at h
      simp only [Option.bind_eq_bind] at h
      have s1 := skipTrivia_shape st ht
      have t1 := textsOk_eats ht (skipTrivia_eats st)
      split at h
      · cases h
        simp [St.err] at he
      · split at h
        · rename_i hr
          cases h
          exact ⟨fun g hg => (s1 g hg).2, hr⟩
        · simp only [Option.bind_eq_some_iff, Prod.exists, Option.some.injEq] at h
          obtain ⟨g2, st2, h2, g4, st4, h4, rfl⟩ := h
          have c2 : st2.errors = [] := by
            have := cItems _ _ h4
            exact this he
          obtain ⟨k, cs, rfl, hk, hs⟩ := iAtom _ _ h2 t1 c2
          have t2 := textsOk_eats t1 (eAtom _ _ h2)
          have s3 := skipWs_shape st2 t2
          have t3 := textsOk_eats t2 (skipWs_eats st2)
          obtain ⟨s4, hr⟩ := iItems _ _ h4 t3 he
          refine ⟨?_, hr⟩
          intro g hg
          simp only [List.mem_append, List.mem_singleton] at hg
          rcases hg with ((hg | rfl) | hg) | hg
          · exact (s1 g hg).2
          · refine ⟨⟨rfl, _, _, rfl, hk⟩, ?_⟩
            simp only [Shaped] at hs
            simp only [Shaped, ShapedL, and_true, NodeShape]
            exact ⟨.inr ⟨_, [], [], rfl, .inr ⟨_, rfl⟩, by simp, by simp⟩, ⟨_, _, rfl, hk⟩, hs⟩
          · obtain ⟨⟨t, rfl⟩, h⟩ := s3 g hg
            exact ⟨.inl rfl, h⟩
          · exact s4 g hg

/-- The tree of a source without errors. -/
theorem parse_shaped (s : List Char) (h : (parse s).errors = []) : Shaped (parse s).green := by
  obtain ⟨g, st, h1, h2, -, -⟩ := parse_spec s
  rw [h2] at h ⊢
  have ht : TextsOk (tokenIter s) := by
    intro t ht
    rcases List.mem_append.1 ht with ht | ht
    · exact Styx.Props.C04_kind_text s t ht
    · rw [List.mem_singleton] at ht
      subst ht
      rfl
  have := (allShape s _).1 _ _ _ h1 ht h
  simp only [Shaped, NodeShape]
  exact ⟨fun g hg => (this g hg).1, (shapedL_iff _).2 fun g hg => (this g hg).2⟩

end Styx.Cst
