import Verif.Cst.Toks
import Verif.Cst.Ast

/-! # Two facts about trees that are parsed without error

After a doc comment comes another one or an entry, and an object with a line comment has a line break. -/

namespace Styx.Cst

open Styx Styx.Spec

/-! ## What follows a comment token -/

/-- A comment ends at the end of the line. -/
def AfterComment (x : Token × Tok) : Prop :=
  x.1.kind = .lineComment → x.2.heredoc = none ∧
    (x.2.remaining = [] ∨ ∃ c cs, x.2.remaining = c :: cs ∧ (c = '\n' ∨ c = '\r'))

theorem dropWhile_eol (ds : List Char) :
    ds.dropWhile notEol = [] ∨ ∃ c cs, ds.dropWhile notEol = c :: cs ∧ (c = '\n' ∨ c = '\r') := by
  induction ds with
  | nil => exact .inl rfl
  | cons d ds ih =>
    rw [List.dropWhile_cons]
    split
    · exact ih
    · rename_i h
      refine .inr ⟨d, ds, rfl, ?_⟩
      simp only [notEol, Bool.not_eq_true, Bool.not_eq_false', Bool.or_eq_true, beq_iff_eq] at h
      exact h

theorem next_afterComment (t : Tok) : AfterComment t.next := by
  refine next_ind t AfterComment ?_ ?_ ?_ ?_ ?_ ?_ ?_ ?_ ?_ ?_ ?_ ?_ ?_ ?_ ?_
  · intro h _ hk
    exfalso; revert hk
    unfold Tok.heredocContent
    simp only
    repeat' split
    all_goals simp [Tok.emit]
  · intro _ _ hk; simp [Tok.emit] at hk
  · intro k c cs _ _ hm hk
    have hk : k = .lineComment := hk
    subst hk
    simp at hm
  · intro cs _ _ hk
    exfalso; revert hk
    unfold Tok.atOrTag
    repeat' split
    all_goals simp [Tok.emit]
  · intro _ _ _ _ _ _ hk; simp [Tok.emit] at hk
  · intro _ _ _ _ _ _ hk; simp [Tok.emit] at hk
  · intro _ _ _ hk; simp [Tok.emit] at hk
  · intro ds _ _ _ _
    exact ⟨rfl, dropWhile_eol ds⟩
  · intro d ds _ _ _ hk
    exfalso; revert hk
    unfold Tok.heredocStart
    simp only
    repeat' split
    all_goals simp [Tok.emit]
  · intro _ _ _ _ hk; simp [Tok.emit] at hk
  · intro cs _ _ _ hk
    exfalso; revert hk
    unfold Tok.rawString
    simp only
    repeat' split
    all_goals simp [Tok.emit]
  · intro _ _ _ _ _ hk; simp [Tok.emit] at hk
  · intro _ _ _ hk; simp [Tok.emit] at hk
  · intro _ _ _ _ _ hk; simp [Tok.bareScalar, Tok.emit] at hk
  · intro _ _ _ _ _ hk; simp [Tok.emit] at hk

/-- After a line comment comes a line break, the end, or an error. -/
def Chain : List Token → Prop
  | [] => True
  | t :: ts => (t.kind = .lineComment → let k := St.peek ⟨ts, []⟩; k = .newline ∨ k = .eof ∨ k = .error) ∧ Chain ts

theorem next_atEol (t : Tok) (h1 : t.heredoc = none)
    (h2 : t.remaining = [] ∨ ∃ c cs, t.remaining = c :: cs ∧ (c = '\n' ∨ c = '\r')) :
    t.next.1.kind = .newline ∨ t.next.1.kind = .eof ∨ t.next.1.kind = .error := by
  rcases h2 with h2 | ⟨c, cs, h2, rfl | rfl⟩
  · simp [Tok.next, h1, h2, Tok.emit]
  · left; simp [Tok.next, h1, h2, Tok.emit, isBlank]
  · simp only [Tok.next, h1, h2]
    cases cs with
    | nil => simp [isBlank, isBareStart, Tok.emit, show isWhitespace '\r' = true by decide]
    | cons d cs =>
      by_cases hd : d = '\n'
      · simp [isBlank, Tok.emit, hd]
      · simp [isBlank, isBareStart, Tok.emit, hd, show isWhitespace '\r' = true by decide]

theorem chain_run (e : Token) (he : e.kind = .eof) : ∀ (n : Nat) (t : Tok), Chain (Tok.run n t ++ [e]) := by
  intro n
  induction n with
  | zero => intro t; simp [Tok.run, Chain, he]
  | succ n ih =>
    intro t
    rw [Tok.run]
    simp only
    split
    · simp [Chain, he]
    · refine ⟨fun hk => ?_, ih _⟩
      obtain ⟨h1, h2⟩ := next_afterComment t hk
      cases n with
      | zero => simp [Tok.run, St.peek, he]
      | succ n =>
        rw [Tok.run]
        simp only
        split
        · simp [St.peek, he]
        · have := next_atEol _ h1 h2
          simpa [St.peek] using this

theorem chain_tokens (s : List Char) : Chain (tokenIter s) := chain_run _ rfl _ _

theorem chain_suffix {pre ts : List Token} (h : Chain (pre ++ ts)) : Chain ts := by
  induction pre with
  | nil => exact h
  | cons t pre ih => exact ih h.2

theorem chain_eats {st st' : St} {g : List Green} (h : Chain st.toks) (he : Eats st g st') : Chain st'.toks := by
  obtain ⟨pre, hp, -⟩ := he
  rw [hp] at h
  exact chain_suffix h

/-! ## Trees -/

/-- After a doc comment (`p`: one came last) there is no comma and no line comment before the next entry. -/
def DocNext : Bool → List Green → Prop
  | _, [] => True
  | p, .token k _ :: gs =>
    if k = .DOC_COMMENT then DocNext true gs
    else (p = true → k ≠ .COMMA ∧ k ≠ .LINE_COMMENT) ∧ DocNext p gs
  | _, .node _ _ :: gs => DocNext false gs

/-- A line comment in an object is not on the line of the closing brace. -/
def Comments (cs : List Green) : Prop := hasToken .LINE_COMMENT cs = true → hasToken .NEWLINE cs = true

mutual
/-- The facts, for all the nodes of a tree. -/
def Neat : Green → Prop
  | .token _ _ => True
  | .node k cs => (k = .OBJECT → DocNext false cs ∧ Comments cs) ∧ (k = .DOCUMENT → DocNext false cs) ∧ NeatL cs
/-- For all the elements of a list. -/
def NeatL : List Green → Prop
  | [] => True
  | g :: gs => Neat g ∧ NeatL gs
end

theorem neatL_iff (cs : List Green) : NeatL cs ↔ ∀ g ∈ cs, Neat g := by
  induction cs with
  | nil => simp [NeatL]
  | cons g gs ih => simp [NeatL, ih]

theorem neatL_append (a b : List Green) : NeatL (a ++ b) ↔ NeatL a ∧ NeatL b := by
  simp only [neatL_iff, List.mem_append]
  exact ⟨fun h => ⟨fun g hg => h g (.inl hg), fun g hg => h g (.inr hg)⟩, fun h g hg => hg.elim (h.1 g) (h.2 g)⟩

/-- Tokens only. -/
def Toks (gs : List Green) : Prop := ∀ g ∈ gs, ∃ k t, g = .token k t

theorem toks_neat {gs : List Green} (h : Toks gs) : NeatL gs := by
  rw [neatL_iff]
  intro g hg
  obtain ⟨k, t, rfl⟩ := h g hg
  trivial

theorem bumpWhile_toks (p : TokenKind → Bool) (ts : List Token) : Toks (bumpWhile p ts).1 := by
  induction ts with
  | nil => simp [bumpWhile, Toks]
  | cons t ts ih =>
    rw [bumpWhile]
    split
    · intro g hg
      rcases List.mem_cons.1 hg with rfl | hg
      · exact ⟨_, _, rfl⟩
      · exact ih g hg
    · simp [Toks]

theorem bumpDocs_toks (ts : List Token) : ∀ a, Toks (bumpDocs a ts).1 := by
  induction ts with
  | nil => simp [bumpDocs, Toks]
  | cons t ts ih =>
    intro a
    rw [bumpDocs]
    split
    · intro g hg
      rcases List.mem_cons.1 hg with rfl | hg
      · exact ⟨_, _, rfl⟩
      · exact ih _ g hg
    · simp [Toks]

theorem bump_toks (st : St) : Toks st.bump.1 := by
  rw [St.bump]
  split
  · simp [Toks]
  · intro g hg
    rw [List.mem_singleton] at hg
    exact ⟨_, _, hg⟩

theorem ifBump_toks (st st' : St) (c : Prop) [Decidable c] : Toks (if c then st.bump else ([], st')).1 := by
  split
  · exact bump_toks st
  · simp [Toks]

/-! ### Doc comments -/

theorem docNext_trivia (ts : List Token) (gs : List Green) (h : DocNext false gs) :
    DocNext false ((bumpWhile isTrivia ts).1 ++ gs) := by
  induction ts with
  | nil => simpa [bumpWhile] using h
  | cons t ts ih =>
    rw [bumpWhile]
    split
    · rename_i ht
      simp only [List.cons_append, DocNext]
      rw [if_neg]
      · exact ⟨by simp, ih⟩
      · cases hk : t.kind <;> simp_all [isTrivia, SyntaxKind.ofToken]
    · exact h

theorem docNext_ws (ts : List Token) (p : Bool) (gs : List Green) (h : DocNext p gs) :
    DocNext p ((bumpWhile (· == .whitespace) ts).1 ++ gs) := by
  induction ts with
  | nil => simpa [bumpWhile] using h
  | cons t ts ih =>
    rw [bumpWhile]
    split
    · rename_i ht
      have ht : t.kind = .whitespace := by simpa using ht
      simp only [List.cons_append, DocNext, ht, SyntaxKind.ofToken]
      exact ⟨by simp, ih⟩
    · exact h

theorem docNext_docs (ts : List Token) : ∀ (a p : Bool) (gs : List Green), (∀ p, DocNext p gs) →
    DocNext p ((bumpDocs a ts).1 ++ gs) := by
  induction ts with
  | nil => intro a p gs h; simpa [bumpDocs] using h p
  | cons t ts ih =>
    intro a p gs h
    rw [bumpDocs]
    split
    · rename_i ht
      simp only [List.cons_append, DocNext]
      split
      · exact ih _ _ _ h
      · rename_i hd
        refine ⟨fun _ => ?_, ih _ _ _ h⟩
        rcases ht with ht | ⟨-, ht | ht⟩ <;> simp [ht, SyntaxKind.ofToken] at hd ⊢
    · exact h p

/-! ### Comments -/

/-- No line comment, or a line break. -/
theorem comments_trivia (ts : List Token) (h : Chain ts) :
    hasToken .LINE_COMMENT (bumpWhile isTrivia ts).1 = true → hasToken .NEWLINE (bumpWhile isTrivia ts).1 = true ∨
      St.peek ⟨(bumpWhile isTrivia ts).2, []⟩ = .eof ∨ St.peek ⟨(bumpWhile isTrivia ts).2, []⟩ = .error := by
  induction ts with
  | nil => simp [bumpWhile, hasToken]
  | cons t ts ih =>
    rw [bumpWhile]
    split
    · rename_i ht
      intro hc
      simp only [hasToken, Bool.or_eq_true, beq_iff_eq] at hc ⊢
      by_cases hk : t.kind = .lineComment
      · rcases h.1 hk with h1 | h1
        · left; right
          cases ts with
          | nil => simp [St.peek] at h1
          | cons t' ts =>
            have h1 : t'.kind = .newline := by simpa [St.peek] using h1
            rw [bumpWhile]
            simp [h1, isTrivia, hasToken, SyntaxKind.ofToken]
        · right
          have : bumpWhile isTrivia ts = ([], ts) := by
            cases ts with
            | nil => rfl
            | cons t' ts =>
              have h1 : t'.kind = .eof ∨ t'.kind = .error := by simpa [St.peek] using h1
              rw [bumpWhile, if_neg]
              rcases h1 with h1 | h1 <;> simp [h1, isTrivia]
          rw [this]
          exact h1
      · have hk' : SyntaxKind.ofToken t.kind ≠ .LINE_COMMENT := by
          intro h'; revert ht h' hk; cases t.kind <;> simp [isTrivia, SyntaxKind.ofToken]
        rcases ih h.2 (hc.resolve_left hk') with h1 | h1
        · exact .inl (.inr h1)
        · exact .inr h1
    · simp [hasToken]

theorem bumpDocs_noComment (ts : List Token) : ∀ a, hasToken .LINE_COMMENT (bumpDocs a ts).1 = false := by
  induction ts with
  | nil => simp [bumpDocs, hasToken]
  | cons t ts ih =>
    intro a
    rw [bumpDocs]
    split
    · rename_i ht
      rcases ht with ht | ⟨-, ht | ht⟩ <;> simp [hasToken, ht, SyntaxKind.ofToken, ih]
    · simp [hasToken]

theorem ws_noComment (ts : List Token) : hasToken .LINE_COMMENT (bumpWhile (· == .whitespace) ts).1 = false := by
  induction ts with
  | nil => simp [bumpWhile, hasToken]
  | cons t ts ih =>
    rw [bumpWhile]
    split
    · rename_i ht
      have ht : t.kind = .whitespace := by simpa using ht
      simp [hasToken, ht, SyntaxKind.ofToken, ih]
    · simp [hasToken]

theorem bumpDocs_false {ts : List Token} (h : St.peek ⟨ts, []⟩ = .eof ∨ St.peek ⟨ts, []⟩ = .error) :
    bumpDocs false ts = ([], ts) := by
  cases ts with
  | nil => rfl
  | cons t ts =>
    have h1 : t.kind = .eof ∨ t.kind = .error := by simpa [St.peek] using h
    rw [bumpDocs, if_neg]
    rcases h1 with h1 | h1 <;> simp [h1]

/-- An error token is not an entry. -/
theorem entry_error {source : List Char} {n : Nat} {c : Option TokenKind} {st : St} {g : Green} {st' : St}
    (hp : st.peek = .error) (hc : c ≠ some .error) (h : parseEntry source n c st = some (g, st')) : st'.errors ≠ [] := by
  intro he
  cases n with
  | zero => simp [parseEntry] at h
  | succ n =>
    have ha : st.atAttribute source = false := by
      cases ha : st.atAttribute source with
      | false => rfl
      | true => rw [atAttribute_peek ha] at hp; simp at hp
    have hend : st.atEntryEnd c = false := by
      simp only [St.atEntryEnd, hp]
      simpa using hc
    rw [parseEntry] at h
    simp only [ha, hend, Bool.false_eq_true, if_false, Option.bind_eq_bind, Option.bind_eq_some_iff, Prod.exists,
      Option.some.injEq, Prod.mk.injEq] at h
    obtain ⟨g1, st1, ⟨g2, st2, h2, rfl, rfl⟩, g3, st3, h3, rfl, rfl⟩ := h
    have e2 : st2.errors = [] := by
      have := (allClean source n).2.2.1 _ _ _ _ h3
      exact this he
    cases n with
    | zero => simp [parseAtom] at h2
    | succ n =>
      rw [parseAtom.eq_def] at h2
      simp only [hp, Option.some.injEq, Prod.mk.injEq] at h2
      rw [← h2.2] at e2
      have := clean_bump _ e2
      simp [St.err] at this

/-! ### The parser -/

/-- The facts about what the functions return when there is no error. -/
def AllNeat (source : List Char) (n : Nat) : Prop :=
  (∀ c st r, parseEntries source n c st = some r → c ≠ some .error → Chain st.toks → r.2.errors = [] →
    NeatL r.1 ∧ DocNext false r.1 ∧ (r.2.peek = .eof ∨ c = some r.2.peek) ∧
      (hasToken .LINE_COMMENT r.1 = true → hasToken .NEWLINE r.1 = true ∨ r.2.peek = .eof)) ∧
  (∀ c st r, parseEntry source n c st = some r → c ≠ some .error → Chain st.toks → r.2.errors = [] →
    ∃ cs, r.1 = .node .ENTRY cs ∧ Neat r.1) ∧
  (∀ c k st r, parseValues source n c k st = some r → c ≠ some .error → Chain st.toks → r.2.errors = [] → NeatL r.1) ∧
  (∀ c st r, parseAttributes source n c st = some r → c ≠ some .error → Chain st.toks → r.2.errors = [] → NeatL r.1) ∧
  (∀ st r, parseAttribute source n st = some r → st.peek = .bareScalar → Chain st.toks → r.2.errors = [] → Neat r.1) ∧
  (∀ st r, parseAtom source n st = some r → Chain st.toks → r.2.errors = [] → NeatL r.1) ∧
  (∀ st r, parseItems source n st = some r → Chain st.toks → r.2.errors = [] → NeatL r.1)

theorem tagTree_neat (segs : List (List Char)) : ∀ payload : List Green, NeatL payload → Neat (tagTree segs payload) := by
  induction segs with
  | nil => intro p h; simp [tagTree, Neat, h]
  | cons seg segs ih =>
    intro p h
    cases segs with
    | nil => simp [tagTree, Neat, NeatL, h]
    | cons seg' segs => simp [tagTree, Neat, NeatL, ih p h]

theorem hasToken_app (k : SyntaxKind) (a b : List Green) : hasToken k (a ++ b) = (hasToken k a || hasToken k b) := by
  induction a with
  | nil => simp [hasToken]
  | cons g gs ih => cases g <;> simp [hasToken, ih, Bool.or_assoc]

theorem allNeat (source : List Char) : ∀ n, AllNeat source n := by
  intro n
  induction n with
  | zero =>
    refine ⟨?_, ?_, ?_, ?_, ?_, ?_, ?_⟩ <;> intros <;>
      simp_all [parseEntries, parseEntry, parseValues, parseAttributes, parseAttribute, parseAtom,
        parseItems]
  | succ n ih =>
    obtain ⟨iEntries, iEntry, iValues, iAttrs, iAttr, iAtom, iItems⟩ := ih
    obtain ⟨eEntries, eEntry, eValues, eAttrs, eAttr, eAtom, eItems⟩ := allEat source n
    obtain ⟨cEntries, cEntry, cValues, cAttrs, cAttr, cAtom, cItems⟩ := allClean source n
    refine ⟨?_, ?_, ?_, ?_, ?_, ?_, ?_⟩
    · intro c st r h hcl ht he
      rw [parseEntries] at h
      simp only [Option.bind_eq_bind] at h
      have t1 := chain_eats ht (skipTrivia_eats st)
      have t2 := chain_eats t1 (bumpDocs_eats st.skipTrivia.2.toks false st.skipTrivia.2.errors st.skipTrivia.2.errors)
      have k1 : Toks st.skipTrivia.1 := bumpWhile_toks isTrivia st.toks
      have k2 := bumpDocs_toks st.skipTrivia.2.toks false
      have hcm := comments_trivia st.toks ht
      have hnd := bumpDocs_noComment st.skipTrivia.2.toks false
      split at h
      · rename_i hend
        cases h
        simp only [neatL_append]
        refine ⟨⟨toks_neat k1, toks_neat k2⟩, ?_, ?_, ?_⟩
        · refine docNext_trivia _ _ ?_
          have := docNext_docs st.skipTrivia.2.toks false false [] (fun _ => trivial)
          simpa using this
        · simpa [St.atEof] using hend
        · intro hc
          rw [hasToken_app, hnd, Bool.or_false] at hc
          rcases hcm hc with h1 | h1
          · left; rw [hasToken_app]; simp [St.skipTrivia, St.bumpWhile, h1]
          · right
            have hbd := bumpDocs_false (ts := st.skipTrivia.2.toks) h1
            simp only [hbd, Bool.or_eq_true] at hend ⊢
            rcases h1 with h1 | h1
            · exact h1
            · exfalso
              have h1' : St.peek { toks := st.skipTrivia.2.toks, errors := st.skipTrivia.2.errors } = .error := h1
              rw [h1'] at hend
              simp only [St.atEof, h1'] at hend
              rcases hend with hend | hend
              · cases hend
              · exact hcl (by simpa using hend)
      · simp only [Option.bind_eq_some_iff, Prod.exists, Option.some.injEq] at h
        obtain ⟨g3, st3, h3, g6, st6, h6, rfl⟩ := h
        have c6 := cEntries _ _ _ h6 he
        have c3 : st3.errors = [] := clean_ifBump st3.skipWs.2 _ c6
        have t3 := chain_eats t2 (eEntry _ _ _ h3)
        obtain ⟨cs, s3, s3'⟩ := iEntry _ _ _ h3 hcl t2 c3
        have t4 := chain_eats t3 (skipWs_eats _)
        have t5 := chain_eats t4 (bumpIf_eats st3.skipWs.2 st3.skipWs.2 (st3.skipWs.2.peek = .comma ∨ st3.skipWs.2.peek = .newline)
          (by intro h; rcases h with h | h <;> simp [h]) rfl)
        obtain ⟨n6, d6, p6, m6⟩ := iEntries _ _ _ h6 hcl t5 he
        simp only at s3 s3' n6 d6 p6 m6
        have k5 := ifBump_toks st3.skipWs.2 st3.skipWs.2 (st3.skipWs.2.peek = .comma ∨ st3.skipWs.2.peek = .newline)
        have k4 : Toks st3.skipWs.1 := bumpWhile_toks (· == .whitespace) st3.toks
        have b5 : ∀ (x : List Green), DocNext false x → DocNext false ((if st3.skipWs.2.peek = .comma ∨ st3.skipWs.2.peek = .newline then st3.skipWs.2.bump
            else ([], st3.skipWs.2)).1 ++ x) := by
          intro x hx
          split
          · rename_i h5
            rw [St.bump]
            split
            · exact hx
            · rename_i t ts hts
              have : t.kind = .comma ∨ t.kind = .newline := by simpa [St.peek, hts] using h5
              rcases this with h | h <;> simp [DocNext, h, SyntaxKind.ofToken, hx]
          · exact hx
        have l5 : hasToken .LINE_COMMENT (if st3.skipWs.2.peek = .comma ∨ st3.skipWs.2.peek = .newline then st3.skipWs.2.bump
            else ([], st3.skipWs.2)).1 = false := by
          split
          · rename_i h5
            rw [St.bump]
            split
            · rfl
            · rename_i t ts hts
              have : t.kind = .comma ∨ t.kind = .newline := by simpa [St.peek, hts] using h5
              rcases this with h | h <;> simp [hasToken, h, SyntaxKind.ofToken]
          · rfl
        subst s3
        refine ⟨?_, ?_, p6, ?_⟩
        · simp only [neatL_append, NeatL, and_true]
          exact ⟨⟨⟨⟨⟨toks_neat k1, toks_neat k2⟩, s3'⟩, toks_neat k4⟩, toks_neat k5⟩, n6⟩
        · simp only [List.append_assoc]
          refine docNext_trivia _ _ (docNext_docs _ _ _ _ fun p => ?_)
          simp only [List.singleton_append, DocNext]
          exact docNext_ws _ _ _ (b5 _ d6)
        · intro hc
          have l4 : hasToken .LINE_COMMENT st3.skipWs.1 = false := ws_noComment _
          simp only [hasToken_app, hnd, l5, l4, hasToken, Bool.or_false, Bool.or_eq_true] at hc ⊢
          rcases hc with hc | hc
          · rcases hcm hc with h1 | h1
            · exact .inl (.inl (.inl (.inl (.inl h1))))
            · exfalso
              have hbd := bumpDocs_false (ts := st.skipTrivia.2.toks) h1
              rename_i hnend
              rw [hbd] at hnend h3
              simp only at hnend h3
              rcases h1 with h1 | h1
              · apply hnend
                have h1' : St.peek { toks := st.skipTrivia.2.toks, errors := st.skipTrivia.2.errors } = .eof := h1
                simp [St.atEof, h1']
              · exact entry_error (st := ⟨st.skipTrivia.2.toks, st.skipTrivia.2.errors⟩) h1 hcl h3 c3
          · rcases m6 hc with h1 | h1
            · exact .inl (.inr h1)
            · exact .inr h1
    · intro c st r h hcl ht he
      rw [parseEntry] at h
      simp only [Option.bind_eq_bind] at h
      split at h
      · simp only [Option.bind_eq_some_iff, Prod.exists, Option.some.injEq] at h
        obtain ⟨g, st1, h1, rfl⟩ := h
        have s1 := iAttrs _ _ _ h1 hcl ht he
        exact ⟨_, rfl, by simpa [Neat, NeatL] using s1⟩
      · simp only [Option.bind_eq_some_iff, Prod.exists, Option.some.injEq] at h
        obtain ⟨g1, st1, h1, g3, st3, h3, rfl⟩ := h
        have c3 : st1.errors = [] := by
          have := cValues _ _ _ _ h3
          exact this he
        have e1 : Eats st g1 st1 ∧ NeatL g1 := by
          split at h1
          · cases h1; exact ⟨Eats.refl rfl, trivial⟩
          · simp only [Option.bind_eq_some_iff, Prod.exists, Option.some.injEq, Prod.mk.injEq] at h1
            obtain ⟨g, st', h1, rfl, rfl⟩ := h1
            refine ⟨(eAtom _ _ h1).node .KEY, ?_⟩
            have := iAtom _ _ h1 ht c3
            simpa [NeatL, Neat] using this
        have t1 := chain_eats ht e1.1
        have t2 := chain_eats t1 (skipWs_eats st1)
        have s3 := iValues _ _ _ _ h3 hcl t2 he
        refine ⟨_, rfl, ?_⟩
        simp only [Neat, neatL_append, reduceCtorEq, false_implies, true_and]
        exact ⟨⟨e1.2, toks_neat (bumpWhile_toks (· == .whitespace) st1.toks)⟩, s3⟩
    · intro c k st r h hcl ht he
      rw [parseValues] at h
      simp only [Option.bind_eq_bind] at h
      split at h
      · cases h; simp [NeatL]
      · simp only [Option.bind_eq_some_iff, Prod.exists, Option.some.injEq] at h
        obtain ⟨g1, st1, h1, g3, st3, h3, rfl⟩ := h
        have c3 : st1.errors = [] := by
          have := cValues _ _ _ _ h3
          exact this he
        have e1 : Eats st g1 st1 ∧ NeatL g1 := by
          split at h1
          · simp only [Option.bind_eq_some_iff, Prod.exists, Option.some.injEq, Prod.mk.injEq] at h1
            obtain ⟨g, st', h1, rfl, rfl⟩ := h1
            have s1 := iAttrs _ _ _ h1 hcl ht c3
            refine ⟨((eAttrs _ _ _ h1).node .ATTRIBUTES).node .VALUE, ?_⟩
            simpa [NeatL, Neat] using s1
          · simp only [Option.bind_eq_some_iff, Prod.exists, Option.some.injEq, Prod.mk.injEq] at h1
            obtain ⟨g, st', h1, rfl, rfl⟩ := h1
            refine ⟨((eAtom _ _ h1).congr (by split <;> rfl) rfl).node .VALUE, ?_⟩
            have := iAtom _ _ h1 (by split <;> exact ht) c3
            simpa [NeatL, Neat] using this
        have t1 := chain_eats ht e1.1
        have t2 := chain_eats t1 (skipWs_eats st1)
        have s3 := iValues _ _ _ _ h3 hcl t2 he
        simp only [neatL_append]
        exact ⟨⟨e1.2, toks_neat (bumpWhile_toks (· == .whitespace) st1.toks)⟩, s3⟩
    · intro c st r h hcl ht he
      rw [parseAttributes] at h
      simp only [Option.bind_eq_bind] at h
      split at h
      · rename_i hat
        have hp := atAttribute_peek hat
        simp only [Option.bind_eq_some_iff, Prod.exists] at h
        obtain ⟨g1, st1, h1, h⟩ := h
        have t1 := chain_eats ht (eAttr _ _ (by simp [hp]) h1)
        have t2 := chain_eats t1 (skipWs_eats st1)
        have s2 := toks_neat (bumpWhile_toks (· == .whitespace) st1.toks)
        split at h
        · cases h
          exact ⟨iAttr _ _ h1 hp ht he, s2⟩
        · simp only [Option.bind_eq_some_iff, Prod.exists, Option.some.injEq] at h
          obtain ⟨g3, st3, h3, rfl⟩ := h
          have c3 : st1.errors = [] := by
            have := cAttrs _ _ _ h3
            exact this he
          have s1 := iAttr _ _ h1 hp ht c3
          have s3 := iAttrs _ _ _ h3 hcl t2 he
          simp only [List.cons_append, NeatL, neatL_append]
          exact ⟨s1, s2, s3⟩
      · cases h; simp [NeatL]
    · intro st r h hp ht he
      rw [parseAttribute] at h
      simp only [Option.bind_eq_bind, Option.bind_eq_some_iff, Prod.exists, Option.some.injEq] at h
      obtain ⟨g4, st4, h4, rfl⟩ := h
      have c4 := cAtom _ _ h4 he
      have t1 := chain_eats ht (bump_eats st (by simp [hp]))
      by_cases hgt : st.bump.2.peek = .gt
      · simp only [hgt, if_true] at h4 c4 ⊢
        have t2 := chain_eats t1 (bump_eats _ (by simp [hgt]))
        by_cases hws : st.bump.2.bump.2.peek = .whitespace ∨ st.bump.2.bump.2.peek = .newline
        · rw [if_pos hws] at c4
          exact absurd c4 (by simp [St.skipWs, St.bumpWhile, St.err])
        · rw [if_neg hws] at h4 ⊢
          have s4 := iAtom _ _ h4 t2 he
          simp only [Neat, neatL_append, reduceCtorEq, false_implies, true_and, NeatL, and_true]
          exact ⟨⟨toks_neat (bump_toks _), toks_neat (bump_toks _)⟩, s4⟩
      · simp only [hgt, if_false] at c4
        have := clean_ifSkip (st.bump.2.err .expectedGt) _ _ c4
        simp [St.err] at this
    · intro st r h ht he
      rw [parseAtom.eq_def] at h
      simp only [Option.bind_eq_bind] at h
      split at h
      · rename_i hk
        simp only [Option.bind_eq_some_iff, Prod.exists, Option.some.injEq] at h
        obtain ⟨g2, st2, h2, rfl⟩ := h
        have t1 := chain_eats ht (bump_eats st (by simp [hk]))
        have t2 := chain_eats t1 (eEntries _ _ _ h2)
        by_cases hr : st2.skipTrivia.2.peek = .rbrace
        · simp only [hr, if_true] at he ⊢
          have c2 : st2.errors = [] := clean_bump st2.skipTrivia.2 he
          obtain ⟨n2, d2, p2, m2⟩ := iEntries _ _ _ h2 (by simp) t1 c2
          simp only at n2 d2 p2 m2
          obtain ⟨ts2, er2⟩ := st2
          have hskip : St.skipTrivia ⟨ts2, er2⟩ = ([], ⟨ts2, er2⟩) := by
            cases ts2 with
            | nil => rfl
            | cons t ts =>
              have : t.kind = .eof ∨ t.kind = .rbrace := by
                rcases p2 with p2 | p2
                · exact .inl (by simpa [St.peek] using p2)
                · exact .inr (by simpa [St.peek] using p2.symm)
              have : isTrivia t.kind = false := by rcases this with h | h <;> rw [h] <;> rfl
              simp [St.skipTrivia, St.bumpWhile, bumpWhile, this]
          rw [hskip] at hr ⊢
          simp only at hr ⊢
          have hne : St.peek ⟨ts2, er2⟩ ≠ .eof := by rw [hr]; simp
          obtain ⟨t1', ts1', hst⟩ : ∃ t ts, st.toks = t :: ts := by
            cases h : st.toks with
            | nil => simp [St.peek, h] at hk
            | cons t ts => exact ⟨_, _, rfl⟩
          have hb1 : st.bump.1 = [.token .L_BRACE t1'.text] := by
            have : t1'.kind = .lbrace := by simpa [St.peek, hst] using hk
            simp [St.bump, hst, this, SyntaxKind.ofToken]
          obtain ⟨t2', ts2', hst2⟩ : ∃ t ts, ts2 = t :: ts := by
            cases ts2 with
            | nil => simp [St.peek] at hr
            | cons t ts => exact ⟨_, _, rfl⟩
          have hb2 : (St.bump ⟨ts2, er2⟩).1 = [.token .R_BRACE t2'.text] := by
            have : t2'.kind = .rbrace := by simpa [St.peek, hst2] using hr
            simp [St.bump, hst2, this, SyntaxKind.ofToken]
          rw [hb1, hb2]
          simp only [NeatL, and_true, Neat, reduceCtorEq, false_implies, true_implies, true_and, List.append_nil]
          refine ⟨⟨?_, ?_⟩, ?_⟩
          · simp only [List.cons_append, DocNext, reduceCtorEq, if_false]
            refine ⟨by simp, ?_⟩
            have snoc : ∀ (x : List Green) (p : Bool), DocNext p x → DocNext p (x ++ [.token .R_BRACE t2'.text]) := by
              intro x
              induction x with
              | nil => intro p _; simp [DocNext]
              | cons g gs ih =>
                intro p h
                cases g with
                | token k t =>
                  simp only [List.cons_append, DocNext] at h ⊢
                  split
                  · rename_i hk; rw [if_pos hk] at h; exact ih _ h
                  · rename_i hk; rw [if_neg hk] at h; exact ⟨h.1, ih _ h.2⟩
                | node k c => simp only [List.cons_append, DocNext] at h ⊢; exact ih _ h
            exact snoc _ _ d2
          · intro hc
            simp only [hasToken_app, hasToken, Bool.or_false, Bool.or_eq_true] at hc ⊢
            have : hasToken .LINE_COMMENT g2 = true := by
              rcases hc with (hc | hc) | hc
              · simp at hc
              · exact hc
              · simp at hc
            rcases m2 this with h1 | h1
            · exact .inl (.inr h1)
            · exact absurd h1 hne
          · simp only [neatL_append, NeatL, Neat, and_true, true_and]
            exact n2
        · simp only [hr, if_false] at he
          simp [St.err] at he
      · rename_i hk
        simp only [Option.bind_eq_some_iff, Prod.exists, Option.some.injEq] at h
        obtain ⟨g2, st2, h2, rfl⟩ := h
        have t1 := chain_eats ht (bump_eats st (by simp [hk]))
        have c2 : st2.errors = [] := clean_ifBump st2 _ he
        have s2 := iItems _ _ h2 t1 c2
        simp only [NeatL, and_true, Neat, reduceCtorEq, false_implies, true_and, neatL_append]
        exact ⟨⟨toks_neat (bump_toks _), s2⟩, toks_neat (ifBump_toks _ _ _)⟩
      · cases h
        simp only [NeatL, and_true, Neat, reduceCtorEq, false_implies, true_and]
        exact toks_neat (bump_toks _)
      · rename_i hk
        obtain ⟨ts, e⟩ := st
        cases ts with
        | nil => simp [St.peek] at hk
        | cons t ts =>
          simp only [Option.bind_eq_some_iff, Prod.exists, Option.some.injEq] at h
          obtain ⟨g, st1, h1, rfl⟩ := h
          have hp : NeatL g := by
            split at h1
            · simp only [Option.bind_eq_some_iff, Prod.exists, Option.some.injEq, Prod.mk.injEq] at h1
              obtain ⟨g', st', h1, rfl, rfl⟩ := h1
              have := iAtom _ _ h1 ht.2 he
              simpa [NeatL, Neat] using this
            · cases h1
              trivial
          exact ⟨tagTree_neat _ g hp, trivial⟩
      · cases h
        simp only [NeatL, and_true, Neat, reduceCtorEq, false_implies, true_and]
        exact toks_neat (bump_toks _)
      · cases h
        simp only [NeatL, and_true, Neat, reduceCtorEq, false_implies, true_and]
        exact toks_neat (bump_toks _)
      · cases h
        simp only [NeatL, and_true, Neat, reduceCtorEq, false_implies, true_and]
        exact toks_neat (bump_toks _)
      · cases h
        simp only [St.heredoc, NeatL, and_true, Neat, reduceCtorEq, false_implies, true_and, neatL_append]
        exact ⟨⟨toks_neat (bump_toks _), toks_neat (ifBump_toks _ _ _)⟩, toks_neat (ifBump_toks _ _ _)⟩
      · cases h
        exact toks_neat (bump_toks _)
    · intro st r h ht he
      rw [parseItems] at h
      simp only [Option.bind_eq_bind] at h
      have s1 : NeatL st.skipTrivia.1 := toks_neat (bumpWhile_toks isTrivia st.toks)
      have t1 := chain_eats ht (skipTrivia_eats st)
      split at h
      · cases h
        exact s1
      · split at h
        · cases h
          exact s1
        · simp only [Option.bind_eq_some_iff, Prod.exists, Option.some.injEq] at h
          obtain ⟨g2, st2, h2, g4, st4, h4, rfl⟩ := h
          have c2 : st2.errors = [] := by
            have := cItems _ _ h4
            exact this he
          have s2 := iAtom _ _ h2 t1 c2
          have t2 := chain_eats t1 (eAtom _ _ h2)
          have t3 := chain_eats t2 (skipWs_eats st2)
          have s4 := iItems _ _ h4 t3 he
          simp only [neatL_append, NeatL, and_true, Neat, reduceCtorEq, false_implies, true_and]
          exact ⟨⟨⟨s1, s2⟩, toks_neat (bumpWhile_toks (· == .whitespace) st2.toks)⟩, s4⟩

/-- The tree of a source without errors. -/
theorem parse_neat (s : List Char) (h : (parse s).errors = []) : Neat (parse s).green := by
  obtain ⟨g, st, h1, h2, -, -⟩ := parse_spec s
  rw [h2] at h ⊢
  have := (allNeat s _).1 _ _ _ h1 (by simp) (chain_tokens s) h
  simp only [Neat, reduceCtorEq, false_implies, true_implies, true_and]
  exact ⟨this.2.1, this.1⟩

end Styx.Cst
