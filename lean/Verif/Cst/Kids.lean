import Verif.Cst.Toks

/-! # What the entries of a list of greens are, and how `parseEntries` reads gaps and doc comments -/

namespace Styx.Cst

open Styx Styx.Spec

/-- An entry of an object or document: its doc comments and its elements. -/
abbrev Kid := List (List Char) × List Green

/-- The entries that are not empty, with their doc comments; `pend` are the doc comments before. -/
def kidsOf : List (List Char) → List Green → Option (List Kid)
  | pend, [] => if pend = [] then some [] else none
  | pend, .token k t :: gs => if k = .DOC_COMMENT then kidsOf (pend ++ [t]) gs else kidsOf pend gs
  | pend, .node _ cs :: gs => if cs = [] then kidsOf pend gs else (kidsOf [] gs).map ((pend, cs) :: ·)

/-- The token as an element. -/
abbrev tokG (t : Token) : Green := .token (SyntaxKind.ofToken t.kind) t.text

/-- The part of `parseEntries` after spaces and doc comments. -/
def cont (source : List Char) (n : Nat) (c : Option TokenKind) (st : St) : Option (List Green × St) :=
  if st.atEof || c == some st.peek then some ([], st)
  else (parseEntry source n c st).bind fun r =>
    (parseEntries source n c
      (if r.2.skipWs.2.peek = .comma ∨ r.2.skipWs.2.peek = .newline then r.2.skipWs.2.bump
        else ([], r.2.skipWs.2)).2).bind fun r6 =>
      some (r.1 :: (r.2.skipWs.1 ++
        (if r.2.skipWs.2.peek = .comma ∨ r.2.skipWs.2.peek = .newline then r.2.skipWs.2.bump
          else ([], r.2.skipWs.2)).1 ++ r6.1), r6.2)

theorem parseEntries_cont (source : List Char) (n : Nat) (c : Option TokenKind) (st : St) :
    parseEntries source (n + 1) c st =
      (cont source n c { st.skipTrivia.2 with toks := (bumpDocs false st.skipTrivia.2.toks).2 }).map
        fun r => (st.skipTrivia.1 ++ (bumpDocs false st.skipTrivia.2.toks).1 ++ r.1, r.2) := by
  rw [parseEntries, cont]
  simp only [Option.bind_eq_bind]
  split
  · simp
  · simp only [Option.map_bind]
    congr 1
    funext r
    simp only [Function.comp, Option.map_bind]
    congr 1
    funext r6
    simp

theorem peel_trivia (source : List Char) (n : Nat) (c : Option TokenKind) (t : Token) (ts : List Token)
    (e : List PErr) (ht : isTrivia t.kind = true) :
    parseEntries source n c ⟨t :: ts, e⟩ =
      (parseEntries source n c ⟨ts, e⟩).map fun r => (tokG t :: r.1, r.2) := by
  cases n with
  | zero => simp [parseEntries]
  | succ n =>
    rw [parseEntries_cont, parseEntries_cont]
    simp only [St.skipTrivia, St.bumpWhile, bumpWhile, ht, if_true, Option.map_map]
    congr 1

theorem entry_empty {source : List Char} {c : Option TokenKind} {st : St}
    (h : st.peek = .comma ∨ st.peek = .lineComment) (n : Nat) :
    parseEntry source (n + 2) c st = some (.node .ENTRY [], st) := by
  have ha : st.atAttribute source = false := by
    cases ha : st.atAttribute source with
    | false => rfl
    | true => rw [atAttribute_peek ha] at h; simp at h
  have he : st.atEntryEnd c = true := by
    simp [St.atEntryEnd]; rcases h with h | h <;> simp [h]
  have hw : st.skipWs = ([], st) := skipWs_id (by rcases h with h | h <;> simp [h])
  rw [parseEntry]
  simp only [ha, he, hw, Bool.false_eq_true, if_false, if_true, Option.bind_eq_bind, Option.bind_some]
  rw [parseValues]
  simp [he]

theorem entries_mono (source : List Char) {n m : Nat} (h : n ≤ m) {c : Option TokenKind} {st : St}
    {r : List Green × St} (hr : parseEntries source n c st = some r) : parseEntries source m c st = some r := by
  induction h with
  | refl => exact hr
  | step _ ih => exact (allMono source _).1 _ _ _ ih

theorem peel_comma (source : List Char) (n : Nat) (c : Option TokenKind) (t : Token) (ts : List Token)
    (e : List PErr) (ht : t.kind = .comma) (hc : c ≠ some .comma) :
    parseEntries source (n + 3) c ⟨t :: ts, e⟩ =
      (parseEntries source (n + 2) c ⟨ts, e⟩).map fun r => (.node .ENTRY [] :: tokG t :: r.1, r.2) := by
  have hp : St.peek ⟨t :: ts, e⟩ = .comma := by simp [St.peek, ht]
  have hw : St.skipWs ⟨t :: ts, e⟩ = ([], ⟨t :: ts, e⟩) := skipWs_id (by simp [hp])
  rw [parseEntries_cont]
  have h1 : St.skipTrivia ⟨t :: ts, e⟩ = ([], ⟨t :: ts, e⟩) := by
    simp [St.skipTrivia, St.bumpWhile, bumpWhile, ht, isTrivia]
  have h2 : bumpDocs false (t :: ts) = ([], t :: ts) := by simp [bumpDocs, ht]
  have h3 : (c == some TokenKind.comma) = false := by simpa using hc
  simp only [h1, h2]
  rw [cont]
  simp only [St.atEof, hp, h3, entry_empty (.inl hp), Option.bind_some, hw, St.bump]
  simp
  cases parseEntries source (n + 2) c ⟨ts, e⟩ <;> rfl

/-- What `parseEntries` makes of something after a doc comment, up to the place of empty entries. -/
theorem docs_cont (source : List Char) (n : Nat) (c : Option TokenKind) (hc : c ≠ some .lineComment)
    (e : List PErr) : ∀ (ts : List Token) (z : List Green) (st : St),
    cont source n c ⟨(bumpDocs true ts).2, e⟩ = some (z, st) →
    ∃ m g, parseEntries source m c ⟨ts, e⟩ = some (g, st) ∧
      (∀ pend, kidsOf pend ((bumpDocs true ts).1 ++ z) = kidsOf pend g) ∧
      hasToken .NEWLINE ((bumpDocs true ts).1 ++ z) = hasToken .NEWLINE g := by
  intro ts
  induction ts with
  | nil =>
    intro z st h
    refine ⟨n + 1, z, ?_, by simp [bumpDocs], by simp [bumpDocs]⟩
    rw [parseEntries_cont]
    have : cont source n c ⟨[], e⟩ = some (z, st) := h
    simp [St.skipTrivia, St.bumpWhile, bumpWhile, bumpDocs, this]
  | cons t ts ih =>
    intro z st h
    by_cases hd : t.kind = .docComment
    · have e1 : bumpDocs true (t :: ts) = bumpDocs false (t :: ts) := by simp [bumpDocs, hd]
      rw [e1] at h ⊢
      refine ⟨n + 1, (bumpDocs false (t :: ts)).1 ++ z, ?_, fun _ => rfl, rfl⟩
      have h1 : St.skipTrivia ⟨t :: ts, e⟩ = ([], ⟨t :: ts, e⟩) := by
        simp [St.skipTrivia, St.bumpWhile, bumpWhile, hd, isTrivia]
      rw [parseEntries_cont, h1]
      simp only [h]
      simp
    · by_cases hw : t.kind = .whitespace ∨ t.kind = .newline
      · have e1 : bumpDocs true (t :: ts) = (tokG t :: (bumpDocs true ts).1, (bumpDocs true ts).2) := by
          rw [bumpDocs, if_pos (.inr ⟨rfl, hw⟩)]
        rw [e1] at h ⊢
        obtain ⟨m, g, h1, h2, h3⟩ := ih z st h
        refine ⟨m, tokG t :: g, ?_, ?_, ?_⟩
        · rw [peel_trivia _ _ _ _ _ _ (by rcases hw with h | h <;> simp [h, isTrivia]), h1]
          rfl
        · intro pend
          have hk : SyntaxKind.ofToken t.kind ≠ .DOC_COMMENT := by
            rcases hw with h | h <;> simp [h, SyntaxKind.ofToken]
          simp only [List.cons_append, kidsOf, hk, if_false, h2]
        · simp only [List.cons_append, hasToken, h3]
      · have e1 : bumpDocs true (t :: ts) = ([], t :: ts) := by
          rw [bumpDocs, if_neg]
          rintro (h | ⟨-, h⟩)
          · exact hd h
          · exact hw h
        rw [e1] at h ⊢
        by_cases hl : t.kind = .lineComment
        · have hp : St.peek ⟨t :: ts, e⟩ = .lineComment := by simp [St.peek, hl]
          have hws : St.skipWs ⟨t :: ts, e⟩ = ([], ⟨t :: ts, e⟩) := skipWs_id (by simp [hp])
          have h3 : (c == some TokenKind.lineComment) = false := by simpa using hc
          rw [cont] at h
          rw [if_neg (by simp [St.atEof, hp, h3])] at h
          rw [Option.bind_eq_some_iff] at h
          obtain ⟨⟨g, st1⟩, h4, h5⟩ := h
          have h4' := (allMono source (n + 1)).2.1 _ _ _ ((allMono source n).2.1 _ _ _ h4)
          rw [entry_empty (.inr hp)] at h4'
          cases h4'
          simp only [hws, hp] at h5
          simp only [reduceCtorEq, or_self, if_false] at h5
          rw [Option.bind_eq_some_iff] at h5
          obtain ⟨⟨g6, st6⟩, h6, h7⟩ := h5
          cases h7
          exact ⟨n, g6, h6, by simp [kidsOf], by simp [hasToken]⟩
        · refine ⟨n + 1, z, ?_, fun _ => rfl, rfl⟩
          have h1 : St.skipTrivia ⟨t :: ts, e⟩ = ([], ⟨t :: ts, e⟩) := by
            have : isTrivia t.kind = false := by
              cases hk : t.kind <;> simp_all [isTrivia]
            simp [St.skipTrivia, St.bumpWhile, bumpWhile, this]
          have h2 : bumpDocs false (t :: ts) = ([], t :: ts) := by simp [bumpDocs, hd]
          rw [parseEntries_cont, h1]
          simp only [h2, h]
          simp

theorem peel_doc {source : List Char} {n : Nat} {c : Option TokenKind} (hc : c ≠ some .lineComment) {d : Token}
    {ts : List Token} {e : List PErr} {g : List Green} {st : St} (hd : d.kind = .docComment)
    (h : parseEntries source n c ⟨d :: ts, e⟩ = some (g, st)) :
    ∃ m g', parseEntries source m c ⟨ts, e⟩ = some (g', st) ∧
      (∀ pend, kidsOf pend g = kidsOf (pend ++ [d.text]) g') ∧ hasToken .NEWLINE g = hasToken .NEWLINE g' := by
  cases n with
  | zero => simp [parseEntries] at h
  | succ n =>
    rw [parseEntries_cont] at h
    have h1 : St.skipTrivia ⟨d :: ts, e⟩ = ([], ⟨d :: ts, e⟩) := by
      simp [St.skipTrivia, St.bumpWhile, bumpWhile, hd, isTrivia]
    have h2 : bumpDocs false (d :: ts) = (tokG d :: (bumpDocs true ts).1, (bumpDocs true ts).2) := by
      rw [bumpDocs, if_pos (.inl hd)]
    simp only [h1, h2, List.nil_append, Option.map_eq_some_iff, Prod.exists, Prod.mk.injEq] at h
    obtain ⟨z, st', h3, rfl, rfl⟩ := h
    obtain ⟨m, g', h4, h5, h6⟩ := docs_cont source n c hc e ts z st' h3
    refine ⟨m, g', h4, fun pend => ?_, ?_⟩
    · rw [List.cons_append, kidsOf, if_pos (by simp [hd, SyntaxKind.ofToken]), h5]
    · rw [List.cons_append, hasToken, h6]
      simp [hd, SyntaxKind.ofToken]

end Styx.Cst
