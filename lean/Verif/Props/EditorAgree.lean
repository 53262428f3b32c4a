import Verif.Editor.Tags

/-!
# C95 and C96: the editor's scanner and the tokenizer on heredocs, tags and units
-/

namespace Styx.Props

open Styx Styx.Editor Styx.Spec

/-! ## C95 -/

/-- C95, for texts in which every carriage return starts a line break and heredocs whose delimiter is
followed by a comma or a line break.  Full statement: without these two conditions; it is false without
either (`C95_opening_false`, `C95_return_false`).  After any blanks, the editor reads a heredoc exactly
where the tokenizer reads one of those; both stop at the same place; and the editor's tokens are the parts of
the tokenizer's tokens. -/
theorem C95_heredoc_partial {bl : List Char} (hb : SpacesTabs bl) (cs : List Char) (hp : PairedCR cs)
    (ps : List Piece) (rest : List Char) :
    readExternal (bl ++ '<' :: cs) = .ok (some (ps, rest)) ↔
      ∃ opening d lang nl content close, OpeningParts opening d lang nl ∧ lang ++ nl ≠ [] ∧
        TokenizerHeredoc ('<' :: cs) opening content close rest ∧
        ps = heredocPieces bl d lang nl content close :=
  editor_heredoc_iff hb cs hp ps rest

/-- C95.  The tokens cover exactly the blanks and the tokenizer's tokens. -/
theorem C95_covers {opening d lang nl : List Char} (h : OpeningParts opening d lang nl)
    (bl content close : List Char) :
    covered (heredocPieces bl d lang nl content close) = bl ++ opening ++ content ++ close := by
  obtain ⟨rfl, -, hl, -⟩ := h
  unfold heredocPieces
  rcases hl with rfl | ⟨l, rfl, -⟩
  · split
    · rename_i h; simp at h
    · split
      · rename_i h; subst h; simp [covered]
      · simp [covered]
  · split
    · simp [covered]
    · split
      · rename_i h; subst h; simp [covered]
      · simp [covered]

/-- C95.  With a hint and a line break, the tokens that the editor hands to another language are the
hint and the content: the name after the comma, and the lines of the tokenizer's content token after the
line break of the opening. -/
theorem C95_injection {bl : List Char} (hb : SpacesTabs bl) {cs d h nl content close rest : List Char}
    (hp : PairedCR cs) (hh : h ≠ []) (hn : nl ≠ [])
    (ho : OpeningParts ('<' :: '<' :: d ++ ',' :: h ++ nl) d (',' :: h) nl)
    (ht : TokenizerHeredoc ('<' :: cs) ('<' :: '<' :: d ++ ',' :: h ++ nl) content close rest) :
    readExternal (bl ++ '<' :: cs) = .ok (some ([⟨.heredocStart, bl, '<' :: '<' :: d⟩,
      ⟨.heredocLang, [','], h⟩, ⟨.heredocContent, [], nl ++ content⟩, ⟨.heredocEnd, [], close⟩], rest)) := by
  refine (C95_heredoc_partial hb cs hp _ _).2 ⟨_, d, ',' :: h, nl, content, close, ho, by simp, ht, ?_⟩
  simp [heredocPieces, hn, hh]

/-- C95 is false for an opening followed by something else: the tokenizer reads a heredoc, the editor
reads none. -/
theorem C95_opening_false :
    TokenizerHeredoc (chars! "<<EOT x\nEOT") (chars! "<<EOT") (chars! " x\n") (chars! "EOT") [] ∧
    readExternal (chars! "<<EOT x\nEOT") = .ok none := by
  refine ⟨⟨rfl, rfl, .inr ⟨by decide, rfl, rfl, rfl, rfl, rfl⟩⟩, rfl⟩

/-- C95 is false for a carriage return alone: the editor closes the heredoc after it, the tokenizer
goes on to the next line. -/
theorem C95_return_false :
    TokenizerHeredoc (chars! "<<E\nx\rE\nE\n") (chars! "<<E\n") (chars! "x\rE\n") (chars! "E") ['\n'] ∧
    ∃ ps, readExternal (chars! "<<E\nx\rE\nE\n") = .ok (some (ps, chars! "\nE\n")) := by
  refine ⟨⟨rfl, rfl, .inr ⟨by decide, rfl, rfl, rfl, rfl, rfl⟩⟩, _, rfl⟩

example : SpacesTabs [' ', '\t'] ∧ PairedCR (chars! "<EOT,rust\r\n  fn\n  EOT\nx") ∧
    OpeningParts (chars! "<<EOT,rust\r\n") (chars! "EOT") (chars! ",rust") (chars! "\r\n") ∧
    TokenizerHeredoc (chars! "<<EOT,rust\r\n  fn\n  EOT\nx") (chars! "<<EOT,rust\r\n") (chars! "  fn\n")
      (chars! "  EOT") (chars! "\nx") := by
  refine ⟨by simp [SpacesTabs], ?_, ⟨rfl, ⟨'E', ['O', 'T'], rfl, rfl, by decide, by decide⟩,
    .inr ⟨_, rfl, .inr ⟨'r', ['u', 's', 't'], rfl, rfl, by decide⟩⟩, .inr (.inr rfl)⟩,
    rfl, rfl, .inr ⟨by decide, rfl, rfl, rfl, rfl, rfl⟩⟩
  intro a b h
  have : ∀ i : Nat, i < 23 → (chars! "<EOT,rust\r\n  fn\n  EOT\nx")[i]? = some '\r' → i = 9 := by decide
  have hl := congrArg List.length h
  have hi := congrArg (·[a.length]?) h
  simp only [List.length_append, List.length_cons, List.length_nil] at hl
  have hl2 : (chars! "<EOT,rust\r\n  fn\n  EOT\nx").length = 23 := rfl
  have h9 := this a.length (by omega) (by simpa using hi)
  have hd := congrArg (List.drop 10) h
  rw [List.drop_append, show a.drop 10 = [] from List.drop_of_length_le (by omega), h9] at hd
  simp at hd
  exact ⟨_, hd.symm⟩

/-! ## C96 -/

/-- C96.  After any blanks, the editor reads a unit exactly where the tokenizer does. -/
theorem C96_unit {bl : List Char} (hb : SpacesTabs bl) (cs rest : List Char) :
    readExternal (bl ++ '@' :: cs) = .ok (some ([⟨.unitAt, bl, ['@']⟩], rest)) ↔
      TokenizerReads ('@' :: cs) .at ['@'] rest := by
  rw [readExternal_follow, ← editor_unit_iff hb]
  simp

/-- C96, for tags without a chain, a dot after them or a raw string right after them.  Full statement:
for every tag; it is false for each of the others, this is what the equivalence says (and see
`C96_dot_false`, `C96_chain_false`, `C96_raw_false`). -/
theorem C96_tag_partial {bl : List Char} (hb : SpacesTabs bl) {cs w rest : List Char}
    (h : TokenizerReads ('@' :: cs) .tag w rest) :
    readExternal (bl ++ '@' :: cs) = .ok (some ([⟨.tagStart, bl, w⟩], rest)) ↔
      '/' ∉ w ∧ rest.head? ≠ some '.' ∧ rest.head? ≠ some 'r' := by
  rw [readExternal_follow, ← editor_tag_iff hb h]
  simp

/-- C96.  The editor reads some tag where the tokenizer reads one, and none where it does not. -/
theorem C96_somewhere {bl : List Char} (hb : SpacesTabs bl) (cs : List Char) :
    (∃ w rest, TokenizerReads ('@' :: cs) .tag w rest) ↔
      ∃ w rest, readExternal (bl ++ '@' :: cs) = .ok (some ([⟨.tagStart, bl, w⟩], rest)) := by
  rw [readExternal_follow, editor_at hb]
  simp only [TokenizerReads, next_atSign]
  cases cs with
  | nil => simp [Tok.atOrTag, Tok.emit]
  | cons c ds =>
    by_cases hc : isTagStart c = true
    · simp [Tok.atOrTag, hc, Tok.emit]
    · simp [Tok.atOrTag, hc, Tok.emit]

/-- C96.  After a tag the editor never finds a raw string attached to it, whatever follows: the token
that the grammar provides for it cannot occur. -/
theorem C96_no_raw_payload {bl : List Char} (hb : SpacesTabs bl) {cs w rest : List Char}
    (h : readExternal (bl ++ '@' :: cs) = .ok (some ([⟨.tagStart, bl, w⟩], rest))) {row : Nat}
    (hr : row = 3 ∨ row = 4) (s : Scanner) (saved : List UInt8) (p : Piece) (rest' : List Char)
    (saved' : List UInt8) (s' : Scanner)
    (hl : lexExternal s saved (validSymbols row) rest = .ok (some (p, rest', saved'), s')) :
    p.symbol ≠ .immediateRawStart := by
  rw [readExternal_follow, editor_at hb] at h
  have hrest : rest.head? ≠ some 'r' := by
    split at h
    · simp only [Except.ok.injEq, Option.some.injEq, Prod.mk.injEq] at h
      obtain ⟨-, rfl⟩ := h
      intro hh
      obtain ⟨x, xs, hx⟩ := List.exists_cons_of_ne_nil (l := cs.dropWhile isTagNameChar)
        (by intro h; rw [h] at hh; simp at hh)
      rw [hx] at hh
      have := dropWhile_head hx
      simp at hh; rw [hh] at this; exact absurd this (by decide)
    · simp at h
  intro hp
  unfold lexExternal at hl
  cases h1 : s.deserialize saved with
  | error e => rw [h1] at hl; cases hl
  | ok s1 =>
    rw [h1] at hl
    simp only [bind, Except.bind] at hl
    cases h2 : scan (validSymbols row) s1 (.at rest) with
    | error e => rw [h2] at hl; cases hl
    | ok q =>
      obtain ⟨y, s2, l⟩ := q
      rw [h2] at hl
      simp only at hl
      cases y with
      | none => simp [pure, Except.pure] at hl
      | some y =>
        simp only at hl
        cases h3 : s2.serialize with
        | error e => rw [h3] at hl; cases hl
        | ok b =>
          rw [h3] at hl
          simp only [pure, Except.pure, Except.ok.injEq, Prod.mk.injEq, Option.some.injEq] at hl
          obtain ⟨⟨rfl, -, -⟩, -⟩ := hl
          simp only at hp
          subst hp
          exact no_immediateRaw hr hrest s1 s2 l h2

/-- C96 is false for a dot: the tokenizer's tag ends before it, the editor's does not. -/
theorem C96_dot_false : TokenizerReads (chars! "@a.b") .tag (chars! "@a") (chars! ".b") ∧
    readExternal (chars! "@a.b") = .ok (some ([⟨.tagStart, [], chars! "@a.b"⟩], [])) :=
  ⟨⟨rfl, rfl, rfl⟩, rfl⟩

/-- C96 is false for a chain: it is one tag for the tokenizer. -/
theorem C96_chain_false : TokenizerReads (chars! "@a/@b") .tag (chars! "@a/@b") [] ∧
    readExternal (chars! "@a/@b") = .ok (some ([⟨.tagStart, [], chars! "@a"⟩], chars! "/@b")) :=
  ⟨⟨rfl, rfl, rfl⟩, rfl⟩

/-- C96 is false for a raw string right after the tag: the tokenizer reads the tag and the raw string,
the editor takes the `r` into the tag. -/
theorem C96_raw_false : TokenizerReads (chars! "@regexr#\"a\"#") .tag (chars! "@regex") (chars! "r#\"a\"#") ∧
    TokenizerReads (chars! "r#\"a\"#") .rawScalar (chars! "r#\"a\"#") [] ∧
    readExternal (chars! "@regexr#\"a\"#") = .ok (some ([⟨.tagStart, [], chars! "@regexr"⟩], chars! "#\"a\"#")) :=
  ⟨⟨rfl, rfl, rfl⟩, ⟨rfl, rfl, rfl⟩, rfl⟩

example : SpacesTabs [' '] ∧ TokenizerReads (chars! "@optional-x(@int)") .tag (chars! "@optional-x") (chars! "(@int)") ∧
    '/' ∉ (chars! "@optional-x") ∧ (chars! "(@int)").head? ≠ some '.' ∧ (chars! "(@int)").head? ≠ some 'r' :=
  ⟨by simp [SpacesTabs], ⟨rfl, rfl, rfl⟩, by decide, by decide, by decide⟩

/-- Non-vacuity: after a tag the scanner does find the other attached token, a unit. -/
example : ∃ p rest' saved' s', readExternal (chars! "@a@") = .ok (some ([⟨.tagStart, [], chars! "@a"⟩], ['@'])) ∧
    lexExternal .create [] (validSymbols 3) ['@'] = .ok (some (p, rest', saved'), s') ∧ p.symbol = .immediateUnitAt :=
  ⟨_, _, _, _, rfl, rfl, rfl⟩

end Styx.Props
