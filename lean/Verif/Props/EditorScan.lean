import Verif.Editor.RawAgree

/-!
# C93 and C94: the scanner of the editor grammar is safe and forgets nothing between calls; it reads raw
strings as the tokenizer does
-/

namespace Styx.Props

open Styx Styx.Editor Styx.Spec

/-- C93.  Whatever happened before, a call of the scanner, restored from any of the saved states,
stays inside its memory and comes to an end.  A state takes at most 21 bytes, well below the 1024 that
the runtime provides (crates/tree-sitter-styx/src/tree_sitter/parser.h:14). -/
theorem C93_safe {s : Scanner} {saved : List (List UInt8)} (h : Reached s saved) {b : List UInt8}
    (hb : b ∈ saved) (v : Symbol → Bool) (text : List Char) :
    ∃ r s', lexExternal s b v text = .ok (r, s') ∧ ∀ p rest b', r = some (p, rest, b') → b'.length ≤ 21 := by
  obtain ⟨hs, hk⟩ := reached_inv h
  obtain ⟨t, ht⟩ := hk b hb
  obtain ⟨y, s1, s2, l, _, _, _, h3⟩ := lex_spec ht hs.bufS v text
  rcases h3 with ⟨_, h3⟩ | ⟨sym, bytes, _, _, hlen, h3⟩
  · exact ⟨_, _, h3, nofun⟩
  · refine ⟨_, _, h3, ?_⟩
    intro p rest b' he
    injection he with he
    injection he with _ he
    injection he with _ he
    exact he ▸ hlen

/-- C93.  What a call finds depends only on the state it was restored from, not on what the scanner
did in between. -/
theorem C93_restore {s t : Scanner} {saved saved' : List (List UInt8)} (hs : Reached s saved)
    (ht : Reached t saved') {b : List UInt8} (hb : b ∈ saved) (v : Symbol → Bool)
    (text : List Char) :
    (lexExternal s b v text).map Prod.fst = (lexExternal t b v text).map Prod.fst := by
  obtain ⟨is, hk⟩ := reached_inv hs
  obtain ⟨it, _⟩ := reached_inv ht
  obtain ⟨u, hu⟩ := hk b hb
  obtain ⟨y, s1, s2, l, h1, _, _, h3⟩ := lex_spec hu is.bufS v text
  obtain ⟨y', s1', s2', l', h1', _, _, h3'⟩ := lex_spec hu it.bufS v text
  rw [h1] at h1'
  injection h1' with h1'
  injection h1' with e1 h1'
  injection h1' with e2 e3
  subst e1 e2 e3
  rcases h3 with ⟨hy, h3⟩ | ⟨sym, bytes, hy, hser, _, h3⟩ <;>
    rcases h3' with ⟨hy', h3'⟩ | ⟨sym', bytes', hy', hser', _, h3'⟩
  · rw [h3, h3']; rfl
  · rw [hy] at hy'; cases hy'
  · rw [hy] at hy'; cases hy'
  · rw [hy] at hy'; cases hy'
    rw [hser] at hser'; cases hser'
    rw [h3, h3']; rfl

/-- C93.  Nothing is lost by saving: after a token, a scanner restored from the state saved then,
wherever that scanner has been, finds on every text what the scanner that has just read the token would
find going on by itself. -/
theorem C93_exact {s s' old : Scanner} {saved saved' : List (List UInt8)} (h : Reached s saved)
    {b b' : List UInt8} (hb : b ∈ saved) {v : Symbol → Bool} {text rest : List Char} {p : Piece}
    (hl : lexExternal s b v text = .ok (some (p, rest, b'), s')) (ho : Reached old saved')
    (v' : Symbol → Bool) (text' : List Char) :
    ∃ t, old.deserialize b' = .ok t ∧
      told (scan v' t (.at text')) = told (scan v' s' (.at text')) ∧
      (told (scan v' t (.at text'))).isSome = true := by
  obtain ⟨hs, hk⟩ := reached_inv h
  obtain ⟨t, ht⟩ := hk b hb
  obtain ⟨y, s1, s2, l, _, h2, _, h3⟩ := lex_spec ht hs.bufS v text
  rcases h3 with ⟨_, h3⟩ | ⟨sym, bytes, _, hser, _, h3⟩
  · rw [h3] at hl; simp at hl
  · rw [h3] at hl
    injection hl with hl
    injection hl with hl1 hl2
    subst hl2
    injection hl1 with hl1
    injection hl1 with _ hl1
    injection hl1 with _ hl1
    subst hl1
    obtain ⟨u, hu, hsu⟩ := deserialize_serialize h2.left (reached_inv ho).1.bufS hser
    obtain ⟨z, a1, a2, l2, e1, e2, _⟩ := scan_same (hsu.symm.trans h2) v' (.at text')
    exact ⟨u, hu, by rw [e1, e2]; rfl, by rw [e1]; rfl⟩

/-- C93.  Every token is the text at its place: what was stepped over, the token and the text that the
next call starts from make up the text. -/
theorem C93_tiles {s s' : Scanner} {saved : List (List UInt8)} (h : Reached s saved)
    {b b' : List UInt8} (hb : b ∈ saved) {v : Symbol → Bool} {text rest : List Char} {p : Piece}
    (hl : lexExternal s b v text = .ok (some (p, rest, b'), s')) : p.skipped ++ p.text ++ rest = text := by
  obtain ⟨hs, hk⟩ := reached_inv h
  obtain ⟨t, ht⟩ := hk b hb
  obtain ⟨y, s1, s2, l, _, _, hw, h3⟩ := lex_spec ht hs.bufS v text
  rcases h3 with ⟨_, h3⟩ | ⟨sym, bytes, _, hser, _, h3⟩
  · rw [h3] at hl; simp at hl
  · rw [h3] at hl
    injection hl with hl
    injection hl with hl1 hl2
    injection hl1 with hl1
    injection hl1 with h4 hl1
    injection hl1 with h5 _
    subst h4 h5
    have : l.mark.getD l.here <:+ l.start := by
      cases hm : l.mark with
      | none => exact hw.here
      | some m => exact hw.mark m hm
    simp only [List.append_assoc]
    rw [between_suffix this, between_suffix hw.start]

/-- Non-vacuity: inside a heredoc whose delimiter has the full 16 characters. -/
theorem reached_heredoc : ∃ s b saved, Reached s (b :: saved) ∧ s.len = 16 ∧ s.inHeredoc = true ∧
    b.length = 21 :=
  ⟨_, _, _, .token (v := validSymbols 2) (text := chars! "  <<ABCDEFGHIJKLMNOP,rs\n") .create
    (List.mem_cons_self ..) rfl, rfl, rfl, rfl⟩

/-- Non-vacuity: a scanner that has since given up on another text. -/
theorem reached_failed : ∃ s saved, Reached s saved ∧ s.len = 3 ∧ s.inHeredoc = false ∧ saved.length = 1 :=
  ⟨_, _, .nothing (v := validSymbols 2) (text := chars! "<<EOT x") .create (List.mem_cons_self ..) rfl,
    rfl, rfl, rfl⟩

example : ∃ s saved b r s', Reached s saved ∧ b ∈ saved ∧
    lexExternal s b (validSymbols 5) (chars! ",rs\nx\nABCDEFGHIJKLMNOP") = .ok (some r, s') ∧
    r.1 = ⟨.heredocLang, [','], ['r', 's']⟩ := by
  refine ⟨_, _, _, _, _, .token (v := validSymbols 2) (text := chars! "  <<ABCDEFGHIJKLMNOP,rs\n") .create
    (List.mem_cons_self ..) rfl, List.mem_cons_self .., rfl, rfl⟩

/-! ## C94 -/

/-- C94, for at most 255 hashes.  Full statement: without that bound; it is false for more
(`C94_false`).  After any blanks, the editor reads a raw string exactly where the tokenizer reads
one; both stop at the same place; and the editor's tokens are the opening, the content (if there is
any) and the closing of the tokenizer's token. -/
theorem C94_raw_partial {bl : List Char} (hb : SpacesTabs bl) (cs : List Char) (ps : List Piece)
    (rest : List Char) :
    readExternal (bl ++ 'r' :: cs) = .ok (some (ps, rest)) ↔
      ∃ n body, n ≤ 255 ∧ TokenizerReads ('r' :: cs) .rawScalar (rawWritten n body) rest ∧
        ps = rawPieces bl n body := by
  rw [readExternal_follow, editor_raw hb]
  constructor
  · intro h
    injection h with h
    split at h
    · rename_i hk
      split at h
      · rename_i t ht
        split at h
        · rename_i a b hc
          simp only [Option.some.injEq, Prod.mk.injEq] at h
          obtain ⟨rfl, rfl⟩ := h
          refine ⟨_, a, hk, (tokenizer_raw ..).2 ⟨t, a, ht, ?_, ?_⟩, rfl⟩
          · rw [Nat.min_eq_left hk]; exact hc
          · rw [Nat.min_eq_left hk]; rfl
        · simp at h
      · simp at h
    · simp at h
  · rintro ⟨n, body, hn, ht, rfl⟩
    obtain ⟨t, a, h1, h2, h3⟩ := (tokenizer_raw ..).1 ht
    simp only [rawWritten, List.cons.injEq, true_and] at h3
    obtain ⟨rfl, h4⟩ := hashes_inj h3
    rw [Nat.min_eq_left hn] at h2 h4
    have : body = a := List.append_cancel_right h4
    subst this
    rw [if_pos hn, h1]
    simp only [h2]

/-- C94.  The tokens cover exactly the blanks and the tokenizer's token. -/
theorem C94_covers (bl : List Char) (n : Nat) (body : List Char) :
    covered (rawPieces bl n body) = bl ++ rawWritten n body := by
  unfold rawPieces rawWritten
  split
  · rename_i h; subst h; simp [covered]
  · simp [covered]

/-- C94.  What the editor shows as the content is the value that the parser gives the scalar. -/
theorem C94_value {cs rest : List Char} {n : Nat} {body : List Char}
    (h : TokenizerReads ('r' :: cs) .rawScalar (rawWritten n body) rest) :
    ∃ sp, (nextLexeme (Tok.new ('r' :: cs))).1 = .scalar sp body .raw := by
  have hs : (Tok.new ('r' :: cs)).skipWs = Tok.new ('r' :: cs) := by
    simp [Tok.skipWs, h.1]
  have hr : rawContent (rawWritten n body) = some body := by
    have := rawContent_eq n body
    simpa [rawWritten] using this
  refine ⟨(Tok.new ('r' :: cs)).next.1.span, ?_⟩
  simp [nextLexeme, hs, lexToken, h.1, h.2.1, hr]

/-- C94 is false beyond 255 hashes: the tokenizer reads a raw string, the editor reads none. -/
theorem C94_false {n : Nat} (hn : 255 < n) (rest : List Char) :
    (∃ w r, TokenizerReads ('r' :: (List.replicate n '#' ++ '"' :: ('"' :: List.replicate n '#' ++ rest))) .rawScalar w r) ∧
    readExternal ('r' :: (List.replicate n '#' ++ '"' :: ('"' :: List.replicate n '#' ++ rest))) = .ok none := by
  constructor
  · have hf : hashesFollow 255 (List.replicate n '#' ++ rest) = true := by
      rw [hashesFollow_iff]
      refine ⟨List.replicate (n - 255) '#' ++ rest, ?_⟩
      rw [← List.append_assoc, List.replicate_append_replicate, show 255 + (n - 255) = n by omega]
    refine ⟨_, (List.replicate n '#' ++ rest).drop 255, (tokenizer_raw ..).2
      ⟨'"' :: List.replicate n '#' ++ rest, [], dropWhile_hashes .., ?_, rfl⟩⟩
    rw [takeWhile_hashes, List.length_replicate, Nat.min_eq_right (by omega)]
    simp only [List.cons_append, cutRaw, hf, and_self, if_true]
  · have := editor_raw (bl := []) nofun (List.replicate n '#' ++ '"' :: ('"' :: List.replicate n '#' ++ rest))
    rw [readExternal_follow]
    rw [List.nil_append] at this
    rw [this, takeWhile_hashes, List.length_replicate, if_neg (by omega)]

example : readExternal (chars! " \tr#\"a\"b\"# x") =
    .ok (some (rawPieces (chars! " \t") 1 (chars! "a\"b"), chars! " x")) := rfl

example : TokenizerReads (chars! "r#\"a\"b\"# x") .rawScalar (rawWritten 1 (chars! "a\"b")) (chars! " x") :=
  ⟨rfl, rfl, rfl⟩

end Styx.Props
