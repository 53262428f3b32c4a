import Verif.Lsp.CommentTokens

/-! # Property theorems C140: comments get a semantic token -/

namespace Styx.Props

open Styx Styx.Cst Styx.Lsp Styx.Spec

/-- **C140**, partly: in every document, valid or not, the editor gets for every comment that is not directly in a
sequence, nor in a key, a token at its place, with its length in bytes, of the type `comment`, and with the modifier
`documentation` exactly if it is a doc comment.  Missing: comments directly in sequences (`C140_false`) and
comments inside of keys, other than those in objects and payloads of tags that are items of a sequence. -/
theorem C140_partial (s : List Char) : ∃ enc, computeSemanticTokens (Cst.parse s).green = some enc ∧
    ∀ before k t, CommentIn false before (Cst.parse s).green k t →
      ⟨(lineColumn before).1, (lineColumn before).2, utf8Len t, 0, if k = .DOC_COMMENT then 1 else 0⟩ ∈ decode enc := by
  obtain ⟨enc, he, hd⟩ := computeSemanticTokens_seen (Cst.parse s).green
  exact ⟨enc, he, fun _ _ _ h => hd ▸ comment_seen h⟩

/-- **C140**, exactly: in every document, the tokens of the type `comment` that the editor gets are those of the
comments that are where `CommentIn` says, and no others. -/
theorem C140_exact (s : List Char) : ∃ enc, computeSemanticTokens (Cst.parse s).green = some enc ∧
    ∀ e : EdToken, (e ∈ decode enc ∧ e.type = 0) ↔ ∃ before k t, CommentIn false before (Cst.parse s).green k t ∧
      e = ⟨(lineColumn before).1, (lineColumn before).2, utf8Len t, 0, if k = .DOC_COMMENT then 1 else 0⟩ := by
  obtain ⟨enc, he, hd⟩ := computeSemanticTokens_seen (Cst.parse s).green
  refine ⟨enc, he, fun e => ⟨fun ⟨h, h0⟩ => seen_comment (hd ▸ h) h0, ?_⟩⟩
  rintro ⟨before, k, t, h, rfl⟩
  exact ⟨hd ▸ comment_seen h, rfl⟩

/-- **C140** is false: a comment on a line of its own in a sequence is a leaf of the tree of a document without errors,
and the editor gets no token of the type `comment`. -/
theorem C140_false : ∃ s enc, s = chars! "l (\n// c\na)" ∧ (Cst.parse s).errors = [] ∧
    (.LINE_COMMENT, chars! "// c") ∈ leaves (Cst.parse s).green ∧
    computeSemanticTokens (Cst.parse s).green = some enc ∧ ∀ t ∈ decode enc, t.type ≠ 0 := by
  obtain ⟨enc, he, hd⟩ := computeSemanticTokens_seen (Cst.parse (chars! "l (\n// c\na)")).green
  refine ⟨_, enc, rfl, by decide +kernel, by decide +kernel, he, ?_⟩
  rw [hd]
  decide +kernel

/-- The tree of a document with a comment in an object that is an item of a sequence. -/
theorem itemComment_tree : (Cst.parse (chars! "l ({\n// c\nb 1})")).green =
    .node .DOCUMENT ([] ++ .node .ENTRY ([.node .KEY [.node .SCALAR [.token .BARE_SCALAR ['l']]], .token .WHITESPACE [' ']] ++
      .node .VALUE ([] ++ .node .SEQUENCE ([.token .L_PAREN ['(']] ++ .node .ENTRY ([] ++ .node .KEY ([] ++
        .node .OBJECT ([.token .L_BRACE ['{'], .token .NEWLINE ['\n']] ++ .token .LINE_COMMENT (chars! "// c") ::
          [.token .NEWLINE ['\n'], .node .ENTRY [.node .KEY [.node .SCALAR [.token .BARE_SCALAR ['b']]],
            .token .WHITESPACE [' '], .node .VALUE [.node .SCALAR [.token .BARE_SCALAR ['1']]]], .token .R_BRACE ['}']]) ::
        []) :: []) :: [.token .R_PAREN [')']]) :: []) :: []) :: []) := by
  with_unfolding_all rfl

/-- The comment of that document meets the hypothesis of `C140_partial`, with the text before it. -/
example : ∃ before, CommentIn false before (Cst.parse (chars! "l ({\n// c\nb 1})")).green .LINE_COMMENT (chars! "// c") ∧
    before = chars! "l ({\n" := by
  rw [itemComment_tree]
  have pl : ∀ {b p q}, decide (p ∉ ownTokens) = true → CommentsGoOn b p q b := fun h => .plain (of_decide_eq_true h)
  refine ⟨_, .down (pl rfl) (.down (pl rfl) (.down (pl rfl) (.down .items (.down (pl rfl) (.down .innerObject
    (.here (pre := [.token .L_BRACE ['{'], .token .NEWLINE ['\n']]) (by decide) (.inl rfl))))))), ?_⟩
  with_unfolding_all rfl

end Styx.Props
