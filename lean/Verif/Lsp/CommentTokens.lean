import Verif.Lsp.TokenLemmas

/-!
# Specification and lemmas: which comments get a semantic token (C140)
-/

namespace Styx.Spec

open Styx Styx.Cst

/-- The nodes whose own tokens are reported only if they are scalars, tags or operators. -/
def ownTokens : List SyntaxKind := [.KEY, .TAG, .SEQUENCE, .UNIT, .SCALAR, .HEREDOC, .ATTRIBUTE]

/-- Nodes of kind `q` in nodes of kind `p` whose comments are told; the flags say whether the node is an item of a sequence.
In a key only the sequences and objects that are items of a sequence are. -/
inductive CommentsGoOn : Bool → SyntaxKind → SyntaxKind → Bool → Prop
  | plain {b p q} : p ∉ ownTokens → CommentsGoOn b p q b
  | items {b q} : CommentsGoOn b .SEQUENCE q true
  | attribute {b q} : CommentsGoOn b .ATTRIBUTE q b
  | payload {b} : CommentsGoOn b .TAG .TAG_PAYLOAD b
  | innerSequence : CommentsGoOn true .KEY .SEQUENCE true
  | innerObject : CommentsGoOn true .KEY .OBJECT false

/-- The comment `t` of kind `k` is in the tree, behind the text `before`: directly in a node that is not one of
`ownTokens`, and the nodes around that are as `CommentsGoOn` says, or are the payload of a tag that is an item of a
sequence. -/
inductive CommentIn : Bool → List Char → Green → SyntaxKind → List Char → Prop
  | here {b pre post p k t} : p ∉ ownTokens → k = .LINE_COMMENT ∨ k = .DOC_COMMENT →
      CommentIn b (Green.texts pre) (.node p (pre ++ .token k t :: post)) k t
  | down {b b' pre post p q cs before k t} : CommentsGoOn b p q b' → CommentIn b' before (.node q cs) k t →
      CommentIn b (Green.texts pre ++ before) (.node p (pre ++ .node q cs :: post)) k t
  | itemPayload {pre post pre' post' cs before k t} : CommentIn false before (.node .TAG_PAYLOAD cs) k t →
      CommentIn true (Green.texts pre ++ (Green.texts pre' ++ before))
        (.node .KEY (pre ++ .node .TAG (pre' ++ .node .TAG_PAYLOAD cs :: post') :: post)) k t

end Styx.Spec

namespace Styx.Lsp

open Styx Styx.Cst Styx.Spec

theorem collectL_append (act : Mode → SyntaxKind → Head → Act) (m : Mode) (p : SyntaxKind) (gs : List Green) :
    ∀ (pre : List Green) (off : Nat), collectL act m p off (pre ++ gs) =
      collectL act m p off pre ++ collectL act m p (off + utf8Len (Green.texts pre)) gs
  | [], off => by simp [collectL, Green.texts]
  | .token k t :: pre, off => by
    simp only [List.cons_append, collectL, Green.texts, Green.text, collectL_append act m p gs pre,
      Styx.utf8Len_append, List.append_assoc, Nat.add_assoc]
  | .node k cs :: pre, off => by
    simp only [List.cons_append, collectL, Green.texts, Green.text, collectL_append act m p gs pre,
      Styx.utf8Len_append, List.append_assoc, Nat.add_assoc]

theorem tokenChild_comment {b : Bool} {p k : SyntaxKind} (hp : p ∉ ownTokens)
    (hk : k = .LINE_COMMENT ∨ k = .DOC_COMMENT) :
    tokenChild (.walk b) p (.tok k) = .emit .comment (k == .DOC_COMMENT) := by
  rcases hk with rfl | rfl <;> cases p <;> first | rfl | exact absurd (by decide) hp

theorem tokenChild_down {b b' : Bool} {p q : SyntaxKind} (h : CommentsGoOn b p q b') :
    tokenChild (.walk b) p (.nod q) = .visit (.walk b') := by
  cases h with
  | plain h => cases p <;> first | rfl | exact absurd (by decide) h
  | _ => rfl

theorem CommentIn.collected {b : Bool} {before : List Char} {g : Green} {k : SyntaxKind} {t : List Char}
    (h : CommentIn b before g k t) : ∀ off, (⟨off + utf8Len before, off + utf8Len before + utf8Len t, .comment,
      k == .DOC_COMMENT⟩ : HlSpan) ∈ collect tokenChild (.walk b) off g := by
  induction h with
  | here hp hk =>
    intro off
    rw [collect, collectL_append, List.mem_append]
    right
    simp [collectL, tokenChild_comment hp hk]
  | down hv _ ih =>
    intro off
    have hb := tokenChild_down hv
    rw [collect, collectL_append, List.mem_append]
    right
    simp only [collectL, hb, List.mem_append]
    left
    rw [Styx.utf8Len_append, ← Nat.add_assoc]
    exact ih _
  | itemPayload _ ih =>
    intro off
    rw [collect, collectL_append, List.mem_append]
    right
    simp only [collectL, show tokenChild (.walk true) .KEY (.nod .TAG) = .visit .tagValue from rfl, List.mem_append]
    left
    rw [collect, collectL_append, List.mem_append]
    right
    simp only [collectL, show tokenChild .tagValue .TAG (.nod .TAG_PAYLOAD) = .visit (.walk false) from rfl, List.mem_append]
    left
    rw [Styx.utf8Len_append, Styx.utf8Len_append, ← Nat.add_assoc, ← Nat.add_assoc]
    exact ih _

theorem CommentIn.text {b : Bool} {before : List Char} {g : Green} {k : SyntaxKind} {t : List Char}
    (h : CommentIn b before g k t) : (k = .LINE_COMMENT ∨ k = .DOC_COMMENT) ∧ ∃ after, g.text = before ++ (t ++ after) := by
  induction h with
  | @here b pre post p k t _ hk => exact ⟨hk, Green.texts post, by simp [Green.text, texts_append, Green.texts]⟩
  | @down b b' pre post p q cs before k t _ _ ih =>
    obtain ⟨hk, after, ha⟩ := ih
    exact ⟨hk, after ++ Green.texts post, by
      simp only [Green.text] at ha; simp [Green.text, texts_append, Green.texts, ha]⟩
  | @itemPayload pre post pre' post' cs before k t _ ih =>
    obtain ⟨hk, after, ha⟩ := ih
    exact ⟨hk, after ++ (Green.texts post' ++ Green.texts post), by
      simp only [Green.text] at ha; simp [Green.text, texts_append, Green.texts, ha]⟩

/-- Where a span comes from: a token of the node, or a node in it that is visited. -/
theorem collectL_split {act : Mode → SyntaxKind → Head → Act} {m : Mode} {p : SyntaxKind} {x : HlSpan} :
    ∀ (gs : List Green) (off : Nat), x ∈ collectL act m p off gs →
      (∃ pre k t post ty d, gs = pre ++ .token k t :: post ∧ act m p (.tok k) = .emit ty d ∧
        x = ⟨off + utf8Len (Green.texts pre), off + utf8Len (Green.texts pre) + utf8Len t, ty, d⟩) ∨
      (∃ pre q cs post m', gs = pre ++ .node q cs :: post ∧ act m p (.nod q) = .visit m' ∧
        x ∈ collect act m' (off + utf8Len (Green.texts pre)) (.node q cs))
  | [], off, h => by simp [collectL] at h
  | g :: gs, off, h => by
    have later : x ∈ collectL act m p (off + utf8Len g.text) gs → _ := collectL_split gs (off + utf8Len g.text)
    have hl : x ∈ collectL act m p (off + utf8Len g.text) gs →
      (∃ pre k t post ty d, g :: gs = pre ++ .token k t :: post ∧ act m p (.tok k) = .emit ty d ∧
        x = ⟨off + utf8Len (Green.texts pre), off + utf8Len (Green.texts pre) + utf8Len t, ty, d⟩) ∨
      (∃ pre q cs post m', g :: gs = pre ++ .node q cs :: post ∧ act m p (.nod q) = .visit m' ∧
        x ∈ collect act m' (off + utf8Len (Green.texts pre)) (.node q cs)) := by
      intro h
      have e : ∀ pre, off + utf8Len (Green.texts (g :: pre)) = off + utf8Len g.text + utf8Len (Green.texts pre) := by
        intro pre; rw [Green.texts, Styx.utf8Len_append, Nat.add_assoc]
      rcases later h with ⟨pre, k, t, post, ty, d, h1, h2, h3⟩ | ⟨pre, q, cs, post, m', h1, h2, h3⟩
      · exact .inl ⟨g :: pre, k, t, post, ty, d, by simp [h1], h2, by rw [e]; exact h3⟩
      · exact .inr ⟨g :: pre, q, cs, post, m', by simp [h1], h2, by rw [e]; exact h3⟩
    cases g with
    | token k t =>
      simp only [collectL, List.mem_append] at h
      rcases h with h | h
      · split at h
        · rename_i ty d he
          exact .inl ⟨[], k, t, gs, ty, d, rfl, he, by simpa [Green.texts] using h⟩
        · simp at h
      · exact hl h
    | node k cs =>
      simp only [collectL, List.mem_append] at h
      rcases h with h | h
      · split at h
        · rename_i m' he
          exact .inr ⟨[], k, cs, gs, m', rfl, he, by simpa [Green.texts] using h⟩
        · simp at h
      · exact hl h

theorem emit_comment {m : Mode} {p k : SyntaxKind} {d : Bool} (h : tokenChild m p (.tok k) = .emit .comment d) :
    (∃ b, m = .walk b) ∧ p ∉ ownTokens ∧ (k = .LINE_COMMENT ∨ k = .DOC_COMMENT) ∧ d = (k == .DOC_COMMENT) := by
  have ht := tokenChild_ok m p k _ d h
  have hk : (k = .LINE_COMMENT ∨ k = .DOC_COMMENT) ∧ d = (k == .DOC_COMMENT) := by
    cases d <;> cases k <;> first | (exact ⟨by decide, rfl⟩) | (exact absurd ht (by decide))
  refine ⟨?_, ?_, hk⟩
  · rcases hk.1 with rfl | rfl <;> cases m <;> first | exact ⟨_, rfl⟩ | cases h
  · rcases hk.1 with rfl | rfl <;> cases m <;> cases p <;> first | decide | cases h

theorem visit_walk {b : Bool} {p q : SyntaxKind} {m : Mode} (h : tokenChild (.walk b) p (.nod q) = .visit m) :
    (∃ b', m = .walk b' ∧ CommentsGoOn b p q b') ∨ (m = .tagValue ∧ b = true ∧ p = .KEY ∧ q = .TAG) ∨
      (∃ c, m = .scalars c) ∨ m = .tagKey := by
  by_cases hp : p ∈ ownTokens
  · simp only [ownTokens, List.mem_cons, List.not_mem_nil, or_false] at hp
    rcases hp with rfl | rfl | rfl | rfl | rfl | rfl | rfl
    · cases b <;> cases q <;> first
        | (cases h; done)
        | (cases h; exact .inl ⟨_, rfl, .innerSequence⟩)
        | (cases h; exact .inl ⟨_, rfl, .innerObject⟩)
        | (cases h; exact .inr (.inl ⟨rfl, rfl, rfl, rfl⟩))
        | (cases h; exact .inr (.inr (.inl ⟨_, rfl⟩)))
        | (cases h; exact .inr (.inr (.inr rfl)))
    · cases q <;> first | (cases h; done) | (cases h; exact .inl ⟨_, rfl, .payload⟩)
    · cases h; exact .inl ⟨_, rfl, .items⟩
    · cases q <;> cases h
    · cases q <;> cases h
    · cases q <;> cases h
    · cases h; exact .inl ⟨_, rfl, .attribute⟩
  · have e : tokenChild (.walk b) p (.nod q) = .visit (.walk b) := tokenChild_down (.plain hp)
    rw [e] at h
    cases h
    exact .inl ⟨b, rfl, .plain hp⟩

theorem collected_comment : ∀ (n : Nat) (g : Green), sizeOf g < n → ∀ (b : Bool) (off : Nat) (x : HlSpan),
    x ∈ collect tokenChild (.walk b) off g → x.type = .comment →
    ∃ before k t, CommentIn b before g k t ∧
      x = ⟨off + utf8Len before, off + utf8Len before + utf8Len t, .comment, k == .DOC_COMMENT⟩
  | 0, _, hn => fun _ _ _ => by omega
  | n + 1, .token _ _, _ => fun _ _ _ h => by simp [collect] at h
  | n + 1, .node p gs, hn => fun b off x h hx => by
    rw [collect] at h
    rcases collectL_split gs off h with ⟨pre, k, t, post, ty, d, rfl, he, rfl⟩ | ⟨pre, q, cs, post, m, rfl, hv, h'⟩
    · cases hx
      obtain ⟨_, h1, h2, rfl⟩ := emit_comment he
      exact ⟨_, k, t, .here h1 h2, rfl⟩
    · have hs : sizeOf (Green.node q cs) < n := by
        have := List.sizeOf_lt_of_mem (show Green.node q cs ∈ pre ++ .node q cs :: post by simp)
        simp only [Green.node.sizeOf_spec p] at hn
        omega
      rcases visit_walk hv with ⟨b', rfl, hw⟩ | ⟨rfl, rfl, rfl, rfl⟩ | ⟨c, rfl⟩ | rfl
      · obtain ⟨before, k, t, hc, hxe⟩ := collected_comment n _ hs b' _ x h' hx
        exact ⟨_, k, t, .down hw hc, by rw [hxe, Styx.utf8Len_append, Nat.add_assoc off]⟩
      · rw [collect] at h'
        rcases collectL_split cs _ h' with ⟨_, k, _, _, _, d, _, he, rfl⟩ | ⟨pre', q', cs', post', m', rfl, hv', h''⟩
        · cases hx
          obtain ⟨⟨_, hm⟩, _⟩ := emit_comment he
          cases hm
        · have hq : q' = .TAG_PAYLOAD ∧ m' = .walk false := by
            cases q' <;> first | (cases hv'; done) | (cases hv'; exact ⟨rfl, rfl⟩)
          obtain ⟨rfl, rfl⟩ := hq
          have hs' : sizeOf (Green.node .TAG_PAYLOAD cs') < n := by
            have := List.sizeOf_lt_of_mem (show Green.node .TAG_PAYLOAD cs' ∈ pre' ++ .node .TAG_PAYLOAD cs' :: post' by simp)
            simp only [Green.node.sizeOf_spec .TAG] at hs
            omega
          obtain ⟨before, k, t, hc, hxe⟩ := collected_comment n _ hs' false _ x h'' hx
          exact ⟨_, k, t, .itemPayload hc, by
            rw [hxe, Styx.utf8Len_append, Styx.utf8Len_append, Nat.add_assoc off, Nat.add_assoc off, Nat.add_assoc (utf8Len _)]⟩
      all_goals
        rw [collect] at h'
        rcases collectL_split cs _ h' with ⟨_, k, _, _, _, d, _, he, rfl⟩ | ⟨_, q', _, _, _, _, hv', _⟩
        · cases hx
          obtain ⟨⟨_, hm⟩, _⟩ := emit_comment he
          cases hm
        · cases q' <;> cases hv'

/-- What the editor decodes are the raw tokens. -/
theorem computeSemanticTokens_seen (g : Green) :
    ∃ enc, computeSemanticTokens g = some enc ∧ decode enc = (rawTokens g).map seen := by
  obtain ⟨_, h2, h3⟩ := (pickedS_tokens g).raw (fun _ _ _ h => h) g.text [] rfl (by simp [Props.leaves_text])
  have hs : sortBy RawToken.le (rawTokens g) = rawTokens g := by
    apply sortBy_id
    refine h3.imp fun {a b} h => ?_
    simp only [NotAfter] at h
    simp only [RawToken.le, Bool.or_eq_true, decide_eq_true_eq, Bool.and_eq_true, beq_iff_eq]
    exact h
  obtain ⟨enc, he, hd⟩ := encodeLoop_decode (rawTokens g) 0 0 h2 h3
  exact ⟨enc, by rw [computeSemanticTokens, hs]; exact he, hd⟩

theorem comment_seen {before : List Char} {g : Green} {k : SyntaxKind} {t : List Char} (h : CommentIn false before g k t) :
    (⟨(lineColumn before).1, (lineColumn before).2, utf8Len t, 0, if k = .DOC_COMMENT then 1 else 0⟩ : EdToken) ∈
      (rawTokens g).map seen := by
  obtain ⟨hk, after, ha⟩ := CommentIn.text h
  have hm := CommentIn.collected h 0
  refine List.mem_map.mpr ⟨_, List.mem_map.mpr ⟨_, hm, rfl⟩, ?_⟩
  simp only [seen, rawToken, Nat.zero_add, ha, offsetToPosition_eq, lineColumn_advance, TokenType.code]
  rcases hk with rfl | rfl <;> simp

theorem seen_comment {g : Green} {e : EdToken} (h : e ∈ (rawTokens g).map seen) (he : e.type = 0) :
    ∃ before k t, CommentIn false before g k t ∧
      e = ⟨(lineColumn before).1, (lineColumn before).2, utf8Len t, 0, if k = .DOC_COMMENT then 1 else 0⟩ := by
  obtain ⟨r, hr, rfl⟩ := List.mem_map.mp h
  obtain ⟨x, hx, rfl⟩ := List.mem_map.mp hr
  have ht : x.type = .comment := by
    obtain ⟨_, _, ty, _⟩ := x
    cases ty <;> first | rfl | exact absurd he (by simp [seen, rawToken, TokenType.code])
  obtain ⟨before, k, t, hc, rfl⟩ := collected_comment _ g (Nat.lt_succ_self _) false 0 x hx ht
  obtain ⟨hk, after, ha⟩ := CommentIn.text hc
  refine ⟨before, k, t, hc, ?_⟩
  simp only [seen, rawToken, Nat.zero_add, ha, offsetToPosition_eq, lineColumn_advance, TokenType.code]
  rcases hk with rfl | rfl <;> simp

end Styx.Lsp
