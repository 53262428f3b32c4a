import Verif.Cst.Shape
import Verif.Text.Lex

/-! # The tokens of the texts of the grammar -/

namespace Styx.Cst

open Styx Styx.Spec

/-- The tokens from a state of the tokenizer, with the one at the end of the file. -/
def toksFrom (t : Tok) : List Token :=
  Tok.run (t.measure + 1) t ++ [⟨.eof, t.pos + utf8Len t.remaining, t.pos + utf8Len t.remaining, []⟩]

/-- The tokens of `s`, which begins at byte `p`. -/
abbrev toksAt (s : List Char) (p : Nat) : List Token := toksFrom ⟨s, p, none⟩

theorem run_fuel (n : Nat) : ∀ (m : Nat) (t : Tok), t.measure < n → t.measure < m → Tok.run n t = Tok.run m t := by
  induction n with
  | zero => intro m t h; omega
  | succ n ih =>
    intro m t h1 h2
    obtain ⟨m, rfl⟩ : ∃ k, m = k + 1 := ⟨m - 1, by omega⟩
    rw [Tok.run, Tok.run]
    simp only
    split
    · rfl
    · rename_i hk
      have := next_measure t hk
      rw [ih m _ (by omega) (by omega)]

theorem toksFrom_cons {t t' : Tok} {k : Token} (h : t.next = (k, t')) (hk : k.kind ≠ .eof) :
    toksFrom t = k :: toksFrom t' := by
  have hm := next_measure t (by rw [h]; exact hk)
  have hs := next_step t
  have hp := after_pos 1 t
  simp only [Tok.after] at hp
  rw [h] at hm hs hp
  simp only at hm hp
  unfold toksFrom
  rw [Tok.run, h]
  simp only [if_neg hk]
  rw [run_fuel t.measure (t'.measure + 1) t' (by omega) (by omega), hp]
  rfl

theorem tokenIter_eq (s : List Char) : tokenIter s = toksAt s 0 := by
  unfold tokenIter tokenize toksAt toksFrom
  rw [run_fuel _ (Tok.measure ⟨s, 0, none⟩ + 1) _ (by simp [Tok.new, Tok.measure])
    (by simp [Tok.new, Tok.measure])]
  simp [Tok.new]

theorem toksAt_nil (p : Nat) : toksAt [] p = [⟨.eof, p, p, []⟩] := rfl

theorem toks_lbrace (s : List Char) (p : Nat) : toksAt ('{' :: s) p = ⟨.lbrace, p, p + 1, ['{']⟩ :: toksAt s (p + 1) :=
  toksFrom_cons rfl (by simp)
theorem toks_rbrace (s : List Char) (p : Nat) : toksAt ('}' :: s) p = ⟨.rbrace, p, p + 1, ['}']⟩ :: toksAt s (p + 1) :=
  toksFrom_cons rfl (by simp)
theorem toks_lparen (s : List Char) (p : Nat) : toksAt ('(' :: s) p = ⟨.lparen, p, p + 1, ['(']⟩ :: toksAt s (p + 1) :=
  toksFrom_cons rfl (by simp)
theorem toks_rparen (s : List Char) (p : Nat) : toksAt (')' :: s) p = ⟨.rparen, p, p + 1, [')']⟩ :: toksAt s (p + 1) :=
  toksFrom_cons rfl (by simp)
theorem toks_comma (s : List Char) (p : Nat) : toksAt (',' :: s) p = ⟨.comma, p, p + 1, [',']⟩ :: toksAt s (p + 1) :=
  toksFrom_cons rfl (by simp)
theorem toks_gt (s : List Char) (p : Nat) : toksAt ('>' :: s) p = ⟨.gt, p, p + 1, ['>']⟩ :: toksAt s (p + 1) :=
  toksFrom_cons rfl (by simp)

theorem toks_newline {n : List Char} (hn : LineBreak n) (s : List Char) (p : Nat) :
    toksAt (n ++ s) p = ⟨.newline, p, p + utf8Len n, n⟩ :: toksAt s (p + utf8Len n) := by
  rcases hn with rfl | rfl <;> exact toksFrom_cons rfl (by simp)

theorem next_comment {t rest : List Char} (ht : CommentText t) (h : AtLineEnd rest) (p : Nat) :
    Tok.next ⟨t ++ rest, p, none⟩ = (⟨.lineComment, p, p + utf8Len t, t⟩, ⟨rest, p + utf8Len t, none⟩) := by
  obtain ⟨r, rfl, hr, h3⟩ := ht
  obtain ⟨h1, h2⟩ := notEol_split hr h
  have h4 : (r ++ rest).head? ≠ some '/' := by
    cases r with
    | cons x r => simpa using h3
    | nil => rcases h with rfl | ⟨y, rfl⟩ | ⟨y, rfl⟩ <;> simp
  revert h1 h2 h4
  simp only [List.cons_append]
  generalize r ++ rest = u
  intro h1 h2 h4
  unfold Tok.next
  cases u with
  | nil => simp_all [Tok.emit]
  | cons x u =>
    simp at h4
    simp only [Char.reduceEq, if_false, if_true]
    split
    · rename_i heq; simp at heq; exact absurd heq.1 h4
    · rename_i heq; simp at heq; subst heq; rw [h1, h2]; simp [Tok.emit]
    · rename_i hh; exact absurd rfl (hh _)

theorem toks_comment {t rest : List Char} (ht : CommentText t) (h : AtLineEnd rest) (p : Nat) :
    toksAt (t ++ rest) p = ⟨.lineComment, p, p + utf8Len t, t⟩ :: toksAt rest (p + utf8Len t) :=
  toksFrom_cons (next_comment ht h p) (by simp)

theorem toks_doc {body rest : List Char} (hr : ∀ c ∈ body, c ≠ '\n' ∧ c ≠ '\r') (h : AtLineEnd rest) (p : Nat) :
    toksAt ('/' :: '/' :: '/' :: body ++ rest) p =
      ⟨.docComment, p, p + utf8Len ('/' :: '/' :: '/' :: body), '/' :: '/' :: '/' :: body⟩ ::
        toksAt rest (p + utf8Len ('/' :: '/' :: '/' :: body)) := by
  obtain ⟨h1, h2⟩ := notEol_split hr h
  refine toksFrom_cons ?_ (by simp)
  simp only [List.cons_append]
  unfold Tok.next
  simp only [Char.reduceEq, if_false, if_true, h1, h2]
  simp [Tok.emit]

/-- Blanks before something else are one token. -/
theorem toks_blanks {b s : List Char} (hb : Blanks b) (hne : b ≠ []) (hs : ∀ c r, s = c :: r → isBlank c = false)
    (p : Nat) : toksAt (b ++ s) p = ⟨.whitespace, p, p + utf8Len b, b⟩ :: toksAt s (p + utf8Len b) := by
  cases b with
  | nil => exact absurd rfl hne
  | cons c b =>
    have hc := (blank_iff c).1 (hb c (by simp))
    have hsp := takeWhile_append_stop (p := isBlank) (a := b) (b := s)
      (fun x hx => (blank_iff x).1 (hb x (by simp [hx]))) hs
    refine toksFrom_cons ?_ (by simp)
    rw [List.cons_append, next_blank hc, hsp.1, hsp.2]
    simp [Tok.emit]

/-- A blank is added to the blanks or makes a new token. -/
theorem toks_blank {c : Char} (hc : Blank c) (s : List Char) (p : Nat) :
    ∃ b s', c :: s = b ++ s' ∧ Blanks b ∧ b ≠ [] ∧
      toksAt (c :: s) p = ⟨.whitespace, p, p + utf8Len b, b⟩ :: toksAt s' (p + utf8Len b) ∧
      (toksAt s (p + 1) = toksAt s' (p + utf8Len b) ∨
        ∃ b', toksAt s (p + 1) = ⟨.whitespace, p + 1, p + utf8Len b, b'⟩ :: toksAt s' (p + utf8Len b)) := by
  have hsize : c.utf8Size = 1 := by rcases hc with rfl | rfl <;> rfl
  have hsp := List.takeWhile_append_dropWhile (p := isBlank) (l := s)
  have hd : ∀ x r, s.dropWhile isBlank = x :: r → isBlank x = false := fun x r h => dropWhile_head h
  have hb : Blanks (s.takeWhile isBlank) := fun x hx => (blank_iff x).2 (List.all_eq_true.1 List.all_takeWhile x hx)
  have hb' : Blanks (c :: s.takeWhile isBlank) := by
    intro x hx
    rcases List.mem_cons.1 hx with rfl | hx
    · exact hc
    · exact hb x hx
  refine ⟨c :: s.takeWhile isBlank, s.dropWhile isBlank, by simp, hb', by simp, ?_, ?_⟩
  · have := toks_blanks hb' (by simp) hd p
    rwa [List.cons_append, hsp] at this
  · by_cases hn : s.takeWhile isBlank = []
    · left
      rw [hn] at hsp ⊢
      rw [List.nil_append] at hsp
      rw [hsp]
      simp [hsize]
    · right
      have := toks_blanks hb hn hd (p + 1)
      rw [hsp] at this
      refine ⟨s.takeWhile isBlank, ?_⟩
      rw [this, utf8Len_cons, hsize]
      simp [Nat.add_assoc]

/-! ## Scalars -/

theorem toks_bare {s rest : List Char} (hs : BareText s) (hr : ∀ c r, rest = c :: r → isBareChar c = false)
    (hq : rest.head? ≠ some '"') (p : Nat) :
    toksAt (s ++ rest) p = ⟨.bareScalar, p, p + utf8Len s, s⟩ :: toksAt rest (p + utf8Len s) :=
  toksFrom_cons (next_bareText hs hr hq p) (by simp)

theorem next_heredocEnd {d ind rest : List Char} (hd : Delimiter d) (hi : ∀ c ∈ ind, Blank c)
    (hr : AtLineEnd rest) (q : Nat) (ci : Option Nat) : Tok.next ⟨ind ++ d ++ rest, q, some ⟨d, ci⟩⟩ =
      (⟨.heredocEnd, q, q + utf8Len (ind ++ d), ind ++ d⟩, ⟨rest, q + utf8Len (ind ++ d), none⟩) := by
  have : Tok.next ⟨ind ++ d ++ rest, q, some ⟨d, ci⟩⟩ =
      Tok.heredocContent ⟨ind ++ d ++ rest, q, some ⟨d, ci⟩⟩ ⟨d, ci⟩ := rfl
  rw [this]
  unfold Tok.heredocContent
  simp only [findDelim_closing hd hi hr]
  have e1 : (ind ++ d ++ rest).take (ind.length + d.length) = ind ++ d := by
    rw [← List.length_append, List.take_left]
  have e2 : (ind ++ d ++ rest).drop (ind.length + d.length) = rest := by
    rw [← List.length_append, List.drop_left]
  rw [e1, e2]; rfl

theorem next_heredocBody {d ind rest : List Char} (hd : Delimiter d) (hi : ∀ c ∈ ind, Blank c)
    (hr : AtLineEnd rest) {ls : List (List Char)} (hne : ls ≠ [])
    (hls : ∀ l ∈ ls, '\n' ∉ l ∧ ¬ ClosingLine d l) (p : Nat) :
    Tok.next ⟨unlines ls ++ (ind ++ d ++ rest), p, some ⟨d, none⟩⟩ =
        (⟨.heredocContent, p, p + utf8Len (unlines ls), unlines ls⟩,
          ⟨ind ++ d ++ rest, p + utf8Len (unlines ls), some ⟨d, some ind.length⟩⟩) := by
  have : Tok.next ⟨unlines ls ++ (ind ++ d ++ rest), p, some ⟨d, none⟩⟩ =
      Tok.heredocContent ⟨unlines ls ++ (ind ++ d ++ rest), p, some ⟨d, none⟩⟩ ⟨d, none⟩ := rfl
  rw [this]
  unfold Tok.heredocContent
  have hf : findDelim d (unlines ls ++ (ind ++ d ++ rest)) = none := by
    cases ls with
    | nil => exact absurd rfl hne
    | cons l ls =>
      have hl := hls l (by simp)
      rw [unlines_cons, List.append_assoc, List.cons_append]
      exact findDelim_line hd hl.1 hl.2 _
  simp only [hf, scanHeredoc_body hd hi hr hne hls]
  rfl

/-- The elements of a heredoc with value `v`. -/
def HeredocGreens (v : List Char) (cs : List Green) : Prop :=
  ∃ d lang nl ind : List Char, ∃ ls : List (List Char), Delimiter d ∧ LangHint lang ∧ LineBreak nl ∧
    v = unlines (ls.map (dedentLine ind.length)) ∧
    cs = .token .HEREDOC_START ('<' :: '<' :: d ++ lang ++ nl) ::
      (if ls = [] then [] else [.token .HEREDOC_CONTENT (unlines ls)]) ++ [.token .HEREDOC_END (ind ++ d)]

/-- The tokens of a heredoc. -/
theorem toks_heredoc {d lang nl ind rest : List Char} (hd : Delimiter d) (hl : LangHint lang) (hn : LineBreak nl)
    (hi : Blanks ind) (hr : AtLineEnd rest) {ls : List (List Char)}
    (hls : ∀ l ∈ ls, '\n' ∉ l ∧ ¬ ClosingLine d l) (p : Nat) :
    ∃ t1 mid t2, toksAt ('<' :: '<' :: d ++ lang ++ nl ++ unlines ls ++ ind ++ d ++ rest) p =
        t1 :: mid ++ t2 :: toksAt rest (p + utf8Len ('<' :: '<' :: d ++ lang ++ nl ++ unlines ls ++ ind ++ d)) ∧
      t1.kind = .heredocStart ∧ t2.kind = .heredocEnd ∧
      (mid = [] ∨ ∃ t, mid = [t] ∧ t.kind = .heredocContent) ∧
      t1.text ++ mid.flatMap (·.text) ++ t2.text =
        '<' :: '<' :: d ++ lang ++ nl ++ unlines ls ++ ind ++ d ∧
      t1.text = '<' :: '<' :: d ++ lang ++ nl ∧ t2.text = ind ++ d ∧ mid.flatMap (·.text) = unlines ls ∧
      (mid = [] ↔ ls = []) := by
  have h1 := next_heredocStart hd hl hn (unlines ls ++ (ind ++ d ++ rest)) p
  revert h1
  generalize '<' :: '<' :: d ++ lang ++ nl = a
  intro h1
  have e : toksAt (a ++ unlines ls ++ ind ++ d ++ rest) p =
      toksAt (a ++ (unlines ls ++ (ind ++ d ++ rest))) p := by simp
  rw [e, toksAt, toksFrom_cons h1 (by simp)]
  by_cases hne : ls = []
  · subst hne
    have := next_heredocEnd hd hi hr (p + utf8Len a) none
    refine ⟨⟨.heredocStart, p, p + utf8Len a, a⟩, [], ⟨.heredocEnd, p + utf8Len a, p + utf8Len a + utf8Len (ind ++ d), ind ++ d⟩,
      ?_, rfl, rfl, .inl rfl, by simp [unlines], rfl, rfl, rfl, by simp⟩
    show _ :: toksFrom ⟨ind ++ d ++ rest, _, _⟩ = _ :: _
    rw [toksFrom_cons this (by simp)]
    simp [Nat.add_assoc, unlines]
  · have h2 := next_heredocBody hd hi hr hne hls (p + utf8Len a)
    have h3 := next_heredocEnd hd hi hr (p + utf8Len a + utf8Len (unlines ls)) (some ind.length)
    rw [toksFrom_cons h2 (by simp), toksFrom_cons h3 (by simp)]
    refine ⟨⟨.heredocStart, p, p + utf8Len a, a⟩,
      [⟨.heredocContent, p + utf8Len a, p + utf8Len a + utf8Len (unlines ls), unlines ls⟩],
      ⟨.heredocEnd, p + utf8Len a + utf8Len (unlines ls), p + utf8Len a + utf8Len (unlines ls) + utf8Len (ind ++ d), ind ++ d⟩,
      ?_, rfl, rfl, .inr ⟨_, rfl, rfl⟩, by simp, rfl, rfl, by simp, by simp [hne]⟩
    simp [Nat.add_assoc]

/-- The tokens of a scalar that is not a heredoc. -/
theorem toks_scalar {v k e s rest} (hs : ScalarText v k e s) (hk : k ≠ .heredoc) (hf : Follows e rest) (p : Nat) :
    ∃ tk, toksAt (s ++ rest) p = ⟨tk, p, p + utf8Len s, s⟩ :: toksAt rest (p + utf8Len s) ∧
      (k = .bare ∧ tk = .bareScalar ∧ BareText s ∨ tk = .quotedScalar ∨ tk = .rawScalar) := by
  have eq : '"'.utf8Size = 1 := rfl
  have er : 'r'.utf8Size = 1 := rfl
  cases hs with
  | bare hb =>
    obtain ⟨h1, h2, -⟩ := follows_word hf
    exact ⟨_, toks_bare hb h1 h2 p, .inl ⟨rfl, rfl, hb⟩⟩
  | quoted hb he =>
    rename_i body
    have hl : p + utf8Len ('"' :: body ++ ['"']) = p + utf8Len body + 2 := by simp [eq]; omega
    refine ⟨_, ?_, .inr (.inl rfl)⟩
    rw [hl]
    have := next_quoted hb rest p
    rw [show '"' :: body ++ ['"'] ++ rest = '"' :: body ++ '"' :: rest by simp]
    exact toksFrom_cons this (by simp)
  | raw hn hc =>
    rename_i n
    have hl : p + utf8Len ('r' :: List.replicate n '#' ++ '"' :: v ++ '"' :: List.replicate n '#') =
        p + utf8Len v + 2 * n + 3 := by
      simp [utf8Len_hashes, er, eq]; omega
    refine ⟨_, ?_, .inr (.inr rfl)⟩
    rw [hl]
    exact toksFrom_cons (next_raw hn hc rest p) (by simp)
  | heredoc => exact absurd rfl hk

theorem toks_unit {rest : List Char} (hf : Follows .word rest) (p : Nat) :
    toksAt ('@' :: rest) p = ⟨.at, p, p + 1, ['@']⟩ :: toksAt rest (p + 1) := by
  refine toksFrom_cons ?_ (by simp)
  unfold Tok.next
  simp only [Char.reduceEq, if_false, if_true]
  unfold Tok.atOrTag
  rcases hf with rfl | ⟨c, r, rfl, hc⟩
  · rfl
  · have : isTagStart c = false := by
      simp only [List.mem_cons, List.not_mem_nil, or_false] at hc
      rcases hc with rfl | rfl | rfl | rfl | rfl | rfl | rfl <;> rfl
    simp only [this]
    rfl

theorem toks_tag {n rest : List Char} (h : TagName n) (hf : Follows .word rest) (p : Nat) :
    toksAt ('@' :: n ++ rest) p =
      ⟨.tag, p, p + utf8Len ('@' :: n), '@' :: n⟩ :: toksAt rest (p + utf8Len ('@' :: n)) := by
  obtain ⟨h1, h2, h3, h4⟩ := follows_word hf
  refine toksFrom_cons (next_tag h (fun c r e => .inl (isTagChar_word hf c r e)) (fun _ => ?_) p) (by simp)
  constructor
  · intro e
    cases rest with
    | nil => cases e
    | cons c r => simp at e; subst e; have := h1 _ _ rfl; revert this; decide
  · exact h2

theorem toks_tagPayload {n s rest : List Char} (h : TagName n) (hp : PayloadStart n s) (p : Nat) :
    toksAt ('@' :: n ++ (s ++ rest)) p =
      ⟨.tag, p, p + utf8Len ('@' :: n), '@' :: n⟩ :: toksAt (s ++ rest) (p + utf8Len ('@' :: n)) := by
  obtain ⟨c, r, rfl, hc⟩ := hp
  refine toksFrom_cons (next_tag (rest := c :: r ++ rest) h ?_ ?_ p) (by simp)
  · intro c' r' e
    simp only [List.cons_append, List.cons.injEq] at e
    obtain ⟨rfl, rfl⟩ := e
    rcases hc with rfl | rfl | ⟨rfl, -⟩ | ⟨rfl, h1⟩
    · exact .inl (by decide)
    · exact .inl (by decide)
    · exact .inl (by decide)
    · refine .inr ⟨rfl, ?_⟩
      cases r with
      | nil => simp at h1
      | cons y ys => simpa using h1
  · intro e
    rcases hc with rfl | rfl | ⟨rfl, h1⟩ | ⟨rfl, h1⟩
    · simp
    · simp
    · exact absurd e h1
    · simp

/-- The first token of something begins at its beginning, and has its first character. -/
theorem toks_head (c : Char) (s : List Char) (p : Nat) :
    ∃ t ts r, toksAt (c :: s) p = t :: ts ∧ t.start = p ∧ t.text = c :: r ∧ KindText t.kind (c :: r) ∧
      t.kind ≠ .eof := by
  obtain ⟨r, h1, h2⟩ := next_text_head c s p
  have hk := (next_kind ⟨c :: s, p, none⟩ (tokInv_none rfl)).2
  rw [h1] at hk
  have hst := next_start (c :: s) p
  have he : ∀ x : Token × Tok, x = (x.1, x.2) := fun _ => rfl
  have := he (Tok.next ⟨c :: s, p, none⟩)
  exact ⟨_, _, r, toksFrom_cons this h2, hst, h1, hk, h2⟩

end Styx.Cst
