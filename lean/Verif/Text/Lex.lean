import Verif.Text.Grammar
import Verif.Parse.HeredocLemmas
import Verif.Parse.LexInv

/-! # Lexing texts of the grammar -/

namespace Styx

open Spec

/-- The lexemes of `s`, which begins at byte `p`. -/
def lexAt (s : List Char) (p : Nat) : List Lexeme := lexRun (s.length + 2) ⟨s, p, none⟩

theorem lex_eq_lexAt (s : List Char) : lex s = lexAt s 0 := rfl

theorem at_any (s : List Char) (p : Nat) : At (List.replicate p '#' ++ s) ⟨s, p, none⟩ :=
  ⟨List.replicate p '#', rfl, (utf8Len_hashes p).symm⟩

theorem lexRun_fuel (n m : Nat) (s : List Char) (p : Nat) (hn : s.length < n) (hm : s.length < m) :
    lexRun n ⟨s, p, none⟩ = lexRun m ⟨s, p, none⟩ := by
  induction n generalizing m s p with
  | zero => omega
  | succ n ih =>
    obtain ⟨m, rfl⟩ : ∃ k, m = k + 1 := ⟨m - 1, by omega⟩
    rw [lexRun, lexRun]
    simp only
    split
    · rfl
    · rename_i hne
      have hst := nextLexeme_step (at_any s p) rfl
      have hmm := hst.measure hne
      have hnone := hst.none
      revert hmm hnone
      generalize (nextLexeme ⟨s, p, none⟩).2 = t'
      obtain ⟨s', p', h'⟩ := t'
      intro hmm hnone
      simp only at hnone
      subst hnone
      simp only [Tok.measure, Option.isSome_none, Bool.false_eq_true, if_false, Nat.add_zero] at hmm
      rw [ih m s' p' (by omega) (by omega)]

theorem lexAt_cons {s s' : List Char} {p p' : Nat} {l : Lexeme}
    (h : nextLexeme ⟨s, p, none⟩ = (l, ⟨s', p', none⟩)) (hl : l ≠ .eof) :
    lexAt s p = l :: lexAt s' p' := by
  have hst := nextLexeme_step (at_any s p) rfl
  rw [h] at hst
  have hm := hst.measure hl
  simp only [Tok.measure, Option.isSome_none, Bool.false_eq_true, if_false, Nat.add_zero] at hm
  unfold lexAt
  rw [lexRun, h]
  simp only [if_neg hl]
  rw [lexRun_fuel _ (s'.length + 2) s' p' (by omega) (by omega)]

theorem lexAt_nil (p : Nat) : lexAt [] p = [] := rfl

theorem lexAt_no_eof (s : List Char) (p : Nat) : .eof ∉ lexAt s p := by
  have h : ∀ n t, Lexeme.eof ∉ lexRun n t := by
    intro n
    induction n with
    | zero => intro t; simp [lexRun]
    | succ n ih =>
      intro t
      rw [lexRun]
      simp only
      split
      · simp
      · rename_i hne
        simp only [List.mem_cons, not_or]
        exact ⟨fun e => hne e.symm, ih _⟩
  exact h _ _

theorem next_blank {c : Char} (hc : isBlank c = true) (s : List Char) (p : Nat) :
    Tok.next ⟨c :: s, p, none⟩ = Tok.emit ⟨c :: s, p, none⟩ .whitespace (c :: s.takeWhile isBlank)
      (s.dropWhile isBlank) none := by
  have : ∀ d, isBlank d = true → (d :: s).takeWhile isBlank = d :: s.takeWhile isBlank ∧
      (d :: s).dropWhile isBlank = s.dropWhile isBlank := by
    intro d hd; simp [hd]
  rcases (isBlank_iff c).1 hc with rfl | rfl <;>
    (unfold Tok.next; simp [isBlank, Tok.emit])

theorem skipWs_blank {c : Char} (hc : isBlank c = true) (s : List Char) (p : Nat) :
    Tok.skipWs ⟨c :: s, p, none⟩ = Tok.skipWs ⟨s, p + 1, none⟩ := by
  have hsize : c.utf8Size = 1 := by rcases (isBlank_iff c).1 hc with rfl | rfl <;> rfl
  have h1 : Tok.skipWs ⟨c :: s, p, none⟩ =
      ⟨s.dropWhile isBlank, p + 1 + utf8Len (s.takeWhile isBlank), none⟩ := by
    unfold Tok.skipWs
    rw [next_blank hc]
    simp [Tok.emit, hsize]
    omega
  rw [h1]
  cases s with
  | nil => rfl
  | cons d s =>
    cases hd : isBlank d with
    | true =>
      have hsd : d.utf8Size = 1 := by rcases (isBlank_iff d).1 hd with rfl | rfl <;> rfl
      unfold Tok.skipWs
      rw [next_blank hd]
      simp [Tok.emit, hsd, hd]
    | false =>
      have hne : (Tok.next ⟨d :: s, p + 1, none⟩).1.kind ≠ .whitespace := by
        intro hk
        have hkt := (next_kind ⟨d :: s, p + 1, none⟩ (tokInv_none rfl)).2
        rw [hk] at hkt
        have hst := (next_step ⟨d :: s, p + 1, none⟩).text
        obtain ⟨h2, h3⟩ := hkt
        revert hst h2 h3
        generalize (Tok.next ⟨d :: s, p + 1, none⟩).1.text = tx
        intro hst h2 h3
        cases tx with
        | nil => exact h2 rfl
        | cons x tx =>
          simp only [List.cons_append, List.cons.injEq] at hst
          have := h3 x (by simp)
          rw [hst.1, ← isBlank_iff, hd] at this
          cases this
      rw [skipWs_of_ne hne]
      simp [hd]

theorem lexAt_blank {c : Char} (hc : Blank c) (s : List Char) (p : Nat) :
    lexAt (c :: s) p = lexAt s (p + 1) := by
  have hb := (blank_iff c).1 hc
  have hn : nextLexeme ⟨c :: s, p, none⟩ = nextLexeme ⟨s, p + 1, none⟩ := by
    unfold nextLexeme
    rw [skipWs_blank hb]
  unfold lexAt
  rw [lexRun_fuel (s.length + 2) (s.length + 3) s (p + 1) (by omega) (by omega)]
  show lexRun (s.length + 2 + 1) _ = lexRun (s.length + 2 + 1) _
  rw [lexRun, lexRun, hn]

theorem lexAt_blanks {b : List Char} (hb : Blanks b) (s : List Char) (p : Nat) :
    lexAt (b ++ s) p = lexAt s (p + utf8Len b) := by
  induction b generalizing p with
  | nil => rfl
  | cons c b ih =>
    have hc : Blank c := hb c (by simp)
    have hsize : c.utf8Size = 1 := by rcases hc with rfl | rfl <;> rfl
    rw [List.cons_append, lexAt_blank hc, ih (fun x hx => hb x (by simp [hx])), utf8Len_cons, hsize,
      Nat.add_assoc]

theorem lexAt_lbrace (s : List Char) (p : Nat) : lexAt ('{' :: s) p = .objectStart ⟨p, p + 1⟩ :: lexAt s (p + 1) :=
  lexAt_cons rfl (by simp)
theorem lexAt_rbrace (s : List Char) (p : Nat) : lexAt ('}' :: s) p = .objectEnd ⟨p, p + 1⟩ :: lexAt s (p + 1) :=
  lexAt_cons rfl (by simp)
theorem lexAt_lparen (s : List Char) (p : Nat) : lexAt ('(' :: s) p = .seqStart ⟨p, p + 1⟩ :: lexAt s (p + 1) :=
  lexAt_cons rfl (by simp)
theorem lexAt_rparen (s : List Char) (p : Nat) : lexAt (')' :: s) p = .seqEnd ⟨p, p + 1⟩ :: lexAt s (p + 1) :=
  lexAt_cons rfl (by simp)
theorem lexAt_comma (s : List Char) (p : Nat) : lexAt (',' :: s) p = .comma ⟨p, p + 1⟩ :: lexAt s (p + 1) :=
  lexAt_cons rfl (by simp)
theorem lexAt_newline {n : List Char} (hn : LineBreak n) (s : List Char) (p : Nat) :
    lexAt (n ++ s) p = .newline ⟨p, p + utf8Len n⟩ :: lexAt s (p + utf8Len n) := by
  rcases hn with rfl | rfl <;> exact lexAt_cons rfl (by simp)

theorem notEol_split {r rest : List Char} (hr : ∀ c ∈ r, c ≠ '\n' ∧ c ≠ '\r') (h : AtLineEnd rest) :
    (r ++ rest).takeWhile notEol = r ∧ (r ++ rest).dropWhile notEol = rest := by
  refine takeWhile_append_stop (fun c hc => ?_) (fun c x hx => ?_)
  · have := hr c hc; simp [notEol, this.1, this.2]
  · rcases h with rfl | ⟨y, rfl⟩ | ⟨y, rfl⟩
    · cases hx
    · cases hx; rfl
    · cases hx; rfl

theorem lexAt_comment {t rest : List Char} (ht : CommentText t) (h : AtLineEnd rest) (p : Nat) :
    lexAt (t ++ rest) p = .comment ⟨p, p + utf8Len t⟩ t :: lexAt rest (p + utf8Len t) := by
  obtain ⟨r, rfl, hr, h3⟩ := ht
  obtain ⟨h1, h2⟩ := notEol_split hr h
  have hn : Tok.next ⟨'/' :: '/' :: r ++ rest, p, none⟩ =
      Tok.emit ⟨'/' :: '/' :: r ++ rest, p, none⟩ .lineComment ('/' :: '/' :: r) rest none := by
    have h4 : (r ++ rest).head? ≠ some '/' := by
      cases r with
      | cons x r => simpa using h3
      | nil => rcases h with rfl | ⟨y, rfl⟩ | ⟨y, rfl⟩ <;> simp
    revert h1 h2 h4
    simp only [List.cons_append]
    generalize r ++ rest = u
    intro h1 h2 h4
    unfold Tok.next
    cases u with
    | nil => simp_all
    | cons x u =>
      simp at h4
      simp only [Char.reduceEq, if_false, if_true]
      split
      · rename_i heq; simp at heq; exact absurd heq.1 h4
      · rename_i heq; simp at heq; subst heq; rw [h1, h2]
      · rename_i hh; exact absurd rfl (hh _)
  refine lexAt_cons ?_ (by simp)
  rw [nextLexeme_of_ne (by rw [hn]; simp [Tok.emit]), hn]
  rfl

theorem lexAt_doc {body rest : List Char} (hr : ∀ c ∈ body, c ≠ '\n' ∧ c ≠ '\r') (h : AtLineEnd rest) (p : Nat) :
    lexAt ('/' :: '/' :: '/' :: body ++ rest) p =
      .docComment ⟨p, p + utf8Len ('/' :: '/' :: '/' :: body)⟩ ('/' :: '/' :: '/' :: body) ::
        lexAt rest (p + utf8Len ('/' :: '/' :: '/' :: body)) := by
  obtain ⟨h1, h2⟩ := notEol_split hr h
  have hn : Tok.next ⟨'/' :: '/' :: '/' :: body ++ rest, p, none⟩ =
      Tok.emit ⟨'/' :: '/' :: '/' :: body ++ rest, p, none⟩ .docComment ('/' :: '/' :: '/' :: body) rest none := by
    simp only [List.cons_append]
    unfold Tok.next
    simp only [Char.reduceEq, if_false, if_true, h1, h2]
  refine lexAt_cons ?_ (by simp)
  rw [nextLexeme_of_ne (by rw [hn]; simp [Tok.emit]), hn]
  rfl

/-! ## First characters of tokens -/

/-- The text of the next token begins with the first character. -/
theorem next_text_head (c : Char) (s : List Char) (p : Nat) :
    ∃ r, (Tok.next ⟨c :: s, p, none⟩).1.text = c :: r ∧ (Tok.next ⟨c :: s, p, none⟩).1.kind ≠ .eof := by
  have hk : (Tok.next ⟨c :: s, p, none⟩).1.kind ≠ .eof := by
    intro h
    have := (next_eof_iff ⟨c :: s, p, none⟩).1 h
    simp at this
  have hne := next_none_text (t := ⟨c :: s, p, none⟩) rfl hk
  have hst := (next_step ⟨c :: s, p, none⟩).text
  revert hst hne
  generalize (Tok.next ⟨c :: s, p, none⟩).1.text = tx
  intro hne hst
  cases tx with
  | nil => exact absurd rfl hne
  | cons x tx =>
    simp only [List.cons_append, List.cons.injEq] at hst
    exact ⟨tx, by rw [hst.1], hk⟩

theorem kind_head (c : Char) (s : List Char) (p : Nat) :
    ∃ r, KindText (Tok.next ⟨c :: s, p, none⟩).1.kind (c :: r) := by
  obtain ⟨r, h1, -⟩ := next_text_head c s p
  have := (next_kind ⟨c :: s, p, none⟩ (tokInv_none rfl)).2
  rw [h1] at this
  exact ⟨r, this⟩

theorem next_start (s : List Char) (p : Nat) : (Tok.next ⟨s, p, none⟩).1.start = p := (next_step ⟨s, p, none⟩).start

theorem not_gt_of_head {rest : List Char} (h : ∀ c r, rest = c :: r → c ≠ '>') (p : Nat) :
    (Tok.next ⟨rest, p, none⟩).1.kind ≠ .gt := by
  intro hk
  cases rest with
  | nil => cases hk
  | cons c r =>
    obtain ⟨r', hr⟩ := kind_head c r p
    rw [hk] at hr
    simp [KindText] at hr
    exact h c r rfl hr.1

theorem not_bare_of_head {rest : List Char} (h : ∀ c r, rest = c :: r → isBareChar c = false) (p : Nat) :
    (Tok.next ⟨rest, p, none⟩).1.kind ≠ .bareScalar := by
  intro hk
  cases rest with
  | nil => cases hk
  | cons c r =>
    obtain ⟨r', hr⟩ := kind_head c r p
    rw [hk] at hr
    have h1 := h c r rfl
    have h2 := (isBareChar_iff c).2 (hr.2 c (by simp))
    rw [h1] at h2; cases h2

theorem not_payload_of_head {rest : List Char}
    (h : ∀ c r, rest = c :: r → c ∉ ['{', '(', '"', 'r', '@']) (p : Nat) :
    (Tok.next ⟨rest, p, none⟩).1.kind.isPayload = false := by
  cases rest with
  | nil => rfl
  | cons c r =>
    obtain ⟨r', hr⟩ := kind_head c r p
    have h1 := h c r rfl
    cases hk : (Tok.next ⟨c :: r, p, none⟩).1.kind <;> try rfl
    all_goals
      rw [hk] at hr
      exfalso
      apply h1
    · simp [KindText] at hr; simp [hr]
    · simp [KindText] at hr; simp [hr]
    · simp [KindText] at hr; simp [hr]
    · obtain ⟨n, ns, h2, -⟩ := hr; simp at h2; simp [h2.1]
    · obtain ⟨b, h2, -⟩ := hr; simp at h2; simp [h2.1]
    · obtain ⟨b, n, h2, -⟩ := hr; simp at h2; simp [h2.1]

/-! ## Scalars -/

theorem next_bareText {s rest : List Char} (hs : BareText s) (hr : ∀ c r, rest = c :: r → isBareChar c = false)
    (hq : rest.head? ≠ some '"') (p : Nat) :
    Tok.next ⟨s ++ rest, p, none⟩ =
      (⟨.bareScalar, p, p + utf8Len s, s⟩, ⟨rest, p + utf8Len s, none⟩) := by
  obtain ⟨hall, c, cs, rfl, h1, h2, h3, h4⟩ := hs
  have hbc : ∀ x ∈ c :: cs, isBareChar x = true := fun x hx => (isBareChar_iff x).2 (hall x hx)
  have hsplit := takeWhile_append_stop hbc hr
  have hbare : Tok.bareScalar ⟨c :: cs ++ rest, p, none⟩ =
      (⟨.bareScalar, p, p + utf8Len (c :: cs), c :: cs⟩, ⟨rest, p + utf8Len (c :: cs), none⟩) := by
    simp only [Tok.bareScalar, Tok.emit, hsplit.1, hsplit.2]
  rw [← hbare]
  have hc := hall c (by simp)
  have hb := hc.1
  simp only [bareForbidden, List.mem_cons, List.not_mem_nil, or_false, not_or] at hb h1
  obtain ⟨n1, n2, n3, n4, n5, n6, n7⟩ := hb
  have hw := hc.2
  have hblank : isBlank c = false := by
    cases hb : isBlank c with
    | false => rfl
    | true => rcases (isBlank_iff c).mp hb with rfl | rfl <;> revert hw <;> decide
  have hn1 : c ≠ '\n' := by rintro rfl; revert hw; decide
  have hn2 : c ≠ '\r' := by rintro rfl; revert hw; decide
  have hhead : ∀ x, isBareChar x = true → (cs ++ rest).head? = some x → cs.head? = some x := by
    intro x hx h
    cases cs with
    | cons y ys => simpa using h
    | nil =>
      cases rest with
      | nil => simp at h
      | cons z r => simp at h; subst h; rw [hr z r rfl] at hx; cases hx
  unfold Tok.next
  simp only [List.cons_append]
  rw [if_neg n1, if_neg n2, if_neg n3, if_neg n4, if_neg n5, if_neg n7, if_neg h1.2, if_neg n6]
  by_cases hsl : c = '/'
  · rw [if_pos hsl]
    have : (cs ++ rest).head? ≠ some '/' := fun hx => h2 ⟨hsl, hhead _ rfl hx⟩
    split
    · rename_i heq; rw [heq] at this; simp at this
    · rename_i heq; rw [heq] at this; simp at this
    · rfl
  · rw [if_neg hsl, if_neg, if_neg, if_neg (by simp [hblank]), if_neg hn1, if_neg (fun h => hn2 h.1), if_pos]
    · simp [isBareStart, hw, n1, n2, n3, n4, n5, n6, n7, h1, hsl]
    · rintro ⟨e, h | h⟩
      · exact h3 ⟨e, hhead _ rfl h⟩
      · cases cs with
        | nil => exact hq (by simpa using h)
        | cons y ys =>
          simp at h; subst h
          have := (hall '"' (by simp)).1
          revert this; decide
    · rintro ⟨e, h⟩
      exact h4 ⟨e, hhead _ rfl h⟩

/-- What may follow a bare word, as characters. -/
theorem follows_word {rest : List Char} (h : Follows .word rest) :
    (∀ c r, rest = c :: r → isBareChar c = false) ∧ rest.head? ≠ some '"' ∧
    (∀ c r, rest = c :: r → c ≠ '>') ∧ (∀ c r, rest = c :: r → c ∉ ['{', '(', '"', 'r', '@']) := by
  rcases h with rfl | ⟨c, r, rfl, hc⟩
  · simp
  · simp only [List.mem_cons, List.not_mem_nil, or_false] at hc
    rcases hc with rfl | rfl | rfl | rfl | rfl | rfl | rfl <;>
      (refine ⟨?_, by simp, ?_, ?_⟩ <;> (intro c r h; cases h; decide))

theorem nextLexeme_bareText {s rest : List Char} (hs : BareText s) (hr : Follows .word rest) (p : Nat) :
    nextLexeme ⟨s ++ rest, p, none⟩ = (.scalar ⟨p, p + utf8Len s⟩ s .bare, ⟨rest, p + utf8Len s, none⟩) := by
  obtain ⟨h1, h2, h3, h4⟩ := follows_word hr
  have hn := next_bareText hs h1 h2 p
  rw [nextLexeme_of_ne (by rw [hn]; simp), hn]
  simp only [lexToken]
  rw [if_neg (fun h => not_gt_of_head h3 _ h.1)]
  rfl

theorem nextLexeme_scalarText {v k e s rest} (hs : ScalarText v k e s) (hf : Follows e rest) (p : Nat) :
    nextLexeme ⟨s ++ rest, p, none⟩ = (.scalar ⟨p, p + utf8Len s⟩ v k, ⟨rest, p + utf8Len s, none⟩) := by
  have eq : '"'.utf8Size = 1 := rfl
  have er : 'r'.utf8Size = 1 := rfl
  cases hs with
  | bare hb => exact nextLexeme_bareText hb hf p
  | quoted hb he =>
    rename_i body
    have h := nextLexeme_quoted hb rest p
    rw [processEscapes_complete he] at h
    have hl : p + utf8Len ('"' :: body ++ ['"']) = p + utf8Len body + 2 := by
      simp [eq]; omega
    rw [hl]
    simpa using h
  | raw hn hc =>
    rename_i n
    have h := nextLexeme_raw hn hc rest p
    have hl : p + utf8Len ('r' :: List.replicate n '#' ++ '"' :: v ++ '"' :: List.replicate n '#') =
        p + utf8Len v + 2 * n + 3 := by
      simp [utf8Len_hashes, er, eq]; omega
    rw [hl]
    exact h
  | heredoc hd hl hn hi hls =>
    have h := nextLexeme_heredoc hd hl hn hi hf hls p
    simp only [utf8Len_append, List.append_assoc, List.cons_append, Nat.add_assoc]
      at h ⊢
    simpa [Nat.add_assoc] using h

theorem lexAt_scalar {v k e s rest} (hs : ScalarText v k e s) (hf : Follows e rest) (p : Nat) :
    lexAt (s ++ rest) p = .scalar ⟨p, p + utf8Len s⟩ v k :: lexAt rest (p + utf8Len s) :=
  lexAt_cons (nextLexeme_scalarText hs hf p) (by simp)

/-! ## Units and tags -/

theorem lexAt_unit {rest : List Char} (hf : Follows .word rest) (p : Nat) :
    lexAt ('@' :: rest) p = .unit ⟨p, p + 1⟩ :: lexAt rest (p + 1) := by
  obtain ⟨h1, h2, h3, h4⟩ := follows_word hf
  have hn : Tok.next ⟨'@' :: rest, p, none⟩ = (⟨.at, p, p + 1, ['@']⟩, ⟨rest, p + 1, none⟩) := by
    unfold Tok.next
    simp only [Char.reduceEq, if_false, if_true]
    unfold Tok.atOrTag
    rcases hf with rfl | ⟨c, r, rfl, hc⟩
    · rfl
    · have : isTagStart c = false := by
        simp only [List.mem_cons, List.not_mem_nil, or_false] at hc
        rcases hc with rfl | rfl | rfl | rfl | rfl | rfl | rfl <;> rfl
      simp only [this]
      rfl
  refine lexAt_cons ?_ (by simp)
  rw [nextLexeme_of_ne (by rw [hn]; simp), hn]
  simp only [lexToken]
  rw [if_neg (fun h => not_bare_of_head h1 _ h.2)]
  rfl

theorem scanTagTail_name {t rest : List Char} (ht : ∀ c ∈ t, isTagChar c = true)
    (hr : ∀ c r, rest = c :: r → (isTagChar c = false ∨ c = 'r' ∧ (r.head? = some '#' ∨ r.head? = some '"')))
    (hq : t.getLast? = some 'r' → rest.head? ≠ some '#' ∧ rest.head? ≠ some '"') :
    scanTagTail (t ++ rest) = (t, rest) := by
  induction t with
  | nil =>
    cases rest with
    | nil => rfl
    | cons c r =>
      rw [List.nil_append, scanTagTail]
      by_cases hcr : c = 'r' ∧ (r.head? = some '#' ∨ r.head? = some '"')
      · rw [if_pos hcr]
      · rw [if_neg hcr]
        rcases hr c r rfl with h | h
        · rw [if_neg (by simp [h])]
        · exact absurd h hcr
  | cons c t ih =>
    rw [List.cons_append, scanTagTail, if_neg, if_pos (ht c (by simp)), ih (fun x hx => ht x (by simp [hx]))]
    · intro h
      cases t with
      | nil => simp at h
      | cons d t => exact hq (by simpa using h)
    · rintro ⟨rfl, h⟩
      cases t with
      | nil =>
        have := hq (by simp)
        rcases h with h | h
        · exact this.1 (by simpa using h)
        · exact this.2 (by simpa using h)
      | cons d t =>
        have hd := ht d (by simp)
        rcases h with h | h <;> (simp at h; subst h; revert hd; decide)

theorem tagName_chars {n : List Char} (h : TagName n) :
    ∃ c r, n = c :: r ∧ isTagStart c = true ∧ ∀ x ∈ r, isTagChar x = true := by
  obtain ⟨c, r, rfl, h1, h2⟩ := h
  refine ⟨c, r, rfl, ?_, fun x hx => ?_⟩
  · simpa [isTagStart] using h1
  · simpa [isTagChar, or_assoc] using h2 x hx

theorem next_tag {n rest : List Char} (h : TagName n)
    (hr : ∀ c r, rest = c :: r → (isTagChar c = false ∧ c ≠ '/' ∨ c = 'r' ∧ (r.head? = some '#' ∨ r.head? = some '"')))
    (hq : n.tail.getLast? = some 'r' → rest.head? ≠ some '#' ∧ rest.head? ≠ some '"') (p : Nat) :
    Tok.next ⟨'@' :: n ++ rest, p, none⟩ =
      (⟨.tag, p, p + utf8Len ('@' :: n), '@' :: n⟩, ⟨rest, p + utf8Len ('@' :: n), none⟩) := by
  obtain ⟨c, r, rfl, h1, h2⟩ := tagName_chars h
  have hs : scanTagSegment (c :: r ++ rest) = (c :: r, rest) := by
    rw [List.cons_append, scanTagSegment]
    rw [scanTagTail_name h2 (fun c r e => (hr c r e).imp (·.1) id) hq]
  have hch : scanTagChain rest.length rest = ([], rest) := by
    cases rest with
    | nil => rfl
    | cons d rest =>
      have : d ≠ '/' := by
        rcases hr d rest rfl with h | h
        · exact h.2
        · rw [h.1]; decide
      simp only [List.length_cons]
      unfold scanTagChain
      split
      · cases ‹_ + 1 = 0›
      · rename_i heq; simp at heq; exact absurd heq.1 this
      · rfl
  show Tok.next ⟨'@' :: (c :: r ++ rest), p, none⟩ = _
  unfold Tok.next
  simp only [Char.reduceEq, if_false, if_true]
  unfold Tok.atOrTag
  rw [List.cons_append] at hs ⊢
  simp only [h1, if_true, hs, hch]
  simp [Tok.emit]

theorem isTagChar_word {rest : List Char} (hf : Follows .word rest) :
    ∀ c r, rest = c :: r → isTagChar c = false ∧ c ≠ '/' := by
  intro c r h
  rcases hf with rfl | ⟨d, r', rfl, hc⟩
  · cases h
  · cases h
    simp only [List.mem_cons, List.not_mem_nil, or_false] at hc
    rcases hc with rfl | rfl | rfl | rfl | rfl | rfl | rfl <;> decide

theorem no_slash {n : List Char} (h : TagName n) : '/' ∉ n := by
  obtain ⟨c, r, rfl, h1, h2⟩ := tagName_chars h
  intro hm
  rcases List.mem_cons.1 hm with rfl | hm
  · revert h1; decide
  · have := h2 _ hm; revert this; decide

theorem splitSlashAt_name {n : List Char} (h : '/' ∉ n) : splitSlashAt n = [n] := by
  induction n with
  | nil => rfl
  | cons c n ih =>
    have h1 : c ≠ '/' := fun e => h (by simp [e])
    have h2 := ih (fun hm => h (by simp [hm]))
    unfold splitSlashAt
    split
    · rename_i heq; simp at heq
    · rename_i heq; simp at heq; exact absurd heq.1 h1
    · rename_i heq; simp only [List.cons.injEq] at heq; obtain ⟨rfl, rfl⟩ := heq; rw [h2]

theorem containsSlashAt_name {n : List Char} (h : '/' ∉ n) : containsSlashAt n = false := by
  induction n with
  | nil => rfl
  | cons c n ih =>
    have h1 : c ≠ '/' := fun e => h (by simp [e])
    have h2 := ih (fun hm => h (by simp [hm]))
    unfold containsSlashAt
    split
    · rename_i heq; simp at heq; exact absurd heq.1 h1
    · rename_i heq; simp only [List.cons.injEq] at heq; obtain ⟨rfl, rfl⟩ := heq; exact h2
    · rfl

theorem validTag {n : List Char} (h : TagName n) : isValidTagName n = true := by
  obtain ⟨c, r, rfl, h1, h2⟩ := tagName_chars h
  simpa [isValidTagName, h1] using h2

theorem lexAt_tag {n rest : List Char} (h : TagName n) (hf : Follows .word rest) (p : Nat) :
    lexAt ('@' :: n ++ rest) p =
      .tag ⟨p, p + utf8Len ('@' :: n)⟩ n false :: lexAt rest (p + utf8Len ('@' :: n)) := by
  obtain ⟨h1, h2, h3, h4⟩ := follows_word hf
  have hn := next_tag h (fun c r e => .inl (isTagChar_word hf c r e)) (fun _ => by
    constructor
    · intro e
      cases rest with
      | nil => cases e
      | cons c r => simp at e; subst e; have := h1 _ _ rfl; revert this; decide
    · exact h2) p
  refine lexAt_cons ?_ (by simp)
  rw [nextLexeme_of_ne (by rw [hn]; simp), hn]
  simp only [lexToken]
  rw [if_neg (fun h => not_bare_of_head h1 _ h.2.2)]
  simp only [List.drop_succ_cons, List.drop_zero, containsSlashAt_name (no_slash h), not_payload_of_head h4,
    Bool.and_false, Bool.or_false]
  rfl

/-- A tag directly followed by the text of a payload. -/
theorem lexAt_tagPayload {n s rest : List Char} (h : TagName n) (hp : PayloadStart n s) (p : Nat)
    (hk : ∀ q, (Tok.next ⟨s ++ rest, q, none⟩).1.kind.isPayload = true) :
    lexAt ('@' :: n ++ (s ++ rest)) p =
      .tag ⟨p, p + utf8Len ('@' :: n)⟩ n true :: lexAt (s ++ rest) (p + utf8Len ('@' :: n)) := by
  obtain ⟨c, r, rfl, hc⟩ := hp
  have hn := next_tag (rest := c :: r ++ rest) h (by
    intro c' r' e
    simp only [List.cons_append, List.cons.injEq] at e
    obtain ⟨rfl, rfl⟩ := e
    rcases hc with rfl | rfl | ⟨rfl, -⟩ | ⟨rfl, h1⟩
    · exact .inl (by decide)
    · exact .inl (by decide)
    · exact .inl (by decide)
    · refine .inr ⟨rfl, ?_⟩
      cases r with
      | nil => simp at h1
      | cons y ys => simpa using h1) (by
    intro e
    rcases hc with rfl | rfl | ⟨rfl, h1⟩ | ⟨rfl, h1⟩
    · simp
    · simp
    · exact absurd e h1
    · simp) p
  refine lexAt_cons ?_ (by simp)
  rw [nextLexeme_of_ne (by rw [hn]; simp), hn]
  simp only [lexToken]
  have hk := hk (p + utf8Len ('@' :: n))
  rw [if_neg (fun h => by rw [h.2.1] at hk; cases hk)]
  simp only [List.drop_succ_cons, List.drop_zero, hk, next_start]
  simp [Token.span]

/-! ## Attribute keys -/

theorem lexAt_attrKey {k s : List Char} (hk : BareText k)
    (hs : ∃ c r, s = c :: r ∧ isBlank c = false ∧ c ≠ '\n' ∧ c ≠ '\r') (p : Nat) :
    lexAt (k ++ '>' :: s) p =
      .attrKey ⟨p, p + utf8Len k + 1⟩ ⟨p, p + utf8Len k⟩ k :: lexAt s (p + utf8Len k + 1) := by
  obtain ⟨c, r, rfl, h1, h2, h3⟩ := hs
  have hn := next_bareText (rest := '>' :: c :: r) hk (by intro c r h; cases h; rfl) (by simp) p
  have hg : Tok.next ⟨'>' :: c :: r, p + utf8Len k, none⟩ =
    (⟨.gt, p + utf8Len k, p + utf8Len k + 1, ['>']⟩, ⟨c :: r, p + utf8Len k + 1, none⟩) := rfl
  obtain ⟨r', hr⟩ := kind_head c r (p + utf8Len k + 1)
  refine lexAt_cons ?_ (by simp)
  rw [nextLexeme_of_ne (by rw [hn]; simp), hn]
  simp only [lexToken, hg]
  rw [if_pos ⟨trivial, trivial⟩, if_neg, if_neg]
  · rfl
  · intro e
    rw [e] at hr
    have := hr.2 c (by simp)
    rw [← isBlank_iff, h1] at this
    cases this
  · rintro (e | e)
    · rw [e] at hr
      rcases hr with hr | hr
      · simp at hr; exact h2 hr.1
      · simp at hr; exact h3 hr.1
    · rw [e] at hr
      cases hr

/-! ## Gaps -/

/-- Lexemes that stand for a gap. -/
def Lexeme.isGap : Lexeme → Bool
  | .newline _ | .comma _ | .comment _ _ => true
  | _ => false

theorem lexAt_gap {commas : Bool} {g : List Char} (hg : Gap commas g) (rest : List Char) (p : Nat) :
    ∃ ls, lexAt (g ++ rest) p = ls ++ lexAt rest (p + utf8Len g) ∧ (∀ l ∈ ls, l.isGap = true) ∧
      (commas = false → ∀ l ∈ ls, ∀ sp, l ≠ .comma sp) := by
  induction hg generalizing p with
  | nil => exact ⟨[], rfl, by simp, by simp⟩
  | blank hc _ ih =>
    rename_i c g _
    have hsize : c.utf8Size = 1 := by rcases hc with rfl | rfl <;> rfl
    obtain ⟨ls, h1, h2, h3⟩ := ih (p + 1)
    exact ⟨ls, by rw [List.cons_append, lexAt_blank hc, h1, utf8Len_cons, hsize, Nat.add_assoc], h2, h3⟩
  | newline hn _ ih =>
    rename_i n g _
    obtain ⟨ls, h1, h2, h3⟩ := ih (p + utf8Len n)
    refine ⟨_ :: ls, by rw [List.append_assoc, lexAt_newline hn, h1, utf8Len_append, ← Nat.add_assoc,
      List.cons_append], ?_, ?_⟩
    · intro l hl
      rcases List.mem_cons.1 hl with rfl | hl
      · rfl
      · exact h2 l hl
    · intro hc l hl
      rcases List.mem_cons.1 hl with rfl | hl
      · simp
      · exact h3 hc l hl
  | comment ht hn _ ih =>
    rename_i t n g _
    obtain ⟨ls, h1, h2, h3⟩ := ih (p + utf8Len t + utf8Len n)
    have hle : AtLineEnd (n ++ (g ++ rest)) := by
      rcases hn with rfl | rfl
      · exact .inr (.inl ⟨_, rfl⟩)
      · exact .inr (.inr ⟨_, rfl⟩)
    refine ⟨_ :: _ :: ls, by rw [List.append_assoc, List.append_assoc, lexAt_comment ht hle, lexAt_newline hn, h1,
      utf8Len_append, utf8Len_append, ← Nat.add_assoc, ← Nat.add_assoc, List.cons_append, List.cons_append], ?_, ?_⟩
    · intro l hl
      simp only [List.mem_cons] at hl
      rcases hl with rfl | rfl | hl
      · rfl
      · rfl
      · exact h2 l hl
    · intro hc l hl
      simp only [List.mem_cons] at hl
      rcases hl with rfl | rfl | hl
      · simp
      · simp
      · exact h3 hc l hl
  | comma hc _ ih =>
    rename_i g _
    obtain ⟨ls, h1, h2, h3⟩ := ih (p + 1)
    have e : ','.utf8Size = 1 := rfl
    refine ⟨_ :: ls, by rw [List.cons_append, lexAt_comma, h1, utf8Len_cons, e, ← Nat.add_assoc, List.cons_append],
      ?_, ?_⟩
    · intro l hl
      rcases List.mem_cons.1 hl with rfl | hl
      · rfl
      · exact h2 l hl
    · intro hf; rw [hc] at hf; cases hf

end Styx
