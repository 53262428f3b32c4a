import Verif.Editor.CodeMirrorNested

/-!
# C114: heredocs in CodeMirror are the tokenizer's heredocs
-/

namespace Styx.Props

open Styx Styx.Editor Styx.Spec Styx.CodeMirror

theorem cm_reads (e op r : List Char) (hu : e.head?.any Char.isUpper = true) :
    TokenizerReads ('<' :: '<' :: e) .heredocStart op r ↔
      (e.takeWhile isDelimChar).length ≤ 16 ∧
      op = '<' :: '<' :: e.takeWhile isDelimChar ++ (scanLang (e.dropWhile isDelimChar)).1 ++
        (scanNewlineOpt (scanLang (e.dropWhile isDelimChar)).2).1 ∧
      r = (scanNewlineOpt (scanLang (e.dropWhile isDelimChar)).2).2 := by
  have hall : ∀ c ∈ e.takeWhile isDelimChar, isDelimChar c = true := fun c hc => mem_takeWhile hc
  have hn : (Tok.new ('<' :: '<' :: e)).next = (Tok.new ('<' :: '<' :: e)).heredocStart e := by
    cases e with
    | nil => simp at hu
    | cons x xs => simp at hu; unfold Tok.next; simp [Tok.new, hu]
  simp only [TokenizerReads, hn]
  unfold Tok.heredocStart
  simp only [utf8Len_delim hall]
  by_cases hlen : (e.takeWhile isDelimChar).length ≤ 16
  · rw [if_neg (by omega)]
    simp only [Tok.emit, hlen, true_and]
    grind
  · rw [if_pos (by omega)]
    simp [Tok.emit, hlen]

theorem cm_shape {text op : List Char} {d lang nl r : List Char} (hop : OpeningParts op d lang nl)
    (ht : (Tok.new text).next.1.text = op)
    (hr : (Tok.new text).next.2.remaining = r) :
    ∃ e, text = '<' :: '<' :: e ∧ e.head?.any Char.isUpper = true := by
  have happ : (Tok.new text).next.1.text ++ (Tok.new text).next.2.remaining = text := (next_step _).text
  rw [ht, hr, hop.1] at happ
  obtain ⟨c, w, hd, hc, -⟩ := hop.2.1
  refine ⟨d ++ lang ++ nl ++ r, by rw [← happ]; simp, by rw [hd]; simpa using hc⟩

theorem cm_append {d u content close rest : List Char} (h : tokDoc d u = some (content, close, rest)) :
    content ++ close ++ rest = u := by
  unfold tokDoc at h
  split at h
  · simp only [Option.some.injEq, Prod.mk.injEq] at h
    obtain ⟨rfl, rfl, rfl⟩ := h
    simp
  · have happ := scanHeredoc_append d u
    cases hsc : scanHeredoc d u with
    | mk a q =>
      obtain ⟨b, r⟩ := q
      rw [hsc] at h happ
      cases r with
      | none => cases h
      | some i =>
        simp only [Option.some.injEq, Prod.mk.injEq] at h
        obtain ⟨rfl, rfl, rfl⟩ := h
        rw [List.append_assoc, List.take_append_drop]
        exact happ

/-- The parts of an opening that the tokenizer reads. -/
theorem cm_parts {e op d lang nl : List Char} (hu : e.head?.any Char.isUpper = true) (hp : PairedCR e)
    (hlen : (e.takeWhile isDelimChar).length ≤ 16) (hop : OpeningParts op d lang nl)
    (h : op = '<' :: '<' :: e.takeWhile isDelimChar ++ (scanLang (e.dropWhile isDelimChar)).1 ++
        (scanNewlineOpt (scanLang (e.dropWhile isDelimChar)).2).1) :
    e.takeWhile isDelimChar = d ∧ (scanLang (e.dropWhile isDelimChar)).1 = lang ∧
      (scanNewlineOpt (scanLang (e.dropWhile isDelimChar)).2).1 = nl := by
  subst h
  obtain ⟨a1, a2⟩ := openingParts_scan hop
  obtain ⟨b1, b2⟩ := openingParts_scan (openingParts_of hu hp hlen)
  have hl := b2.symm.trans a2
  simp only [Prod.mk.injEq] at hl
  exact ⟨b1.symm.trans a1, hl.1, hl.2⟩

/-- C114, for texts in which every carriage return starts a line break, delimiters of at most 16
characters and openings with a line break.  Full statement: CodeMirror has a heredoc token exactly where
the tokenizer reads a heredoc, and it ends where the heredoc ends.  False otherwise
(`C114_opening_false`, `C114_return_false`, `C114_long_false`).  Without a closing line the tokenizer
reads the opening and takes all the rest for content; there, the token goes up to the end of the text. -/
theorem C114_token_partial {text : List Char} (hp : PairedCR text) (hs : ShortDelimiter text)
    (rest : List Char) :
    heredocToken text = some rest ↔
      (∃ opening d lang nl content close, OpeningParts opening d lang nl ∧ nl ≠ [] ∧
        TokenizerHeredoc text opening content close rest) ∨
      (rest = [] ∧ ∃ opening d lang nl content, OpeningParts opening d lang nl ∧ nl ≠ [] ∧
        TokenizerUnclosed text opening content) := by
  by_cases hno : ∃ e, text = '<' :: '<' :: e ∧ e.head?.any Char.isUpper = true
  · obtain ⟨e, rfl, hu⟩ := hno
    have hpe := hp.tail.tail
    have hlen : (e.takeWhile isDelimChar).length ≤ 16 :=
      hs _ (e.dropWhile isDelimChar) (by simp [List.takeWhile_append_dropWhile])
        (fun c hc => (isDelimChar_iff c).1 (mem_takeWhile hc))
    rw [heredocToken_eq hu hpe]
    constructor
    · intro h
      split at h
      · cases h
      rename_i hn
      simp only [Option.some.injEq] at h
      split at h
      · rename_i content close rest' htok
        subst h
        exact .inl ⟨_, _, _, _, content, close, openingParts_of hu hpe hlen, hn,
          (tokenizer_heredoc e _ _ _ _ hu).2 ⟨hlen, rfl, htok⟩⟩
      · rename_i htok
        refine .inr ⟨h.symm, _, _, _, _, _, openingParts_of hu hpe hlen, hn,
          (cm_reads e _ _ hu).2 ⟨hlen, rfl, rfl⟩, ?_⟩
        intro content close rest hh
        have := ((tokenizer_heredoc e _ _ _ _ hu).1 hh).2.2
        rw [htok] at this
        cases this
    · rintro (⟨op, d, lang, nl, content, close, hop, hn, htok⟩ | ⟨rfl, op, d, lang, nl, content, hop, hn, hr, hnot⟩)
      · obtain ⟨-, h2, h3⟩ := (tokenizer_heredoc e _ _ _ _ hu).1 htok
        obtain ⟨-, -, rfl⟩ := cm_parts hu hpe hlen hop h2
        rw [if_neg hn, h3]
      · obtain ⟨-, h2, h3⟩ := (cm_reads e _ _ hu).1 hr
        obtain ⟨-, -, rfl⟩ := cm_parts hu hpe hlen hop h2
        rw [if_neg hn]
        cases htd : tokDoc (e.takeWhile isDelimChar) (scanNewlineOpt (scanLang (e.dropWhile isDelimChar)).2).2 with
        | none => rfl
        | some q =>
          obtain ⟨content, close, rest⟩ := q
          exact absurd ((tokenizer_heredoc e _ _ _ _ hu).2 ⟨hlen, h2, htd⟩) (hnot content close rest)
  · rw [heredocToken_none hno]
    constructor
    · intro h; cases h
    · rintro (⟨op, d, lang, nl, content, close, hop, -, -, h2, -⟩ | ⟨-, op, d, lang, nl, content, hop, -, hr, -⟩)
      · exact absurd (cm_shape hop h2 rfl) hno
      · exact absurd (cm_shape hop hr.2.1 hr.2.2) hno

/-- C114, for contents without the two line terminators that only JavaScript knows, the conditions of
`C114_token_partial` and openings with a line break.  Full statement: for every heredoc; it is false with
such a terminator (`C114_separator_false`).  The text that CodeMirror gives to the parser of another
language is the content of the tokenizer's heredoc, and that language is chosen by the name after the
comma.  Without a name no other language is used. -/
theorem C114_nested_partial {text opening d lang nl content close rest : List Char} (hp : PairedCR text)
    (ho : OpeningParts opening d lang nl) (hn : nl ≠ []) (ht : TokenizerHeredoc text opening content close rest)
    (hc : NoSeparator content) :
    text = opening ++ content ++ close ++ rest ∧ heredocToken text = some rest ∧
      nested (opening ++ content ++ close) =
        if 2 ≤ lang.length then some (lang.tail, content) else none := by
  obtain ⟨e, rfl, hu⟩ := cm_shape ho ht.2.1 rfl
  have hpe := hp.tail.tail
  obtain ⟨hlen, h2, h3⟩ := (tokenizer_heredoc e _ _ _ _ hu).1 ht
  obtain ⟨e1, e2, e3⟩ := cm_parts hu hpe hlen ho h2
  have hb := beforeClose_tokDoc (d := e.takeWhile isDelimChar)
    (u := (scanNewlineOpt (scanLang (e.dropWhile isDelimChar)).2).2) (e1 ▸ ho.2.1)
    (((hpe.suffix (List.dropWhile_suffix _)).suffix ⟨_, scanLang_append _⟩).suffix ⟨_, scanNewlineOpt_append _⟩)
  rw [h3] at hb
  have hb := hb hc
  rw [e1] at hb
  refine ⟨?_, ?_, ?_⟩
  · have hbody := cm_append h3
    rw [h2, List.append_assoc _ content close, List.append_assoc _ (content ++ close) rest, hbody]
    simp only [List.cons_append, List.append_assoc, List.cons.injEq, true_and]
    rw [scanNewlineOpt_append, scanLang_append, List.takeWhile_append_dropWhile]
  · rw [heredocToken_eq hu hpe, if_neg (by rw [e3]; exact hn), h3]
  · unfold nested parseHeredocText
    rw [List.append_assoc, openingPattern_eq ho hn]
    match lang with
    | [] => simp
    | [_] => simp
    | _ :: c :: r => simp [hb]

/-- C114.  Without a closing line the other language is given all that follows the opening. -/
theorem C114_nested_unclosed_partial {text opening d lang nl content : List Char} (hp : PairedCR text)
    (ho : OpeningParts opening d lang nl) (hn : nl ≠ []) (ht : TokenizerUnclosed text opening content)
    (hc : NoSeparator content) :
    text = opening ++ content ∧ heredocToken text = some [] ∧
      nested text = if 2 ≤ lang.length then some (lang.tail, content) else none := by
  obtain ⟨e, rfl, hu⟩ := cm_shape ho ht.1.2.1 rfl
  have hpe := hp.tail.tail
  obtain ⟨hlen, h2, h3⟩ := (cm_reads e _ _ hu).1 ht.1
  obtain ⟨e1, e2, e3⟩ := cm_parts hu hpe hlen ho h2
  have hnone : tokDoc (e.takeWhile isDelimChar) (scanNewlineOpt (scanLang (e.dropWhile isDelimChar)).2).2 = none := by
    cases htd : tokDoc (e.takeWhile isDelimChar) (scanNewlineOpt (scanLang (e.dropWhile isDelimChar)).2).2 with
    | none => rfl
    | some q =>
      obtain ⟨content, close, rest⟩ := q
      exact absurd ((tokenizer_heredoc e _ _ _ _ hu).2 ⟨hlen, h2, htd⟩) (ht.2 content close rest)
  have hb := beforeClose_tokDoc (d := e.takeWhile isDelimChar)
    (u := (scanNewlineOpt (scanLang (e.dropWhile isDelimChar)).2).2) (e1 ▸ ho.2.1)
    (((hpe.suffix (List.dropWhile_suffix _)).suffix ⟨_, scanLang_append _⟩).suffix ⟨_, scanNewlineOpt_append _⟩)
  rw [hnone] at hb
  have hb := hb (h3 ▸ hc)
  rw [e1, ← h3] at hb
  have htext : '<' :: '<' :: e = opening ++ content := by
    rw [h2, h3]
    simp only [List.cons_append, List.append_assoc, List.cons.injEq, true_and]
    rw [scanNewlineOpt_append, scanLang_append, List.takeWhile_append_dropWhile]
  refine ⟨htext, ?_, ?_⟩
  · rw [heredocToken_eq hu hpe, if_neg (by rw [e3]; exact hn), hnone]
  · unfold nested parseHeredocText
    rw [htext, openingPattern_eq ho hn]
    match lang with
    | [] => simp
    | [_] => simp
    | _ :: c :: r => simp [hb]

/-- C114 is false for an opening that no line break follows: the tokenizer reads a heredoc, CodeMirror
none. -/
theorem C114_opening_false :
    TokenizerHeredoc (chars! "<<EOT x\nEOT") (chars! "<<EOT") (chars! " x\n") (chars! "EOT") [] ∧
    heredocToken (chars! "<<EOT x\nEOT") = none := by
  refine ⟨⟨rfl, rfl, .inr ⟨by decide, rfl, rfl, rfl, rfl, rfl⟩⟩, rfl⟩

/-- C114 is false for a carriage return alone: CodeMirror closes the heredoc after it. -/
theorem C114_return_false :
    TokenizerHeredoc (chars! "<<E\nx\rE\nE\n") (chars! "<<E\n") (chars! "x\rE\n") (chars! "E") ['\n'] ∧
    heredocToken (chars! "<<E\nx\rE\nE\n") = some (chars! "\nE\n") := by
  refine ⟨⟨rfl, rfl, .inr ⟨by decide, rfl, rfl, rfl, rfl, rfl⟩⟩, rfl⟩

/-- C114 is false for a delimiter of 17 characters: CodeMirror shows a heredoc, the tokenizer reads an
error. -/
theorem C114_long_false :
    heredocToken (chars! "<<ABCDEFGHIJKLMNOPQ\nx\nABCDEFGHIJKLMNOPQ\n") = some ['\n'] ∧
    (Tok.new (chars! "<<ABCDEFGHIJKLMNOPQ\nx\nABCDEFGHIJKLMNOPQ\n")).next.1.kind = .error := by
  refine ⟨rfl, rfl⟩

/-- C114 is false with a line separator (U+2028): the nested language is given a part of the content. -/
theorem C114_separator_false :
    TokenizerHeredoc (chars! "<<E,js\na\u2028E\u2028b\nE") (chars! "<<E,js\n") (chars! "a\u2028E\u2028b\n")
      (chars! "E") [] ∧
    nested (chars! "<<E,js\na\u2028E\u2028b\nE") = some (chars! "js", chars! "a\u2028") := by
  refine ⟨⟨rfl, rfl, .inr ⟨by decide, rfl, rfl, rfl, rfl, rfl⟩⟩, by decide +kernel⟩

/-- Non-vacuity: a heredoc with a hint and an indented closing line. -/
example : ∃ text opening d lang nl content close rest, PairedCR text ∧ ShortDelimiter text ∧
    OpeningParts opening d lang nl ∧ nl ≠ [] ∧ TokenizerHeredoc text opening content close rest ∧
    NoSeparator content ∧ 2 ≤ lang.length ∧ content ≠ [] ∧ rest ≠ [] := by
  refine ⟨chars! "<<EOT,rust\n  fn\n  EOT\nx", chars! "<<EOT,rust\n", chars! "EOT", chars! ",rust", ['\n'],
    chars! "  fn\n", chars! "  EOT", chars! "\nx", ?_, ?_,
    ⟨rfl, ⟨'E', ['O', 'T'], rfl, rfl, by decide, by decide⟩,
      .inr ⟨_, rfl, .inr ⟨'r', ['u', 's', 't'], rfl, rfl, by decide⟩⟩, .inr (.inl rfl)⟩, by decide,
    ⟨rfl, rfl, .inr ⟨by decide, rfl, rfl, rfl, rfl, rfl⟩⟩, by simp [NoSeparator], by decide, by decide, by decide⟩
  · intro a b h
    have : '\r' ∈ (chars! "<<EOT,rust\n  fn\n  EOT\nx") := by rw [h]; simp
    exact absurd this (by decide)
  · intro d rest h hd
    apply Classical.byContradiction
    intro hlong
    have : (chars! "<<EOT,rust\n  fn\n  EOT\nx")[5]? = some d[3] := by
      rw [h]; simp [List.getElem?_append_left, show 3 < d.length by omega]
    have hm := hd d[3] (List.getElem_mem _)
    simp at this
    rw [← this] at hm
    exact absurd hm (by decide)

/-- Non-vacuity: a heredoc without a closing line. -/
example : ∃ text opening d lang nl content, PairedCR text ∧ OpeningParts opening d lang nl ∧ nl ≠ [] ∧
    TokenizerUnclosed text opening content ∧ NoSeparator content ∧ 2 ≤ lang.length ∧ content ≠ [] := by
  refine ⟨chars! "<<EOT,rust\n  fn\n  EO", chars! "<<EOT,rust\n", chars! "EOT", chars! ",rust", ['\n'],
    chars! "  fn\n  EO", ?_,
    ⟨rfl, ⟨'E', ['O', 'T'], rfl, rfl, by decide, by decide⟩,
      .inr ⟨_, rfl, .inr ⟨'r', ['u', 's', 't'], rfl, rfl, by decide⟩⟩, .inr (.inl rfl)⟩, by decide,
    ⟨⟨rfl, rfl, rfl⟩, ?_⟩, by simp [NoSeparator], by decide, by decide⟩
  · intro a b h
    have : '\r' ∈ (chars! "<<EOT,rust\n  fn\n  EO") := by rw [h]; simp
    exact absurd this (by decide)
  · intro content close rest h
    have := ((tokenizer_heredoc (chars! "EOT,rust\n  fn\n  EO") _ _ _ _ rfl).1 h).2.2
    rw [show tokDoc _ _ = none from rfl] at this
    cases this

end Styx.Props
