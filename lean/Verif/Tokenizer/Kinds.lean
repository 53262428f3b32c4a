import Verif.Tokenizer.Lemmas
import Verif.Tokenizer.Spec

/-! # Helper lemmas: case analysis of `next`, token kinds, progress -/

namespace Styx

open Spec

/-- Case analysis principle for `Tok.next`. -/
theorem next_ind (t : Tok) (P : Token × Tok → Prop)
    (hHere : ∀ h, t.heredoc = some h → P (t.heredocContent h))
    (hEof : t.heredoc = none → t.remaining = [] → P (t.emit .eof [] [] none))
    (hSingle : ∀ k c cs, t.heredoc = none → t.remaining = c :: cs →
      ((k, c) ∈ [(TokenKind.lbrace, '{'), (.rbrace, '}'), (.lparen, '('), (.rparen, ')'),
        (.comma, ','), (.gt, '>'), (.newline, '\n')]) → P (t.emit k [c] cs none))
    (hAt : ∀ cs, t.heredoc = none → t.remaining = '@' :: cs → P (t.atOrTag cs))
    (hQuoted : ∀ cs a b, t.heredoc = none → t.remaining = '"' :: cs →
      scanQuoted cs = (true, a, b) → P (t.emit .quotedScalar ('"' :: a) b none))
    (hQuotedErr : ∀ cs a b, t.heredoc = none → t.remaining = '"' :: cs →
      scanQuoted cs = (false, a, b) → P (t.emit .error ('"' :: a) b none))
    (hDoc : ∀ ds, t.heredoc = none → t.remaining = '/' :: '/' :: '/' :: ds →
      P (t.emit .docComment ('/' :: '/' :: '/' :: ds.takeWhile notEol) (ds.dropWhile notEol) none))
    (hLine : ∀ ds, t.heredoc = none → t.remaining = '/' :: '/' :: ds → ds.head? ≠ some '/' →
      P (t.emit .lineComment ('/' :: '/' :: ds.takeWhile notEol) (ds.dropWhile notEol) none))
    (hHereStart : ∀ d ds, t.heredoc = none → t.remaining = '<' :: '<' :: d :: ds →
      d.isUpper = true → P (t.heredocStart (d :: ds)))
    (hLtErr : ∀ ds, t.heredoc = none → t.remaining = '<' :: '<' :: ds →
      (∀ d, ds.head? = some d → d.isUpper = false) → P (t.emit .error ['<', '<'] ds none))
    (hRaw : ∀ cs, t.heredoc = none → t.remaining = 'r' :: cs →
      (cs.head? = some '#' ∨ cs.head? = some '"') → P (t.rawString cs))
    (hWs : ∀ c cs, t.heredoc = none → t.remaining = c :: cs → isBlank c = true →
      P (t.emit .whitespace (t.remaining.takeWhile isBlank) (t.remaining.dropWhile isBlank) none))
    (hCrlf : ∀ cs, t.heredoc = none → t.remaining = '\r' :: '\n' :: cs →
      P (t.emit .newline ['\r', '\n'] cs none))
    (hBare : ∀ c cs, t.heredoc = none → t.remaining = c :: cs → isBareChar c = true →
      P t.bareScalar)
    (hErr : ∀ c cs, t.heredoc = none → t.remaining = c :: cs →
      (isWhitespace c = true ∨ c = '=') →
      P (t.emit .error [c] cs none)) :
    P t.next := by
  unfold Tok.next
  split
  · exact hHere _ ‹_›
  · rename_i hn
    split
    · exact hEof hn ‹_›
    · rename_i c cs hr
      refine ite_ind P ?_ (fun n1 => ?_)
      · intro h; subst h; exact hSingle _ _ _ hn hr (by simp)
      refine ite_ind P ?_ (fun n2 => ?_)
      · intro h; subst h; exact hSingle _ _ _ hn hr (by simp)
      refine ite_ind P ?_ (fun n3 => ?_)
      · intro h; subst h; exact hSingle _ _ _ hn hr (by simp)
      refine ite_ind P ?_ (fun n4 => ?_)
      · intro h; subst h; exact hSingle _ _ _ hn hr (by simp)
      refine ite_ind P ?_ (fun n5 => ?_)
      · intro h; subst h; exact hSingle _ _ _ hn hr (by simp)
      refine ite_ind P ?_ (fun n6 => ?_)
      · intro h; subst h; exact hSingle _ _ _ hn hr (by simp)
      refine ite_ind P ?_ (fun n7 => ?_)
      · intro h; subst h; exact hAt _ hn hr
      refine ite_ind P ?_ (fun n8 => ?_)
      · intro h; subst h
        split
        · exact hQuoted _ _ _ hn hr ‹_›
        · exact hQuotedErr _ _ _ hn hr ‹_›
      refine ite_ind P ?_ (fun n9 => ?_)
      · intro h; subst h
        split
        · exact hDoc _ hn hr
        · rename_i ds hds
          refine hLine _ hn hr ?_
          intro hh
          cases ds with
          | nil => simp at hh
          | cons x xs => simp only [List.head?_cons, Option.some.injEq] at hh; subst hh
                         exact hds xs rfl
        · exact hBare _ _ hn hr (by decide)
      refine ite_ind P ?_ (fun n10 => ?_)
      · rintro ⟨h, h2⟩; subst h
        cases cs with
        | nil => simp at h2
        | cons x xs =>
          simp only [List.head?_cons, Option.some.injEq] at h2; subst h2
          simp only [List.tail_cons]
          split
          · split
            · exact hHereStart _ _ hn hr ‹_›
            · exact hLtErr _ hn hr (by simp_all)
          · exact hLtErr _ hn hr (by simp)
      refine ite_ind P ?_ (fun n11 => ?_)
      · rintro ⟨h, h2⟩; subst h; exact hRaw _ hn hr h2
      refine ite_ind P ?_ (fun n12 => ?_)
      · intro h; exact hWs _ _ hn hr h
      refine ite_ind P ?_ (fun n13 => ?_)
      · intro h; subst h; exact hSingle _ _ _ hn hr (by simp)
      refine ite_ind P ?_ (fun n14 => ?_)
      · rintro ⟨h, h2⟩; subst h
        cases cs with
        | nil => simp at h2
        | cons x xs =>
          simp only [List.head?_cons, Option.some.injEq] at h2; subst h2
          exact hCrlf _ hn hr
      refine ite_ind P ?_ (fun n15 => ?_)
      · intro h
        refine hBare _ _ hn hr ?_
        simp only [isBareStart, isBareChar, Bool.and_eq_true, Bool.not_eq_true',
          Bool.or_eq_false_iff] at h ⊢
        simp [h]
      · refine hErr _ _ hn hr ?_
        by_cases hw : isWhitespace c = true
        · exact Or.inl hw
        · right
          simp only [isBareStart, Bool.and_eq_true, Bool.not_eq_true', Bool.or_eq_false_iff,
            beq_eq_false_iff_ne, ne_eq] at n15
          simp_all

/-! ## Shapes of scanned texts -/

theorem mem_takeWhile {p : Char → Bool} {s : List Char} {c : Char} (h : c ∈ s.takeWhile p) :
    p c = true :=
  (List.all_eq_true.mp (List.all_takeWhile (p := p) (l := s))) c h

theorem isBlank_iff (c : Char) : isBlank c = true ↔ c = ' ' ∨ c = '\t' := by
  simp [isBlank]

theorem isBareChar_iff (c : Char) :
    isBareChar c = true ↔ c ∉ bareForbidden ∧ isWhitespace c = false := by
  simp [isBareChar, bareForbidden, and_assoc]

theorem scanTagTail_mem (s : List Char) : ∀ c ∈ (scanTagTail s).1, isTagChar c = true := by
  induction s with
  | nil => simp [scanTagTail]
  | cons c cs ih =>
    simp only [scanTagTail]
    split
    · simp
    · split
      · intro x hx
        simp only [List.mem_cons] at hx
        rcases hx with rfl | hx
        · assumption
        · exact ih x hx
      · simp

theorem scanTagSegment_name (c : Char) (cs : List Char) (h : isTagStart c = true) :
    TagName (scanTagSegment (c :: cs)).1 := by
  refine ⟨c, (scanTagTail cs).1, rfl, by simpa [isTagStart] using h, ?_⟩
  intro x hx
  have := scanTagTail_mem cs x hx
  simpa [isTagChar, or_assoc] using this

theorem scanTagChain_names (n : Nat) (s : List Char) :
    ∃ ns : List (List Char), (scanTagChain n s).1 = (ns.map (['/', '@'] ++ ·)).flatten ∧
      ∀ m ∈ ns, TagName m := by
  fun_induction scanTagChain n s with
  | case1 => exact ⟨[], by simp⟩
  | case2 n c cs h a b hab a' b' hab' ih =>
    obtain ⟨ns, h1, h2⟩ := ih
    have hn := scanTagSegment_name c cs h
    simp only [hab] at hn
    simp only [hab'] at h1
    refine ⟨a :: ns, by simp [h1], ?_⟩
    intro m hm
    simp only [List.mem_cons] at hm
    rcases hm with rfl | hm
    · exact hn
    · exact h2 m hm
  | case3 => exact ⟨[], by simp⟩
  | case4 => exact ⟨[], by simp⟩

theorem scanQuoted_body (s : List Char) (a b : List Char) (h : scanQuoted s = (true, a, b)) :
    ∃ body, a = body ++ ['"'] ∧ QuotedBody body := by
  fun_induction scanQuoted s generalizing a b with
  | case1 => simp at h
  | case2 cs => simp only [Prod.mk.injEq] at h; exact ⟨[], by simp [← h.2.1], .nil⟩
  | case3 => simp at h
  | case4 d ds ok a' b' heq hq ih =>
    simp only [Prod.mk.injEq] at h
    obtain ⟨rfl, rfl, rfl⟩ := h
    obtain ⟨body, h1, h2⟩ := ih _ _ heq
    exact ⟨'\\' :: d :: body, by simp [h1], .esc h2⟩
  | case5 c cs h1 h2 ok a' b' heq ih =>
    simp only [Prod.mk.injEq] at h
    obtain ⟨rfl, rfl, rfl⟩ := h
    obtain ⟨body, h3, h4⟩ := ih _ _ heq
    exact ⟨_ :: body, by simp [h3], .plain h1 h2 h4⟩

theorem hashesFollow_iff (n : Nat) (s : List Char) :
    hashesFollow n s = true ↔ ∃ r, s = List.replicate n '#' ++ r := by
  induction n generalizing s with
  | zero => simp [hashesFollow]
  | succ n ih =>
    cases s with
    | nil => simp [hashesFollow, List.replicate_succ]
    | cons c cs =>
      simp only [hashesFollow, List.replicate_succ, List.cons_append, List.cons.injEq]
      split
      · rename_i h; subst h; simp [ih]
      · rename_i h; simp [h]

theorem scanRaw_body (n : Nat) (s a b : List Char) (h : scanRaw n s = (true, a, b)) :
    ∃ body, a = body ++ '"' :: List.replicate n '#' ∧
      ∀ x y, body ≠ x ++ '"' :: List.replicate n '#' ++ y := by
  induction s generalizing a b with
  | nil => simp [scanRaw] at h
  | cons c cs ih =>
    simp only [scanRaw] at h
    split at h
    · rename_i hc
      simp only [Prod.mk.injEq, true_and] at h
      obtain ⟨rfl, rfl⟩ := h
      obtain ⟨rfl, hh⟩ := hc
      obtain ⟨r, rfl⟩ := (hashesFollow_iff _ _).mp hh
      refine ⟨[], by simp, ?_⟩
      intro x y; simp
    · rename_i hc
      simp only [Prod.mk.injEq] at h
      obtain ⟨h1, rfl, rfl⟩ := h
      obtain ⟨body, h3, h4⟩ := ih (scanRaw n cs).2.1 (scanRaw n cs).2.2 (by rw [← h1])
      refine ⟨c :: body, by simp [h3], ?_⟩
      intro x y hxy
      cases x with
      | nil =>
        simp only [List.nil_append, List.cons_append, List.cons.injEq] at hxy
        apply hc
        refine ⟨hxy.1, (hashesFollow_iff _ _).mpr ?_⟩
        have := scanRaw_append n cs
        rw [h3, hxy.2] at this
        refine ⟨y ++ ('"' :: List.replicate n '#') ++ (scanRaw n cs).2.2, ?_⟩
        simpa using this.symm
      | cons z x =>
        simp only [List.cons_append, List.cons.injEq] at hxy
        exact h4 x y (by simpa using hxy.2)

theorem scanHeredoc_content (d s a b : List Char) (i : Nat) (hd : d ≠ [])
    (h : scanHeredoc d s = (a, b, some i)) :
    (∃ r, a = r ++ ['\n']) ∧ findDelim d b = some i := by
  induction s generalizing a b with
  | nil => simp [scanHeredoc] at h
  | cons c cs ih =>
    simp only [scanHeredoc] at h
    split at h
    · rename_i hc
      split at h
      · rename_i j hj
        simp only [Prod.mk.injEq, Option.some.injEq] at h
        obtain ⟨rfl, rfl, rfl⟩ := h
        refine ⟨?_, hj⟩
        rcases hc with rfl | rfl
        · exact ⟨[], rfl⟩
        · obtain ⟨ind, r, h1, _⟩ := findDelim_some hj
          simp [hd] at h1
      · simp only [Prod.mk.injEq] at h
        obtain ⟨rfl, rfl, h3⟩ := h
        obtain ⟨⟨r, hr⟩, h4⟩ := ih (scanHeredoc d cs).1 (scanHeredoc d cs).2.1 (by rw [← h3])
        exact ⟨⟨c :: r, by simp [hr]⟩, h4⟩
    · simp only [Prod.mk.injEq] at h
      obtain ⟨rfl, rfl, h3⟩ := h
      obtain ⟨⟨r, hr⟩, h4⟩ := ih (scanHeredoc d cs).1 (scanHeredoc d cs).2.1 (by rw [← h3])
      exact ⟨⟨c :: r, by simp [hr]⟩, h4⟩

theorem scanHeredoc_none_rest (d s a b : List Char)
    (h : scanHeredoc d s = (a, b, none)) : a = s ∧ b = [] := by
  induction s generalizing a b with
  | nil => simp_all [scanHeredoc]
  | cons c cs ih =>
    simp only [scanHeredoc] at h
    split at h
    · split at h
      · simp at h
      · simp only [Prod.mk.injEq] at h
        obtain ⟨rfl, rfl, h3⟩ := h
        obtain ⟨h1, h2⟩ := ih (scanHeredoc d cs).1 (scanHeredoc d cs).2.1 (by rw [← h3])
        exact ⟨by rw [h1], h2⟩
    · simp only [Prod.mk.injEq] at h
      obtain ⟨rfl, rfl, h3⟩ := h
      obtain ⟨h1, h2⟩ := ih (scanHeredoc d cs).1 (scanHeredoc d cs).2.1 (by rw [← h3])
      exact ⟨by rw [h1], h2⟩

theorem scanLang_shape (s : List Char) :
    (scanLang s).1 = [] ∨ ∃ l, (scanLang s).1 = ',' :: l ∧
        (l = [] ∨ ∃ c r, l = c :: r ∧ c.isLower = true ∧
          ∀ x ∈ r, x.isLower = true ∨ x.isDigit = true ∨ x = '_' ∨ x = '.' ∨ x = '-') := by
  unfold scanLang
  split
  · split
    · split
      · rename_i d ds _ hl
        refine Or.inr ⟨_, rfl, Or.inr ⟨_, _, rfl, hl, ?_⟩⟩
        intro x hx
        simpa [isLangChar, or_assoc] using mem_takeWhile hx
      · exact Or.inr ⟨[], rfl, Or.inl rfl⟩
    · exact Or.inr ⟨[], rfl, Or.inl rfl⟩
  · exact Or.inl rfl

theorem scanNewlineOpt_shape (s : List Char) :
    (scanNewlineOpt s).1 = [] ∨ (scanNewlineOpt s).1 = ['\n'] ∨
    (scanNewlineOpt s).1 = ['\r', '\n'] ∨ (scanNewlineOpt s).1 = ['\r'] := by
  unfold scanNewlineOpt; split <;> simp

/-- Invariant of reachable tokenizer states: an open heredoc has a valid delimiter. -/
def TokInv (t : Tok) : Prop := ∀ h, t.heredoc = some h → Delimiter h.delimiter

theorem tokInv_new (s : List Char) : TokInv (Tok.new s) := by simp [TokInv, Tok.new]

theorem tokInv_none {t : Tok} (h : t.heredoc = none) : TokInv t := by simp [TokInv, h]

theorem isDelimChar_iff (c : Char) :
    isDelimChar c = true ↔ c.isUpper = true ∨ c.isDigit = true ∨ c = '_' := by
  simp [isDelimChar, or_assoc]

theorem delim_of_takeWhile (d : Char) (ds : List Char) (hd : d.isUpper = true)
    (hl : ¬ 16 < utf8Len ((d :: ds).takeWhile isDelimChar)) :
    Delimiter ((d :: ds).takeWhile isDelimChar) := by
  have h1 : isDelimChar d = true := (isDelimChar_iff d).mpr (Or.inl hd)
  have h2 : (d :: ds).takeWhile isDelimChar = d :: ds.takeWhile isDelimChar := by
    simp [h1]
  rw [h2] at hl ⊢
  refine ⟨d, _, rfl, hd, ?_, ?_⟩
  · intro x hx; exact (isDelimChar_iff x).mp (mem_takeWhile hx)
  · have := length_le_utf8Len (d :: ds.takeWhile isDelimChar); omega

theorem Spec.Delimiter.ne_nil {d : List Char} (h : Delimiter d) : d ≠ [] := by
  obtain ⟨c, r, rfl, _⟩ := h; simp

/-- One call keeps the invariant and returns a text that fits its kind. -/
theorem next_kind (t : Tok) (hi : TokInv t) :
    TokInv t.next.2 ∧ KindText t.next.1.kind t.next.1.text := by
  refine next_ind t (fun x => TokInv x.2 ∧ KindText x.1.kind x.1.text) ?_ ?_ ?_ ?_ ?_ ?_ ?_ ?_ ?_
    ?_ ?_ ?_ ?_ ?_ ?_
  · intro h hh
    have hd := hi h hh
    unfold Tok.heredocContent
    split
    · rename_i i hf
      refine ⟨tokInv_none rfl, ?_⟩
      obtain ⟨ind, r, h1, h2, h3, _⟩ := findDelim_some hf
      refine ⟨ind, h.delimiter, ?_, fun c hc => (isBlank_iff c).mp (h3 c hc), hd⟩
      simp only [Tok.emit]
      rw [h1]
      have : i + h.delimiter.length = (ind ++ h.delimiter).length := by simp [h2]
      rw [this, List.take_left']
      rfl
    · split
      · rename_i a b i heq
        obtain ⟨h1, h2⟩ := scanHeredoc_content _ _ _ _ _ hd.ne_nil heq
        refine ⟨?_, h1⟩
        intro h' hh'
        simp only [Tok.emit, Option.some.injEq] at hh'
        subst hh'; exact hd
      · exact ⟨tokInv_none rfl, trivial⟩
  · intro _ _; exact ⟨tokInv_none rfl, rfl⟩
  · intro k c cs _ _ hm
    refine ⟨tokInv_none rfl, ?_⟩
    simp only [List.mem_cons, Prod.mk.injEq, List.not_mem_nil, or_false] at hm
    rcases hm with ⟨rfl, rfl⟩ | ⟨rfl, rfl⟩ | ⟨rfl, rfl⟩ | ⟨rfl, rfl⟩ | ⟨rfl, rfl⟩ | ⟨rfl, rfl⟩ |
      ⟨rfl, rfl⟩
    all_goals first | exact rfl | exact Or.inl rfl
  · intro cs _ _
    unfold Tok.atOrTag
    split
    · split
      · refine ⟨tokInv_none rfl, ?_⟩
        rename_i c cs' _ hc
        obtain ⟨ns, h1, h2⟩ := scanTagChain_names (scanTagSegment (c :: cs')).2.length
          (scanTagSegment (c :: cs')).2
        exact ⟨_, ns, by simp only [Tok.emit]; rw [h1], scanTagSegment_name c cs' hc, h2⟩
      · exact ⟨tokInv_none rfl, rfl⟩
    · exact ⟨tokInv_none rfl, rfl⟩
  · intro cs a b _ _ h
    obtain ⟨body, rfl, hb⟩ := scanQuoted_body _ _ _ h
    exact ⟨tokInv_none rfl, body, rfl, hb⟩
  · intros; exact ⟨tokInv_none rfl, trivial⟩
  · intro ds _ _
    refine ⟨tokInv_none rfl, _, rfl, ?_, ?_⟩ <;>
      · intro h; have := mem_takeWhile h; simp [notEol] at this
  · intro ds _ _ hh
    refine ⟨tokInv_none rfl, _, rfl, ?_, ?_, ?_⟩
    · cases ds with
      | nil => simp
      | cons x xs =>
        simp only [List.takeWhile_cons]
        split
        · simpa using hh
        · simp
    all_goals intro h; have := mem_takeWhile h; simp [notEol] at this
  · intro d ds _ _ hd
    unfold Tok.heredocStart
    simp only
    split
    · exact ⟨tokInv_none rfl, trivial⟩
    · rename_i hl
      have hdel := delim_of_takeWhile d ds hd hl
      refine ⟨?_, _, _, _, rfl, hdel, scanLang_shape _, scanNewlineOpt_shape _⟩
      intro h' hh'
      simp only [Tok.emit, Option.some.injEq] at hh'
      subst hh'; exact hdel
  · intros; exact ⟨tokInv_none rfl, trivial⟩
  · intro cs _ _ _
    unfold Tok.rawString
    simp only
    split
    · split
      · rename_i r2 _ a b heq
        obtain ⟨body, rfl, hb⟩ := scanRaw_body _ _ _ _ heq
        refine ⟨tokInv_none rfl, (cs.takeWhile (· == '#')).length, body, ?_, hb⟩
        have : cs.takeWhile (· == '#') =
            List.replicate (cs.takeWhile (· == '#')).length '#' := by
          apply List.eq_replicate_of_mem
          intro c hc; simpa using mem_takeWhile hc
        simp only [Tok.emit, satHash]
        rw [← this]
        simp
      · exact ⟨tokInv_none rfl, trivial⟩
    · exact ⟨tokInv_none rfl, trivial⟩
  · intro c cs _ hr hb
    refine ⟨tokInv_none rfl, ?_, ?_⟩
    · simp [Tok.emit, hr, hb]
    · intro x hx; exact (isBlank_iff x).mp (mem_takeWhile hx)
  · intro cs _ _; exact ⟨tokInv_none rfl, Or.inr rfl⟩
  · intro c cs _ hr hb
    refine ⟨tokInv_none rfl, ?_, ?_⟩
    · simp [Tok.bareScalar, Tok.emit, hr, hb]
    · intro x hx; exact (isBareChar_iff x).mp (mem_takeWhile hx)
  · intros; exact ⟨tokInv_none rfl, trivial⟩

/-- The progress measure: characters left, plus one while inside a heredoc. -/
def Tok.measure (t : Tok) : Nat := t.remaining.length + (if t.heredoc.isSome then 1 else 0)

theorem Step.length {t t' : Tok} {tok : Token} (h : Step t tok t') :
    tok.text.length + t'.remaining.length = t.remaining.length := by
  rw [← h.text, List.length_append]

/-- A call reports end of input exactly when nothing is left and no heredoc is open. -/
theorem next_eof_iff (t : Tok) :
    t.next.1.kind = .eof ↔ t.remaining = [] ∧ t.heredoc = none := by
  refine next_ind t (fun x => x.1.kind = .eof ↔ t.remaining = [] ∧ t.heredoc = none) ?_ ?_ ?_ ?_ ?_
    ?_ ?_ ?_ ?_ ?_ ?_ ?_ ?_ ?_ ?_
  · intro h hh
    unfold Tok.heredocContent
    split
    · simp [Tok.emit, hh]
    · split <;> simp [Tok.emit, hh]
  · intro h1 h2; simp [Tok.emit, h1, h2]
  · intro k c cs h1 h2 hm
    simp only [List.mem_cons, Prod.mk.injEq, List.not_mem_nil, or_false] at hm
    simp only [Tok.emit, h2]
    rcases hm with ⟨rfl, rfl⟩ | ⟨rfl, rfl⟩ | ⟨rfl, rfl⟩ | ⟨rfl, rfl⟩ | ⟨rfl, rfl⟩ | ⟨rfl, rfl⟩ |
      ⟨rfl, rfl⟩ <;> simp
  · intro cs h1 h2
    unfold Tok.atOrTag
    split
    · split <;> simp [Tok.emit, h2]
    · simp [Tok.emit, h2]
  · intro cs a b h1 h2 _; simp [Tok.emit, h2]
  · intro cs a b h1 h2 _; simp [Tok.emit, h2]
  · intro ds h1 h2; simp [Tok.emit, h2]
  · intro ds h1 h2 _; simp [Tok.emit, h2]
  · intro d ds h1 h2 _
    unfold Tok.heredocStart
    simp only
    split <;> simp [Tok.emit, h2]
  · intro ds h1 h2 _; simp [Tok.emit, h2]
  · intro cs h1 h2 _
    unfold Tok.rawString
    simp only
    split
    · split <;> simp [Tok.emit, h2]
    · simp [Tok.emit, h2]
  · intro c cs h1 h2 _; simp [Tok.emit, h2]
  · intro cs h1 h2; simp [Tok.emit, h2]
  · intro c cs h1 h2 _; simp [Tok.bareScalar, Tok.emit, h2]
  · intro c cs h1 h2 _; simp [Tok.emit, h2]

/-- Every call that does not report end of input decreases the measure. -/
theorem next_measure (t : Tok) (hk : t.next.1.kind ≠ .eof) :
    t.next.2.measure < t.measure := by
  have hne : ∀ (k : TokenKind) (a b : List Char), t.heredoc = none → a ≠ [] →
      a ++ b = t.remaining → (t.emit k a b none).2.measure < t.measure := by
    intro k a b h1 h2 h3
    have := congrArg List.length h3
    have := List.length_pos_iff.mpr h2
    simp [Tok.emit, Tok.measure, h1] at *
    omega
  revert hk
  refine next_ind t (fun x => x.1.kind ≠ .eof → x.2.measure < t.measure) ?_ ?_ ?_ ?_ ?_ ?_ ?_ ?_ ?_
    ?_ ?_ ?_ ?_ ?_ ?_
  · intro h hh _
    have hs := (heredocContent_step t h).length
    unfold Tok.heredocContent at hs ⊢
    split at hs
    · simp only [Tok.emit, Tok.measure, hh] at hs ⊢; simp at hs ⊢; omega
    · split at hs
      · rename_i a b i heq
        simp only [Tok.emit] at hs
        have : a ≠ [] := by
          rintro rfl
          have h2 := scanHeredoc_append h.delimiter t.remaining
          rw [heq] at h2
          simp only [List.nil_append] at h2
          cases hr : t.remaining with
          | nil => rw [hr] at heq; simp [scanHeredoc] at heq
          | cons c cs =>
            rw [hr] at heq
            simp only [scanHeredoc] at heq
            split at heq
            · split at heq <;> simp at heq
            · simp at heq
        have := List.length_pos_iff.mpr this
        simp only [Tok.emit, Tok.measure, hh] at hs ⊢; simp at hs ⊢; omega
      · rename_i a b heq
        simp only [Tok.emit, Tok.measure, hh] at hs ⊢; simp at hs ⊢; omega
  · intro _ _ h; exact absurd rfl h
  · intro k c cs h1 h2 hm _; exact hne _ _ _ h1 (by simp) (by simp [h2])
  · intro cs h1 h2 _
    have hs := (atOrTag_step t cs h2).text
    unfold Tok.atOrTag at hs ⊢
    split
    · split
      · rename_i hc
        simp only [hc, if_true] at hs
        exact hne _ _ _ h1 (by simp) hs
      · exact hne _ _ _ h1 (by simp) (by simp [h2])
    · exact hne _ _ _ h1 (by simp) (by simp [h2])
  · intro cs a b h1 h2 h3 _
    have := scanQuoted_append cs
    rw [h3] at this
    exact hne _ _ _ h1 (by simp) (by simp only at this; simp [h2, this])
  · intro cs a b h1 h2 h3 _
    have := scanQuoted_append cs
    rw [h3] at this
    exact hne _ _ _ h1 (by simp) (by simp only at this; simp [h2, this])
  · intro ds h1 h2 _; exact hne _ _ _ h1 (by simp) (by simp [h2])
  · intro ds h1 h2 _ _; exact hne _ _ _ h1 (by simp) (by simp [h2])
  · intro d ds h1 h2 hd _
    have hs := (heredocStart_step t (d :: ds) h2).length
    unfold Tok.heredocStart at hs ⊢
    simp only at hs ⊢
    split at hs
    · rename_i hc
      simp only [hc, if_true]
      simp only [Tok.emit, Tok.measure, h1] at hs ⊢; simp at hs ⊢; omega
    · rename_i hc
      simp only [hc, if_false]
      simp only [Tok.emit, Tok.measure, h1] at hs ⊢; simp at hs ⊢; omega
  · intro ds h1 h2 _ _; exact hne _ _ _ h1 (by simp) (by simp [h2])
  · intro cs h1 h2 _ _
    have hs := (rawString_step t cs h2).text
    unfold Tok.rawString at hs ⊢
    simp only at hs ⊢
    split
    · rename_i r2 hr
      simp only [hr] at hs
      split
      · rename_i a b heq
        simp only [heq] at hs
        exact hne _ _ _ h1 (by simp) hs
      · rename_i a b heq
        simp only [heq] at hs
        exact hne _ _ _ h1 (by simp) hs
    · exact hne _ _ _ h1 (by simp) (by simp [h2])
  · intro c cs h1 h2 h3 _
    exact hne _ _ _ h1 (by simp [h2, h3]) (by simp)
  · intro cs h1 h2 _; exact hne _ _ _ h1 (by simp) (by simp [h2])
  · intro c cs h1 h2 h3 _
    exact hne _ _ _ h1 (by simp [h2, h3]) (by simp)
  · intro c cs h1 h2 _ _; exact hne _ _ _ h1 (by simp) (by simp [h2])

end Styx
