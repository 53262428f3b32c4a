import Verif.Impl.Spec
import Verif.Impl.Total
import Verif.Parse.EscapeLemmas

/-! # The tokens of shared texts -/

namespace Styx.Impl

open Styx.Spec

/-! ## White space -/

/-- The text does not begin with white space or a comment. -/
def Start (x : List Char) : Prop :=
  x = [] ∨ ∃ c r, x = c :: r ∧ isSpace c = false ∧ ¬ (c = '/' ∧ r.head? = some '/')

theorem skipSpace_start {x : List Char} (h : Start x) (ws nl : Bool) : skipSpace false ws nl x = (ws, nl, x) := by
  rcases h with rfl | ⟨c, r, rfl, h1, h2⟩
  · rfl
  · unfold isSpace at h1
    rw [skipSpace]
    grind

theorem skipSpace_to_start (cm ws nl : Bool) (s : List Char) : Start (skipSpace cm ws nl s).2.2 := by
  induction s generalizing cm ws nl with
  | nil => exact .inl rfl
  | cons c cs ih =>
    rw [skipSpace]
    split
    · exact ih _ _ _
    · split
      · exact ih _ _ _
      · split
        · exact ih _ _ _
        · split
          · exact ih _ _ _
          · refine .inr ⟨c, cs, rfl, ?_, ?_⟩
            · unfold isSpace; grind
            · grind

theorem skipSpace_blanks {b : List Char} (hb : Blanks b) (x : List Char) (ws nl : Bool) :
    skipSpace false ws nl (b ++ x) = skipSpace false (ws || !b.isEmpty) nl x := by
  induction b generalizing ws with
  | nil => simp
  | cons c b ih =>
    rw [List.cons_append, skipSpace]
    have hc := hb c (List.mem_cons_self ..)
    have : (c == ' ' || c == '\t' || c == '\r') = true := by rcases hc with rfl | rfl <;> rfl
    rw [if_neg (by simp), if_pos this, ih fun x hx => hb x (List.mem_cons_of_mem _ hx)]
    simp

theorem skipSpace_comment {r : List Char} (hr : '\n' ∉ r) (x : List Char) (ws nl : Bool) :
    skipSpace true ws nl (r ++ x) = skipSpace true ws nl x := by
  induction r with
  | nil => rfl
  | cons c r ih =>
    rw [List.cons_append, skipSpace, if_pos (by simp; grind)]
    exact ih fun h => hr (List.mem_cons_of_mem _ h)

theorem skipSpace_newline (cm ws nl : Bool) (x : List Char) :
    skipSpace cm ws nl ('\n' :: x) = skipSpace false true true x := by
  rw [skipSpace]
  cases cm <;> rfl

theorem skipSpace_lineBreak {n : List Char} (hn : LineBreak n) (cm ws nl : Bool) (x : List Char) :
    skipSpace cm ws nl (n ++ x) = skipSpace false true true x := by
  rcases hn with rfl | rfl
  · exact skipSpace_newline ..
  · cases cm
    · show skipSpace false true nl ('\n' :: x) = _
      exact skipSpace_newline ..
    · show skipSpace true ws nl ('\n' :: x) = _
      exact skipSpace_newline ..

theorem skipSpace_slashes (ws nl : Bool) (x : List Char) :
    skipSpace false ws nl ('/' :: '/' :: x) = skipSpace true true nl x := by
  rw [skipSpace]
  show skipSpace true true nl ('/' :: x) = _
  rfl

theorem skipSpace_gap {g : List Char} (hg : Gap false g) (x : List Char) (ws nl : Bool) :
    ∃ ws' nl', skipSpace false ws nl (g ++ x) = skipSpace false ws' nl' x := by
  induction hg generalizing ws nl with
  | nil => exact ⟨ws, nl, rfl⟩
  | @blank c g hc _ ih =>
    have := skipSpace_blanks (b := [c]) (by intro a ha; simp at ha; exact ha ▸ hc) (g ++ x) ws nl
    rw [List.cons_append]
    rw [List.singleton_append] at this
    rw [this]
    exact ih _ _
  | @newline n g hn _ ih =>
    rw [List.append_assoc, skipSpace_lineBreak hn]
    exact ih _ _
  | @comment t n g ht hn _ ih =>
    obtain ⟨r, rfl, hr, -⟩ := ht
    rw [List.append_assoc, List.append_assoc, List.cons_append, List.cons_append, skipSpace_slashes,
      skipSpace_comment fun h => (hr _ h).1 rfl, skipSpace_lineBreak hn]
    exact ih _ _
  | comma h => cases h

/-- The flag for line breaks stays set. -/
theorem skipSpace_nl (cm ws : Bool) (s : List Char) : (skipSpace cm ws true s).2.1 = true := by
  induction s generalizing cm ws with
  | nil => rfl
  | cons c cs ih =>
    rw [skipSpace]
    split
    · exact ih _ _
    · split
      · exact ih _ _
      · split
        · exact ih _ _
        · split
          · exact ih _ _
          · rfl

/-! ## White space and commas -/

/-- The text behind white space, comments and commas. -/
def core (cm : Bool) : List Char → List Char
  | [] => []
  | c :: cs =>
    if cm && c != '\n' then core true cs
    else if isSpace c || c == ',' then core false cs
    else if c == '/' && cs.head? == some '/' then core true cs
    else c :: cs

theorem core_skipSpace (cm ws nl : Bool) (s : List Char) : core cm s = core false (skipSpace cm ws nl s).2.2 := by
  induction s generalizing cm ws nl with
  | nil => simp [skipSpace, core]
  | cons c cs ih =>
    rw [skipSpace, core]
    by_cases h1 : (cm && c != '\n') = true
    · rw [if_pos h1, if_pos h1]; exact ih ..
    · rw [if_neg h1, if_neg h1]
      by_cases h2 : (c == ' ' || c == '\t' || c == '\r') = true
      · rw [if_pos h2, if_pos (by unfold isSpace; grind)]; exact ih ..
      · rw [if_neg h2]
        by_cases h3 : (c == '\n') = true
        · rw [if_pos h3, if_pos (by unfold isSpace; grind)]; exact ih ..
        · rw [if_neg h3]
          by_cases h4 : (c == '/' && cs.head? == some '/') = true
          · rw [if_pos h4, if_pos h4, if_neg (by unfold isSpace; grind)]; exact ih ..
          · rw [if_neg h4, if_neg h4]
            by_cases h5 : c = ','
            · subst h5; simp [core, isSpace]
            · rw [if_neg (by unfold isSpace; grind), core, if_neg (by simp), if_neg (by unfold isSpace; grind),
                if_neg h4]

theorem core_comma (r : List Char) : core false (',' :: r) = core false r := by simp [core]

theorem core_start {x : List Char} (h : Start x) (hc : x.head? ≠ some ',') : core false x = x := by
  rcases h with rfl | ⟨c, r, rfl, h1, h2⟩
  · rfl
  · rw [core, if_neg (by simp), if_neg (by simp at hc; simp [h1, hc]), if_neg (by grind)]

theorem core_head (s : List Char) (cm : Bool) : Start (core cm s) ∧ (core cm s).head? ≠ some ',' := by
  induction s generalizing cm with
  | nil => exact ⟨.inl rfl, by simp [core]⟩
  | cons c cs ih =>
    rw [core]
    split
    · exact ih _
    · split
      · exact ih _
      · split
        · exact ih _
        · refine ⟨.inr ⟨c, cs, rfl, ?_, ?_⟩, ?_⟩ <;> grind

theorem core_comment {r : List Char} (hr : '\n' ∉ r) (x : List Char) : core true (r ++ x) = core true x := by
  rw [core_skipSpace true false false, skipSpace_comment hr, ← core_skipSpace]

theorem core_lineBreak {n : List Char} (hn : LineBreak n) (cm : Bool) (x : List Char) :
    core cm (n ++ x) = core false x := by
  rw [core_skipSpace cm false false, skipSpace_lineBreak hn, ← core_skipSpace]

theorem core_slashes (x : List Char) : core false ('/' :: '/' :: x) = core true x := by
  rw [core_skipSpace false false false, skipSpace_slashes, ← core_skipSpace]

theorem core_blanks {b : List Char} (hb : Blanks b) (x : List Char) : core false (b ++ x) = core false x := by
  rw [core_skipSpace false false false, skipSpace_blanks hb, ← core_skipSpace]

theorem core_gap {b : Bool} {g : List Char} (hg : Gap b g) (x : List Char) : core false (g ++ x) = core false x := by
  induction hg with
  | nil => rfl
  | @blank c g hc _ ih =>
    rw [← ih]
    exact core_blanks (b := [c]) (by intro a ha; simp at ha; exact ha ▸ hc) _
  | @newline n g hn _ ih => rw [List.append_assoc, core_lineBreak hn, ih]
  | @comment t n g ht hn _ ih =>
    obtain ⟨r, rfl, hr, -⟩ := ht
    rw [List.append_assoc, List.append_assoc, List.cons_append, List.cons_append, core_slashes,
      core_comment fun h => (hr _ h).1 rfl, core_lineBreak hn, ih]
  | comma _ _ ih => rw [List.cons_append, core_comma, ih]

theorem core_docLines {ls : List (List Char)} {dt : List Char} (h : DocLines ls dt) (x : List Char) :
    core false (dt ++ x) = core false x := by
  induction h with
  | nil => rfl
  | @cons l body n g ls t hb hl hn hg _ ih =>
    have hbody : '\n' ∉ '/' :: body := by
      rcases hb with rfl | ⟨rfl, -⟩ <;> simp <;> exact fun h => (hl _ h).1 rfl
    simp only [List.append_assoc, List.cons_append]
    rw [core_slashes, ← List.cons_append, core_comment hbody, core_lineBreak hn, core_gap hg, ih]

theorem core_trailing {tr t : List Char} (h : Trailing tr) (he : tr = [] ∨ AtLineEnd t) :
    core false (tr ++ t) = core false t := by
  cases h with
  | none => rfl
  | @comment b c hb hc =>
    obtain ⟨r, rfl, hr, -⟩ := hc
    rw [List.append_assoc, core_blanks hb, List.cons_append, List.cons_append, core_slashes,
      core_comment fun h => (hr _ h).1 rfl]
    rcases he with he | rfl | ⟨r', rfl⟩ | ⟨r', rfl⟩
    · simp at he
    · rfl
    · exact (core_lineBreak (.inl rfl) true r').trans (core_lineBreak (.inl rfl) false r').symm
    · exact (core_lineBreak (.inr rfl) true r').trans (core_lineBreak (.inr rfl) false r').symm

/-! ## Scalars -/

theorem special_not_bare {c : Char} (h1 : c ∉ bareForbidden) (h2 : isWhitespace c = false) : isSpecial c = false := by
  unfold bareForbidden at h1
  unfold isSpecial
  have hs : c ≠ ' ' := by rintro rfl; revert h2; decide
  have ht : c ≠ '\t' := by rintro rfl; revert h2; decide
  have hn : c ≠ '\n' := by rintro rfl; revert h2; decide
  have hr : c ≠ '\r' := by rintro rfl; revert h2; decide
  grind

/-- What ends a bare word. -/
def WordEnd (rest : List Char) : Prop := rest = [] ∨ ∃ c r, rest = c :: r ∧ isSpecial c = true ∧ c ≠ '"'

theorem takeWhile_all {p : Char → Bool} {s rest : List Char} (h : ∀ c ∈ s, p c = true)
    (hr : rest = [] ∨ ∃ c r, rest = c :: r ∧ p c = false) :
    (s ++ rest).takeWhile p = s ∧ (s ++ rest).dropWhile p = rest := by
  induction s with
  | nil =>
    rcases hr with rfl | ⟨c, r, rfl, hc⟩
    · exact ⟨rfl, rfl⟩
    · simp [hc]
  | cons c s ih =>
    have := ih fun x hx => h x (List.mem_cons_of_mem _ hx)
    simp [h c (List.mem_cons_self ..), this]

theorem lex_bare (d : Dialect) (ws nl : Bool) {s rest : List Char} (h : BareText s) (hr : WordEnd rest) :
    readToken d ws nl (s ++ rest) = .ok (⟨.scalar, s, ws, nl⟩, rest) := by
  have hall : ∀ c ∈ s, (!isSpecial c) = true := fun c hc => by
    rw [special_not_bare (h.1 c hc).1 (h.1 c hc).2]; rfl
  obtain ⟨h1, h2⟩ := takeWhile_all (p := fun c => !isSpecial c) (rest := rest) hall
    (by rcases hr with rfl | ⟨c, r, rfl, hc, -⟩
        · exact .inl rfl
        · exact .inr ⟨c, r, rfl, by simp [hc]⟩)
  obtain ⟨hb, c, r, rfl, g1, g2, g3, g4⟩ := h
  have hc := hb c (List.mem_cons_self ..)
  have hcf := hc.1
  unfold bareForbidden at hcf
  have hnext : ∀ a, isSpecial a = false → (r ++ rest).head? = some a → r.head? = some a := by
    intro a ha hh
    cases r with
    | nil =>
      rcases hr with rfl | ⟨x, y, rfl, hx, -⟩
      · simp at hh
      · simp at hh; subst hh; rw [hx] at ha; cases ha
    | cons => simpa using hh
  have hq : (r ++ rest).head? ≠ some '"' := by
    intro hh
    cases r with
    | nil =>
      rcases hr with rfl | ⟨x, y, rfl, -, hx⟩
      · simp at hh
      · simp at hh; exact hx hh
    | cons x r =>
      have : x = '"' := by simpa using hh
      subst this
      exact (hb '"' (by simp)).1 (by decide)
  rw [List.cons_append] at h1 h2 ⊢
  rw [readToken]
  rw [if_neg (by grind), if_neg (by grind), if_neg (by grind), if_neg (by grind), if_neg (by grind), if_neg (by grind),
    if_neg (by grind), if_neg (by grind), if_neg, if_neg, h1, h2]
  · have := hnext '<' (by decide); grind
  · have := hnext '#' (by decide); grind

theorem codePoint_hex (d : Dialect) {h : List Char} {c : Char} (hne : h ≠ []) (hh : HexNumber h c.toNat) :
    codePoint d h = .ok c := by
  obtain ⟨h1, h2⟩ := hexNumber_iff.1 hh
  have hall := List.all_eq_true.1 h1
  have hch : charFromU32 (hexNat h) = some c := charFromU32_some.2 h2
  have hund : '_' ∉ h := fun hm => absurd (hall _ hm) (by decide)
  cases d with
  | python =>
    have hf : h.filter (· != '_') = h := by
      rw [List.filter_eq_self]
      intro a ha
      simp only [bne_iff_ne]
      rintro rfl
      exact hund ha
    have hz : (h.zip h.tail).contains ('_', '_') = false := by
      rw [Bool.eq_false_iff]
      intro hm
      rw [List.contains_iff_mem] at hm
      exact hund (List.of_mem_zip hm).1
    have hhd : (h.head? != some '_') = true := by
      simp only [bne_iff_ne]
      exact fun e => hund (List.mem_of_head? e)
    have hlast : (h.getLast? != some '_') = true := by
      simp only [bne_iff_ne]
      exact fun e => hund (List.mem_of_getLast? e)
    have : pyInt h = some (hexNat h) := by
      unfold pyInt
      simp only [hf, hz, hhd, hlast, h1]
      cases h with
      | nil => exact (hne rfl).elim
      | cons => rfl
    simp only [codePoint, this, hch]
  | javascript =>
    have ht : h.takeWhile isHexDigit = h := by
      have := (takeWhile_all (p := isHexDigit) (s := h) (rest := []) hall (.inl rfl)).1
      simpa using this
    have : jsInt h = some (hexNat h) := by
      unfold jsInt
      simp only [ht]
      cases h with
      | nil => exact (hne rfl).elim
      | cons => rfl
    simp only [codePoint, this, hch]
  | go =>
    have : ∀ (l : List Char) (n : Nat), (∀ x ∈ l, isHexDigit x = true) →
        l.foldl (fun n c => 16 * n + if isHexDigit c then hexVal c else 0) n =
          l.foldl (fun n c => 16 * n + hexVal c) n := by
      intro l
      induction l with
      | nil => intros; rfl
      | cons x l ih =>
        intro n hx
        rw [List.foldl_cons, List.foldl_cons, if_pos (hx x (List.mem_cons_self ..))]
        exact ih _ fun y hy => hx y (List.mem_cons_of_mem _ hy)
    have hg : goInt h = hexNat h := this h 0 hall
    simp only [codePoint, hg, hch]
    rfl

theorem quotedBody_hex {h raw : List Char} (hh : h.all isHexDigit = true) (hq : QuotedBody (h ++ raw)) :
    QuotedBody raw := by
  induction h with
  | nil => exact hq
  | cons c h ih =>
    simp only [List.all_cons, Bool.and_eq_true] at hh
    rw [List.cons_append] at hq
    generalize hx : c :: (h ++ raw) = x at hq
    cases hq with
    | nil => cases hx
    | plain _ _ hq => cases hx; exact ih hh.2 hq
    | esc =>
      simp only [List.cons.injEq] at hx
      rw [hx.1] at hh
      exact absurd hh.1 (by decide)

theorem readQuoted_skip (d : Dialect) (h x : List Char) : readQuoted d h.length (h ++ x) = readQuoted d 0 x := by
  induction h with
  | nil => rfl
  | cons c h ih => rw [List.length_cons, List.cons_append, readQuoted]; exact ih

theorem lex_quotedBody (d : Dialect) {body v : List Char} (he : Escaped body v) (hq : QuotedBody body)
    (hn : '\n' ∉ body) (hr : '\r' ∉ body) (rest : List Char) :
    readQuoted d 0 (body ++ '"' :: rest) = .ok (v, rest) := by
  induction he with
  | nil => rfl
  | @plain c raw v hc _ ih =>
    generalize hx : c :: raw = x at hq
    cases hq with
    | nil => cases hx
    | esc => cases hx; exact (hc rfl).elim
    | plain h1 _ hq =>
      cases hx
      rw [List.cons_append, readQuoted.eq_def]
      simp only
      rw [if_neg (by simpa using h1), if_neg (by simpa using hc),
        if_neg (by simp at hn hr; grind), ih hq (by grind) (by grind)]
      rfl
  | @simple e x raw v hp _ ih =>
    generalize hx : '\\' :: e :: raw = y at hq
    cases hq with
    | nil => cases hx
    | plain _ h => cases hx; exact (h rfl).elim
    | esc hq =>
      cases hx
      have hs : simpleEscape e = some x := by
        simp only [List.mem_cons, Prod.mk.injEq, List.not_mem_nil, or_false] at hp
        rcases hp with ⟨rfl, rfl⟩ | ⟨rfl, rfl⟩ | ⟨rfl, rfl⟩ | ⟨rfl, rfl⟩ | ⟨rfl, rfl⟩ <;> rfl
      rw [List.cons_append, List.cons_append, readQuoted, if_neg (by decide), if_pos (by rfl)]
      simp only [hs]
      rw [readQuoted, ih hq (by grind) (by grind)]
      rfl
  | @four h c raw v hl hh _ ih =>
    obtain ⟨h1, h2⟩ := hexNumber_iff.1 hh
    have hne : h ≠ [] := by rintro rfl; cases hl
    generalize hx : '\\' :: 'u' :: h ++ raw = y at hq
    cases hq with
    | nil => cases hx
    | plain _ h => cases hx; exact (h rfl).elim
    | esc hq =>
      simp only [List.cons_append, List.cons.injEq, true_and] at hx
      obtain ⟨rfl, rfl⟩ := hx
      have hq := quotedBody_hex h1 hq
      have hu : readUnicode d (h ++ (raw ++ '"' :: rest)) = .ok (c, 4) := by
        have htake : (h ++ (raw ++ '"' :: rest)).take 4 = h := by
          rw [← hl]; simp
        unfold readUnicode
        split
        · rename_i r hr'
          cases h with
          | nil => exact (hne rfl).elim
          | cons a h =>
            simp only [List.cons_append, List.cons.injEq] at hr'
            rw [hr'.1] at h1
            simp only [List.all_cons, Bool.and_eq_true] at h1
            exact absurd h1.1 (by decide)
        · rw [htake, codePoint_hex d hne hh]; rfl
      simp only [List.cons_append, List.append_assoc]
      rw [readQuoted, if_neg (by decide), if_pos (by rfl)]
      simp only [show simpleEscape 'u' = none from rfl, hu]
      rw [if_pos (by rfl)]
      have : readQuoted d (4 + 1) ('u' :: (h ++ (raw ++ '"' :: rest))) = readQuoted d 0 (raw ++ '"' :: rest) := by
        rw [readQuoted, ← hl]
        exact readQuoted_skip ..
      rw [this, ih hq (by grind) (by grind)]
      rfl
  | @braced h c raw v hne hh _ ih =>
    obtain ⟨h1, h2⟩ := hexNumber_iff.1 hh
    generalize hx : '\\' :: 'u' :: '{' :: h ++ '}' :: raw = y at hq
    cases hq with
    | nil => cases hx
    | plain _ h => cases hx; exact (h rfl).elim
    | esc hq =>
      simp only [List.cons_append, List.cons.injEq, true_and] at hx
      obtain ⟨rfl, rfl⟩ := hx
      have hq : QuotedBody raw := by
        generalize hx : '{' :: (h ++ '}' :: raw) = y at hq
        cases hq with
        | nil => cases hx
        | esc => cases hx
        | plain _ _ hq =>
          cases hx
          have := quotedBody_hex h1 hq
          generalize hx : '}' :: raw = y at this
          cases this with
          | nil => cases hx
          | esc => cases hx
          | plain _ _ hq => cases hx; exact hq
      have htw := (takeWhile_all (p := (· != '}')) (s := h) (rest := '}' :: (raw ++ '"' :: rest))
        (fun x hx => by simp only [bne_iff_ne]; rintro rfl; exact hex_not_brace h1 hx)
        (.inr ⟨'}', _, rfl, by rfl⟩)).1
      have hu : readUnicode d ('{' :: (h ++ '}' :: (raw ++ '"' :: rest))) = .ok (c, h.length + 2) := by
        unfold readUnicode
        simp only [htw]
        rw [codePoint_hex d hne hh]; rfl
      simp only [List.cons_append, List.append_assoc]
      rw [readQuoted, if_neg (by decide), if_pos (by rfl)]
      simp only [show simpleEscape 'u' = none from rfl, hu]
      rw [if_pos (by rfl)]
      have : readQuoted d (h.length + 2 + 1) ('u' :: '{' :: (h ++ '}' :: (raw ++ '"' :: rest))) =
          readQuoted d 0 (raw ++ '"' :: rest) := by
        rw [readQuoted, readQuoted, show h.length + 1 = (h ++ ['}']).length by simp,
          show h ++ '}' :: (raw ++ '"' :: rest) = (h ++ ['}']) ++ (raw ++ '"' :: rest) by simp]
        exact readQuoted_skip ..
      rw [this, ih hq (by grind) (by grind)]
      rfl

theorem lex_quoted (d : Dialect) (ws nl : Bool) {body v : List Char} (he : Escaped body v) (hq : QuotedBody body)
    (hn : '\n' ∉ body) (hr : '\r' ∉ body) (rest : List Char) :
    readToken d ws nl ('"' :: body ++ ['"'] ++ rest) = .ok (⟨.quoted, v, ws, nl⟩, rest) := by
  have : '"' :: body ++ ['"'] ++ rest = '"' :: (body ++ '"' :: rest) := by simp
  rw [this]
  show (readQuoted d 0 (body ++ '"' :: rest)).map _ = _
  rw [lex_quotedBody d he hq hn hr]
  rfl

/-! ## Raw strings and heredocs -/

theorem readRaw_spec {n : Nat} {c : List Char} (hc : ∀ a b, c ≠ a ++ '"' :: List.replicate n '#' ++ b)
    (rest : List Char) :
    readRaw ('"' :: List.replicate n '#') (c ++ '"' :: List.replicate n '#' ++ rest) = some (c, rest) := by
  induction c with
  | nil =>
    rw [List.nil_append, List.cons_append, readRaw, if_pos]
    · simp
    · rw [List.isPrefixOf_iff_prefix]
      exact ⟨rest, rfl⟩
  | cons x c ih =>
    rw [List.cons_append, List.cons_append, readRaw, if_neg, ih]
    · rfl
    · intro a b h
      exact hc (x :: a) b (by simp [h])
    · rw [List.isPrefixOf_iff_prefix]
      rintro ⟨u, hu⟩
      simp only [List.cons_append, List.cons.injEq, List.append_assoc] at hu
      obtain ⟨rfl, hu⟩ := hu
      by_cases hl : n ≤ c.length
      · have h1 : c.take n = List.replicate n '#' := by
          have := congrArg (List.take n) hu
          rw [List.take_left' (by simp), List.take_append_of_le_length hl] at this
          exact this.symm
        exact hc [] (c.drop n) (by simp [← h1])
      · have h1 := congrArg (fun l => l[c.length]?) hu
        rw [List.getElem?_append_left (by simp; omega), List.getElem?_append_right (Nat.le_refl _)] at h1
        rw [List.getElem?_replicate, if_pos (by omega)] at h1
        simp at h1

theorem lex_raw (d : Dialect) (ws nl : Bool) {n : Nat} {c : List Char}
    (hc : ∀ a b, c ≠ a ++ '"' :: List.replicate n '#' ++ b) (rest : List Char) :
    readToken d ws nl ('r' :: List.replicate n '#' ++ '"' :: c ++ '"' :: List.replicate n '#' ++ rest) =
      .ok (⟨.raw, c, ws, nl⟩, rest) := by
  have hx : 'r' :: List.replicate n '#' ++ '"' :: c ++ '"' :: List.replicate n '#' ++ rest =
      'r' :: (List.replicate n '#' ++ '"' :: (c ++ '"' :: List.replicate n '#' ++ rest)) := by simp
  rw [hx]
  obtain ⟨h1, -⟩ := takeWhile_all (p := (· == '#')) (s := List.replicate n '#')
    (rest := '"' :: (c ++ '"' :: List.replicate n '#' ++ rest)) (by simp) (.inr ⟨_, _, rfl, rfl⟩)
  have hhead : ((List.replicate n '#' ++ '"' :: (c ++ '"' :: List.replicate n '#' ++ rest)).head? == some '"' ||
      (List.replicate n '#' ++ '"' :: (c ++ '"' :: List.replicate n '#' ++ rest)).head? == some '#') = true := by
    cases n with
    | zero => rfl
    | succ n => rfl
  rw [readToken]
  rw [if_neg (by decide), if_neg (by decide), if_neg (by decide), if_neg (by decide), if_neg (by decide),
    if_neg (by decide), if_neg (by decide), if_neg (by decide), if_pos (by rw [hhead]; rfl)]
  simp only [h1, List.length_replicate]
  rw [List.drop_left' (by simp), List.drop_one, List.tail_cons, readRaw_spec hc]

theorem delimiter_no {d : List Char} (h : Delimiter d) {c : Char} (hc : c.isUpper = false) (hc' : c.isDigit = false)
    (hc'' : c ≠ '_') : c ∉ d := by
  obtain ⟨x, r, rfl, h1, h2, -⟩ := h
  intro hm
  rcases List.mem_cons.1 hm with rfl | hm
  · rw [h1] at hc; cases hc
  · rcases h2 _ hm with h | h | h
    · rw [h] at hc; cases hc
    · rw [h] at hc'; cases hc'
    · exact hc'' h

theorem splitLines_line {l : List Char} (h : '\n' ∉ l) (x : List Char) :
    splitLines (l ++ '\n' :: x) = l :: splitLines x := by
  induction l with
  | nil => rfl
  | cons c l ih =>
    rw [List.cons_append, splitLines, if_neg (by simp; grind), ih (by grind)]

theorem splitLines_unlines {ls : List (List Char)} (h : ∀ l ∈ ls, '\n' ∉ l) : splitLines (unlines ls) = ls ++ [[]] := by
  induction ls with
  | nil => rfl
  | cons l ls ih =>
    rw [unlines, List.flatMap_cons, List.append_assoc, List.singleton_append, splitLines_line (h l (List.mem_cons_self ..))]
    rw [← unlines, ih fun l hl => h l (List.mem_cons_of_mem _ hl)]
    rfl

theorem joinLines_unlines (ls : List (List Char)) : joinLines (ls ++ [[]]) = unlines ls := by
  induction ls with
  | nil => rfl
  | cons l ls ih =>
    rw [List.cons_append]
    have : joinLines (l :: (ls ++ [[]])) = l ++ '\n' :: joinLines (ls ++ [[]]) := by
      cases ls <;> rfl
    rw [this, ih, unlines, unlines, List.flatMap_cons]
    simp

theorem stripBlanks_eq (n : Nat) (l : List Char) : stripBlanks n l = dedentLine n l := by
  induction n generalizing l with
  | zero => cases l <;> rfl
  | succ n ih =>
    cases l with
    | nil => rfl
    | cons c l =>
      rw [stripBlanks, dedentLine]
      by_cases hc : Blank c
      · rw [if_pos hc, if_pos (by rcases hc with rfl | rfl <;> rfl), ih]
      · rw [if_neg hc, if_neg (by unfold Blank at hc; simpa using hc)]

theorem dedent_unlines (n : Nat) {ls : List (List Char)} (h : ∀ l ∈ ls, '\n' ∉ l) :
    dedent n (unlines ls) = unlines (ls.map (dedentLine n)) := by
  unfold dedent
  rw [splitLines_unlines h, List.map_append, List.map_singleton, show stripBlanks n [] = [] by cases n <;> rfl,
    joinLines_unlines]
  congr 1
  exact List.map_congr_left fun l _ => stripBlanks_eq n l

theorem dropBlanks {ind d : List Char} (hi : Blanks ind) (hd : Delimiter d) :
    (ind ++ d).dropWhile (fun c => c == ' ' || c == '\t') = d := by
  refine (takeWhile_all (p := fun c => c == ' ' || c == '\t') (s := ind) ?_ ?_).2
  · intro c hc; rcases hi c hc with rfl | rfl <;> rfl
  · obtain ⟨c, r, rfl, h1, -⟩ := hd
    refine .inr ⟨c, r, rfl, ?_⟩
    rw [Bool.eq_false_iff]
    intro h
    simp only [Bool.or_eq_true, beq_iff_eq] at h
    rcases h with rfl | rfl <;> exact absurd h1 (by decide)

theorem close_not {d l : List Char} (text : List Char) (h : ¬ ClosingLine d l) : closeHeredoc d text l = none := by
  unfold closeHeredoc
  rw [if_neg, if_neg]
  · intro hs
    refine h ⟨l.takeWhile (fun c => c == ' ' || c == '\t'), ?_, .inl ?_⟩
    · intro c hc
      have : ∀ (x : List Char), c ∈ x.takeWhile (fun c => c == ' ' || c == '\t') → (c == ' ' || c == '\t') = true := by
        intro x
        induction x with
        | nil => simp
        | cons y x ih =>
          rw [List.takeWhile_cons]
          split
          · intro hm
            rcases List.mem_cons.1 hm with rfl | hm
            · assumption
            · exact ih hm
          · simp
      have := this l hc
      simpa [Blank] using this
    · rw [← hs, List.takeWhile_append_dropWhile]
  · intro hl
    exact h ⟨[], by simp, .inl (by simpa using hl)⟩

theorem close_yes {d ind : List Char} {ls : List (List Char)} (hd : Delimiter d) (hi : Blanks ind)
    (hls : ∀ l ∈ ls, '\n' ∉ l) :
    closeHeredoc d (unlines ls) (ind ++ d) = some (unlines (ls.map (dedentLine ind.length))) := by
  unfold closeHeredoc
  split
  · rename_i h
    have : ind = [] := List.self_eq_append_left.1 h.symm
    subst this
    have : ls.map (dedentLine ([] : List Char).length) = ls := by
      conv => rhs; rw [← List.map_id ls]
      exact List.map_congr_left fun l _ => by cases l <;> rfl
    rw [this]
  · simp only [dropBlanks hi hd]
    rw [if_pos trivial, List.length_append, Nat.add_sub_cancel, dedent_unlines _ hls]

theorem heredocLoop_line (d text : List Char) {l : List Char} (line x : List Char) (h : '\n' ∉ l) :
    heredocLoop d line text (l ++ x) = heredocLoop d (line ++ l) text x := by
  induction l generalizing line with
  | nil => simp
  | cons c l ih =>
    rw [List.cons_append, heredocLoop, if_neg (by simp; grind), ih _ (by grind)]
    simp

theorem heredocLoop_spec {d ind : List Char} {ls : List (List Char)} (hd : Delimiter d) (hi : Blanks ind)
    (before : List (List Char)) (hb : ∀ l ∈ before, '\n' ∉ l) (hls : ∀ l ∈ ls, '\n' ∉ l ∧ ¬ ClosingLine d l)
    {rest : List Char} (hr : rest = [] ∨ ∃ r, rest = '\n' :: r) :
    heredocLoop d [] (unlines before) (unlines ls ++ (ind ++ d) ++ rest) =
      some (unlines ((before ++ ls).map (dedentLine ind.length)), rest) := by
  induction ls generalizing before with
  | nil =>
    have hn : '\n' ∉ ind ++ d := by
      intro hm
      rcases List.mem_append.1 hm with hm | hm
      · rcases hi _ hm with h | h <;> cases h
      · exact delimiter_no hd (by decide) (by decide) (by decide) hm
    have hne : ind ++ d ≠ [] := by
      obtain ⟨c, r, rfl, -⟩ := hd
      simp
    rw [show unlines ([] : List (List Char)) = [] from rfl, List.nil_append, heredocLoop_line _ _ _ _ hn, List.nil_append,
      List.append_nil]
    rcases hr with rfl | ⟨r, rfl⟩
    · rw [heredocLoop, if_neg hne, close_yes hd hi hb]
      rfl
    · rw [heredocLoop, if_pos (by rfl), close_yes hd hi hb]
  | cons l ls ih =>
    obtain ⟨h1, h2⟩ := hls l (List.mem_cons_self ..)
    have := ih (before ++ [l]) (by
      intro x hx
      rcases List.mem_append.1 hx with hx | hx
      · exact hb x hx
      · simp at hx; exact hx ▸ h1) fun x hx => hls x (List.mem_cons_of_mem _ hx)
    have he : unlines (l :: ls) ++ (ind ++ d) ++ rest = l ++ '\n' :: (unlines ls ++ (ind ++ d) ++ rest) := by
      rw [unlines, List.flatMap_cons]
      simp [unlines]
    rw [he, heredocLoop_line _ _ _ _ h1, List.nil_append, heredocLoop, if_pos (by rfl), close_not _ h2]
    have hu : unlines before ++ l ++ ['\n'] = unlines (before ++ [l]) := by simp [unlines]
    simp only [hu]
    rw [this]
    simp

theorem lex_heredoc (dl : Dialect) (ws nl : Bool) {d lang ind : List Char} {ls : List (List Char)} (hd : Delimiter d)
    (hlang : LangHint lang) (hi : Blanks ind) (hls : ∀ l ∈ ls, '\n' ∉ l ∧ ¬ ClosingLine d l) {rest : List Char}
    (hr : rest = [] ∨ ∃ r, rest = '\n' :: r) :
    readToken dl ws nl ('<' :: '<' :: d ++ lang ++ ['\n'] ++ unlines ls ++ ind ++ d ++ rest) =
      .ok (⟨.heredoc, unlines (ls.map (dedentLine ind.length)), ws, nl⟩, rest) := by
  have hx : '<' :: '<' :: d ++ lang ++ ['\n'] ++ unlines ls ++ ind ++ d ++ rest =
      '<' :: '<' :: (d ++ (lang ++ '\n' :: (unlines ls ++ (ind ++ d) ++ rest))) := by simp
  rw [hx]
  have hup : ((d ++ (lang ++ '\n' :: (unlines ls ++ (ind ++ d) ++ rest))).head?.map Char.isUpper).getD false = true := by
    obtain ⟨c, r, rfl, h1, -⟩ := hd
    exact h1
  have hnl : '\n' ∉ d ++ lang := by
    intro hm
    rcases List.mem_append.1 hm with hm | hm
    · exact delimiter_no hd (by decide) (by decide) (by decide) hm
    · rcases hlang with rfl | ⟨c, r, rfl, h1, h2⟩
      · cases hm
      · rcases List.mem_cons.1 hm with hm | hm
        · cases hm
        · rcases List.mem_cons.1 hm with rfl | hm
          · exact absurd h1 (by decide)
          · have := h2 _ hm
            revert this; decide
  obtain ⟨h1, h2⟩ := takeWhile_all (p := (· != '\n')) (s := d ++ lang) (rest := '\n' :: (unlines ls ++ (ind ++ d) ++ rest))
    (by intro c hc; simp only [bne_iff_ne]; rintro rfl; exact hnl hc) (.inr ⟨_, _, rfl, by rfl⟩)
  have h3 := (takeWhile_all (p := (· != ',')) (s := d) (rest := lang)
    (by intro c hc; simp only [bne_iff_ne]; rintro rfl
        exact delimiter_no hd (by decide) (by decide) (by decide) hc)
    (by rcases hlang with rfl | ⟨c, r, rfl, -⟩
        · exact .inl rfl
        · exact .inr ⟨_, _, rfl, by rfl⟩)).1
  have hrd : readHeredoc (d ++ (lang ++ '\n' :: (unlines ls ++ (ind ++ d) ++ rest))) =
      some (unlines (ls.map (dedentLine ind.length)), rest) := by
    unfold readHeredoc
    rw [← List.append_assoc, h1, h2]
    simp only [h3, List.drop_one, List.tail_cons]
    exact heredocLoop_spec hd hi [] (by simp) hls hr
  rw [readToken]
  rw [if_neg (by decide), if_neg (by decide), if_neg (by decide), if_neg (by decide), if_neg (by decide),
    if_neg (by decide), if_neg (by decide), if_neg (by decide), if_neg (by simp), if_pos (by rfl), List.tail_cons,
    if_pos hup, hrd]

/-! ## Tags -/

theorem lex_tag (d : Dialect) (ws nl : Bool) {n : List Char} (hn : TagName n) {rest : List Char}
    (hr : rest = [] ∨ ∃ c r, rest = c :: r ∧ isTagChar c = false) :
    readToken d ws nl ('@' :: n ++ rest) = .ok (⟨.tag, n, ws, nl⟩, rest) := by
  have hall : ∀ c ∈ n, isTagChar c = true := by
    obtain ⟨c, r, rfl, h1, h2⟩ := hn
    intro x hx
    unfold isTagChar
    rcases List.mem_cons.1 hx with rfl | hx
    · rcases h1 with h1 | rfl
      · simp [Char.isAlphanum, h1]
      · rfl
    · rcases h2 x hx with h | rfl | rfl
      · simp [h]
      · rfl
      · rfl
  obtain ⟨h1, h2⟩ := takeWhile_all (p := isTagChar) (rest := rest) hall hr
  have hs : ((n ++ rest).head?.map isTagStart).getD false = true := by
    obtain ⟨c, r, rfl, h1, -⟩ := hn
    show isTagStart c = true
    unfold isTagStart
    rcases h1 with h1 | rfl
    · simp [h1]
    · rfl
  rw [List.cons_append, readToken]
  rw [if_neg (by decide), if_neg (by decide), if_neg (by decide), if_neg (by decide), if_neg (by decide),
    if_neg (by decide), if_pos (by rfl), if_pos hs, h1, h2]

theorem lex_at (d : Dialect) (ws nl : Bool) {rest : List Char}
    (hr : rest = [] ∨ ∃ c r, rest = c :: r ∧ isTagStart c = false) :
    readToken d ws nl ('@' :: rest) = .ok (⟨.at, ['@'], ws, nl⟩, rest) := by
  rw [readToken]
  rw [if_neg (by decide), if_neg (by decide), if_neg (by decide), if_neg (by decide), if_neg (by decide),
    if_neg (by decide), if_pos (by rfl), if_neg]
  rcases hr with rfl | ⟨c, r, rfl, hc⟩
  · simp
  · simp [hc]

end Styx.Impl
