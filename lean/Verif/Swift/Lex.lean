import Verif.Swift.Terminate
import Verif.Swift.Spec
import Verif.Impl.Lex

/-! # The tokens of the documents of `Verif.Swift.Spec` -/

namespace Styx.Swift

open Styx.Spec
open Styx.Impl (Start takeWhile_all)

/-! ## White space -/

theorem skip_cons {c : Char} (hc : c ≠ '\r') (cm ws nl : Bool) (cs : List Char) :
    skipBlank cm ws nl (c :: cs) =
      if cm && c != '\n' then skipBlank true ws nl cs
      else if c == ' ' || c == '\t' || c == '\r' then skipBlank false true nl cs
      else if c == '\n' then skipBlank false true true cs
      else if c == '/' && cs.head? == some '/' then skipBlank true ws nl cs
      else (ws, nl, c :: cs) := by
  rw [skipBlank.eq_def]
  split
  · rename_i h; cases h
  · rename_i h; cases h; exact (hc rfl).elim
  · rename_i h; cases h; rfl

theorem skip_crlf (cm ws nl : Bool) (cs : List Char) : skipBlank cm ws nl ('\r' :: '\n' :: cs) =
    if cm then skipBlank true ws nl cs else (ws, nl, '\r' :: '\n' :: cs) := by rw [skipBlank]

theorem skip_cr (cm ws nl : Bool) {cs : List Char} (h : cs.head? ≠ some '\n') : skipBlank cm ws nl ('\r' :: cs) =
    if cm then skipBlank true ws nl cs else skipBlank false true nl cs := by
  rw [skipBlank.eq_def]
  split
  · rename_i h; cases h
  · rename_i h'; cases h'; simp at h
  · rename_i h'; cases h'; cases cm <;> rfl

theorem skip_cases {motive : Bool → Bool → Bool → List Char → Prop} (nil : ∀ cm ws nl, motive cm ws nl [])
    (crlf : ∀ cm ws nl cs, (∀ cm ws nl, motive cm ws nl cs) → motive cm ws nl ('\r' :: '\n' :: cs))
    (cr : ∀ cm ws nl cs, cs.head? ≠ some '\n' → (∀ cm ws nl, motive cm ws nl cs) → motive cm ws nl ('\r' :: cs))
    (cons : ∀ cm ws nl c cs, c ≠ '\r' → (∀ cm ws nl, motive cm ws nl cs) → motive cm ws nl (c :: cs))
    (cm ws nl : Bool) (s : List Char) : motive cm ws nl s := by
  generalize hl : s.length = l
  induction l using Nat.strongRecOn generalizing s cm ws nl with
  | _ l ih =>
    cases s with
    | nil => exact nil _ _ _
    | cons c cs =>
      simp only [List.length_cons] at hl
      by_cases hc : c = '\r'
      · subst hc
        by_cases hn : cs.head? = some '\n'
        · cases cs with
          | nil => cases hn
          | cons x cs =>
            simp at hn
            subst hn
            exact crlf _ _ _ _ fun _ _ _ => ih cs.length (by simp at hl; omega) _ _ _ _ rfl
        · exact cr _ _ _ _ hn fun _ _ _ => ih cs.length (by omega) _ _ _ _ rfl
      · exact cons _ _ _ _ _ hc fun _ _ _ => ih cs.length (by omega) _ _ _ _ rfl

/-- The flags do not change what is skipped, and `ws` does not change whether there is a line break in it. -/
theorem skip_flags (cm ws nl : Bool) (s : List Char) : ∀ ws' nl',
    (skipBlank cm ws nl s).2.2 = (skipBlank cm ws' nl' s).2.2 ∧
    (skipBlank cm ws nl s).2.1 = (skipBlank cm ws' nl s).2.1 := by
  refine skip_cases (motive := fun cm ws nl s => ∀ ws' nl',
    (skipBlank cm ws nl s).2.2 = (skipBlank cm ws' nl' s).2.2 ∧
    (skipBlank cm ws nl s).2.1 = (skipBlank cm ws' nl s).2.1) ?_ ?_ ?_ ?_ cm ws nl s
  · intros; exact ⟨rfl, rfl⟩
  · intro cm ws nl cs ih ws' nl'
    rw [skip_crlf, skip_crlf, skip_crlf]
    cases cm
    · exact ⟨rfl, rfl⟩
    · exact ⟨(ih _ _ _ _ _).1, (ih _ _ _ _ nl).2⟩
  · intro cm ws nl cs hn ih ws' nl'
    rw [skip_cr _ _ _ hn, skip_cr _ _ _ hn, skip_cr _ _ _ hn]
    cases cm
    · exact ⟨(ih _ _ _ _ _).1, (ih _ _ _ _ nl).2⟩
    · exact ⟨(ih _ _ _ _ _).1, (ih _ _ _ _ nl).2⟩
  · intro cm ws nl c cs hc ih ws' nl'
    rw [skip_cons hc, skip_cons hc, skip_cons hc]
    split
    · exact ⟨(ih _ _ _ _ _).1, (ih _ _ _ _ nl).2⟩
    · split
      · exact ⟨(ih _ _ _ _ _).1, (ih _ _ _ _ nl).2⟩
      · split
        · exact ⟨rfl, rfl⟩
        · split
          · exact ⟨(ih _ _ _ _ _).1, (ih _ _ _ _ nl).2⟩
          · exact ⟨rfl, rfl⟩

theorem skip_ws (cm nl : Bool) (s : List Char) : (skipBlank cm true nl s).1 = true := by
  refine skip_cases (motive := fun cm _ nl s => (skipBlank cm true nl s).1 = true) ?_ ?_ ?_ ?_ cm true nl s
  · intros; rfl
  · intro cm ws nl cs ih
    rw [skip_crlf]
    cases cm
    · rfl
    · exact ih _ true _
  · intro cm ws nl cs hn ih
    rw [skip_cr _ _ _ hn]
    cases cm <;> exact ih _ true _
  · intro cm ws nl c cs hc ih
    rw [skip_cons hc]
    split
    · exact ih _ true _
    · split
      · exact ih _ true _
      · split
        · exact ih _ true _
        · split
          · exact ih _ true _
          · rfl

theorem skip_nl (cm ws : Bool) (s : List Char) : (skipBlank cm ws true s).2.1 = true := by
  refine skip_cases (motive := fun cm ws _ s => (skipBlank cm ws true s).2.1 = true) ?_ ?_ ?_ ?_ cm ws true s
  · intros; rfl
  · intro cm ws nl cs ih
    rw [skip_crlf]
    cases cm
    · rfl
    · exact ih _ _ true
  · intro cm ws nl cs hn ih
    rw [skip_cr _ _ _ hn]
    cases cm <;> exact ih _ _ true
  · intro cm ws nl c cs hc ih
    rw [skip_cons hc]
    split
    · exact ih _ _ true
    · split
      · exact ih _ _ true
      · split
        · exact ih _ _ true
        · split
          · exact ih _ _ true
          · rfl

theorem skip_start {x : List Char} (h : Start x) (ws nl : Bool) : skipBlank false ws nl x = (ws, nl, x) := by
  rcases h with rfl | ⟨c, r, rfl, h1, h2⟩
  · rfl
  · unfold Impl.isSpace at h1
    rw [skip_cons (by grind)]
    grind

/-- What is left of a text behind white space and comments. -/
def behindBlank (w : List Char) : List Char := (skipBlank false false false w).2.2

theorem skip_rest (ws nl : Bool) (w : List Char) : (skipBlank false ws nl w).2.2 = behindBlank w :=
  (skip_flags ..).1

theorem behindBlank_start {x : List Char} (h : Start x) : behindBlank x = x := by
  unfold behindBlank; rw [skip_start h]

theorem skip_blank {c : Char} (hc : Blank c) (ws nl : Bool) (x : List Char) :
    skipBlank false ws nl (c :: x) = skipBlank false true nl x := by
  rcases hc with rfl | rfl <;> rw [skip_cons (by decide)] <;> rfl

theorem skip_blanks {b : List Char} (hb : Blanks b) (x : List Char) (ws nl : Bool) :
    skipBlank false ws nl (b ++ x) = skipBlank false (ws || !b.isEmpty) nl x := by
  induction b generalizing ws with
  | nil => simp
  | cons c b ih =>
    rw [List.cons_append, skip_blank (hb c (List.mem_cons_self ..)), ih fun y hy => hb y (List.mem_cons_of_mem _ hy)]
    simp

theorem skip_newline (cm ws nl : Bool) (x : List Char) :
    skipBlank cm ws nl ('\n' :: x) = skipBlank false true true x := by
  rw [skip_cons (by decide)]
  cases cm <;> rfl

theorem skip_comment {r : List Char} (hr : ∀ c ∈ r, c ≠ '\n' ∧ c ≠ '\r') (x : List Char) (ws nl : Bool) :
    skipBlank true ws nl (r ++ x) = skipBlank true ws nl x := by
  induction r with
  | nil => rfl
  | cons c r ih =>
    obtain ⟨h1, h2⟩ := hr c (List.mem_cons_self ..)
    rw [List.cons_append, skip_cons h2, if_pos (by simpa using h1)]
    exact ih fun y hy => hr y (List.mem_cons_of_mem _ hy)

theorem skip_slashes (ws nl : Bool) (x : List Char) :
    skipBlank false ws nl ('/' :: '/' :: x) = skipBlank true ws nl x := by
  have h : skipBlank false ws nl ('/' :: '/' :: x) = skipBlank true ws nl ('/' :: x) := by
    rw [skip_cons (by decide)]
    rfl
  rw [h, skip_cons (by decide)]
  rfl

theorem behindBlank_blank {c : Char} (hc : Blank c) (x : List Char) : behindBlank (c :: x) = behindBlank x := by
  rw [behindBlank, skip_blank hc, skip_rest]

theorem behindBlank_blanks {b : List Char} (hb : Blanks b) (x : List Char) : behindBlank (b ++ x) = behindBlank x := by
  rw [behindBlank, skip_blanks hb, skip_rest]

theorem behindBlank_newline (x : List Char) : behindBlank ('\n' :: x) = behindBlank x := by
  rw [behindBlank, skip_newline, skip_rest]

theorem behindBlank_comment {r : List Char} (hr : ∀ c ∈ r, c ≠ '\n' ∧ c ≠ '\r') (x : List Char) :
    behindBlank ('/' :: '/' :: (r ++ '\n' :: x)) = behindBlank x := by
  rw [behindBlank, skip_slashes, skip_comment hr, skip_newline, skip_rest]

theorem behindBlank_gap {g : List Char} (hg : LfGap g) (x : List Char) : behindBlank (g ++ x) = behindBlank x := by
  obtain ⟨h, hr⟩ := hg
  induction h with
  | nil => rfl
  | blank h _ ih => rw [List.cons_append, behindBlank_blank h]; exact ih (by grind)
  | newline h _ ih =>
    rcases h with rfl | rfl
    · rw [List.append_assoc, List.singleton_append, behindBlank_newline]; exact ih (by grind)
    · simp at hr
  | @comment _ _ g h1 h2 _ ih =>
    obtain ⟨r, rfl, h3, -⟩ := h1
    rcases h2 with rfl | rfl
    · have := behindBlank_comment h3 (x := g ++ x)
      simp only [List.cons_append, List.append_assoc, List.nil_append] at this ⊢
      rw [this]
      exact ih (by grind)
    · simp at hr
  | comma h => cases h

theorem behindBlank_docs {ls : List (List Char)} {dt : List Char} (h : LfDocLines ls dt) (x : List Char) :
    behindBlank (dt ++ x) = behindBlank x := by
  induction h with
  | nil => rfl
  | @cons l body g ls t h1 h2 h3 _ ih =>
    have hb : ∀ c ∈ '/' :: body, c ≠ '\n' ∧ c ≠ '\r' := by
      intro c hc
      rcases List.mem_cons.1 hc with rfl | hc
      · decide
      · rcases h1 with rfl | ⟨rfl, -⟩
        · rcases List.mem_cons.1 hc with rfl | hc
          · decide
          · exact h2 c hc
        · exact h2 c hc
    have := behindBlank_comment hb (x := g ++ (t ++ x))
    simp only [List.cons_append, List.append_assoc, List.nil_append] at this ⊢
    rw [this, behindBlank_gap h3, ih]

theorem behindBlank_trailing {tr t : List Char} (h : Trailing tr) (he : tr = [] ∨ t = [] ∨ ∃ r, t = '\n' :: r) :
    behindBlank (tr ++ t) = behindBlank t := by
  cases h with
  | none => rfl
  | @comment b c hb hc =>
    obtain ⟨r, rfl, hr, -⟩ := hc
    rw [List.append_assoc, behindBlank_blanks hb, List.cons_append, List.cons_append]
    rcases he with he | rfl | ⟨r', rfl⟩
    · simp at he
    · rw [behindBlank, skip_slashes, skip_comment hr]; rfl
    · rw [behindBlank_comment hr, behindBlank_newline]

/-! ## Scalars -/

theorem bareChar {U : Classes} (hU : Standard U) {c : Char} (h1 : c ∉ bareForbidden) (h2 : isWhitespace c = false) :
    isBareChar U c = true := by
  unfold isBareChar
  rw [hU.space, h2]
  unfold bareForbidden at h1
  have h3 : c ≠ '\n' := by rintro rfl; cases h2
  have h4 : c ≠ '\r' := by rintro rfl; cases h2
  simp at h1 ⊢
  grind

theorem wordEnd {U : Classes} (hU : Standard U) {rest : List Char} (h : Follows .word rest) :
    rest = [] ∨ ∃ c r, rest = c :: r ∧ isBareChar U c = false := by
  rcases h with rfl | ⟨c, r, rfl, hc⟩
  · exact .inl rfl
  · refine .inr ⟨c, r, rfl, ?_⟩
    unfold isBareChar
    rw [hU.space]
    simp at hc
    rcases hc with rfl | rfl | rfl | rfl | rfl | rfl | rfl <;> decide

theorem lex_bare {U : Classes} (hU : Standard U) (ws nl : Bool) {s rest : List Char} (h : BareText s)
    (hr : rest = [] ∨ ∃ c r, rest = c :: r ∧ isBareChar U c = false)
    (hq : rest.head? ≠ some '"' ∨ s ≠ ['r']) :
    readToken U ws nl (s ++ rest) = (⟨.bare, s, ws, nl⟩, ⟨rest, false⟩) := by
  obtain ⟨hb, c, r, rfl, g1, g2, g3, g4⟩ := h
  have hc := hb c (List.mem_cons_self ..)
  have hcf := hc.1
  unfold bareForbidden at hcf
  obtain ⟨h1, h2⟩ := takeWhile_all (p := isBareChar U) (s := r) (rest := rest)
    (fun x hx => bareChar hU (hb x (List.mem_cons_of_mem _ hx)).1 (hb x (List.mem_cons_of_mem _ hx)).2) hr
  have hnext : ∀ a, isBareChar U a = true → (r ++ rest).head? = some a → r.head? = some a := by
    intro a ha hh
    cases r with
    | nil =>
      rcases hr with rfl | ⟨x, y, rfl, hx⟩
      · simp at hh
      · simp at hh; subst hh; rw [hx] at ha; cases ha
    | cons => simpa using hh
  have hu : ∀ a, isWhitespace a = false → a ∉ bareForbidden → isBareChar U a = true := fun a x y => bareChar hU y x
  have e1 := hnext '#' (hu _ (by decide) (by decide))
  have e2 := hnext '<' (hu _ (by decide) (by decide))
  have e3 := hnext '/' (hu _ (by decide) (by decide))
  have e4 : c = 'r' → (r ++ rest).head? ≠ some '"' := by
    rintro rfl hh
    cases r with
    | nil =>
      rcases hq with hq | hq
      · exact hq (by simpa using hh)
      · exact hq rfl
    | cons x r =>
      have : x = '"' := by simpa using hh
      subst this
      exact (hb '"' (by simp)).1 (by decide)
  have hcan : ((c == '/' && (r ++ rest).head? != some '/') || canStartBare U c) = true := by
    by_cases hs : c = '/'
    · subst hs
      have : (r ++ rest).head? ≠ some '/' := fun hh => g2 ⟨rfl, e3 hh⟩
      rw [Bool.or_eq_true]
      left
      simp only [beq_self_eq_true, Bool.true_and, bne_iff_ne]
      exact this
    · unfold canStartBare
      rw [hU.space, hc.2]
      have h5 : c ≠ '\n' := by rintro rfl; exact absurd hc.2 (by decide)
      have h6 : c ≠ '\r' := by rintro rfl; exact absurd hc.2 (by decide)
      simp at hcf g1
      simp
      grind
  rw [List.cons_append, readToken]
  rw [if_neg (by grind), if_neg (by grind), if_neg (by grind), if_neg (by grind), if_neg (by grind), if_neg (by grind),
    if_neg (by grind), if_neg (by grind), if_neg, if_neg, if_pos hcan, h1, h2]
  · grind
  · grind

theorem readQuoted_skip (h x : List Char) : readQuoted h.length (h ++ x) = readQuoted 0 x := by
  induction h with
  | nil => rfl
  | cons c h ih => rw [List.length_cons, List.cons_append, readQuoted]; exact ih

theorem hex_no_sign {h : List Char} (h1 : h.all isHexDigit = true) : h.head? ≠ some '+' ∧ h.head? ≠ some '-' := by
  have hall := List.all_eq_true.1 h1
  exact ⟨fun e => absurd (hall _ (List.mem_of_head? e)) (by decide), fun e => absurd (hall _ (List.mem_of_head? e)) (by decide)⟩

theorem swiftHex_hex {h : List Char} (hne : h ≠ []) (h1 : h.all isHexDigit = true) : swiftHex h = some (hexNat h) := by
  obtain ⟨e1, e2⟩ := hex_no_sign h1
  unfold swiftHex
  simp only [beq_iff_eq, e1, e2, Bool.or_eq_true, or_self, if_false, h1]
  cases h with
  | nil => exact (hne rfl).elim
  | cons c h => simp; intro hh; simp at e2; exact (e2 hh).elim

theorem lex_quotedBody {body v : List Char} (he : Escaped body v) (hq : QuotedBody body)
    (hn : '\n' ∉ body) (hr : '\r' ∉ body) (hs : ShortEscapes body) (rest : List Char) :
    readQuoted 0 (body ++ '"' :: rest) = .ok (v, rest) := by
  have short : ∀ {a b : List Char}, ShortEscapes (a ++ b) → ShortEscapes b := by
    intro a b h a' h' b' e hb
    exact h (a ++ a') h' b' (by rw [e]; simp) hb
  induction he with
  | nil => rfl
  | @plain c raw v hc _ ih =>
    generalize hx : c :: raw = x at hq
    cases hq with
    | nil => cases hx
    | esc => cases hx; exact (hc rfl).elim
    | plain h1 _ hq =>
      cases hx
      rw [List.cons_append, readQuoted.eq_def]
      simp only
      rw [if_neg (by simpa using h1), if_neg (by simpa using hc), if_neg (by simp at hr; grind),
        if_neg (by simp at hn; grind), ih hq (by grind) (by grind) (short (a := [c]) hs)]
      rfl
  | @simple e x raw v hp _ ih =>
    generalize hx : '\\' :: e :: raw = y at hq
    cases hq with
    | nil => cases hx
    | plain _ h => cases hx; exact (h rfl).elim
    | esc hq =>
      cases hx
      have hs' : Impl.simpleEscape e = some x := by
        simp only [List.mem_cons, Prod.mk.injEq, List.not_mem_nil, or_false] at hp
        rcases hp with ⟨rfl, rfl⟩ | ⟨rfl, rfl⟩ | ⟨rfl, rfl⟩ | ⟨rfl, rfl⟩ | ⟨rfl, rfl⟩ <;> rfl
      rw [List.cons_append, List.cons_append, readQuoted, if_neg (by decide), if_pos (by rfl)]
      simp only [hs']
      rw [readQuoted, ih hq (by grind) (by grind) (short (a := ['\\', _]) hs)]
      rfl
  | @four h c raw v hl hh _ ih =>
    obtain ⟨h1, h2⟩ := hexNumber_iff.1 hh
    have hne : h ≠ [] := by rintro rfl; cases hl
    generalize hx : '\\' :: 'u' :: h ++ raw = y at hq
    cases hq with
    | nil => cases hx
    | plain _ h => cases hx; exact (h rfl).elim
    | esc hq =>
      simp only [List.cons_append, List.cons.injEq, true_and] at hx
      obtain ⟨rfl, rfl⟩ := hx
      have hq := Impl.quotedBody_hex h1 hq
      have hu : readUnicode (h ++ (raw ++ '"' :: rest)) = some (c, 4) := by
        have htake : (h ++ (raw ++ '"' :: rest)).take 4 = h := by
          rw [← hl]; simp
        unfold readUnicode
        rw [if_neg, htake, if_pos ⟨hl, h1⟩, charFromU32_some.2 h2]
        · rfl
        · cases h with
          | nil => exact (hne rfl).elim
          | cons a h =>
            simp only [List.all_cons, Bool.and_eq_true] at h1
            simp only [List.cons_append, List.head?_cons, beq_iff_eq, Option.some.injEq]
            rintro rfl
            exact absurd h1.1 (by decide)
      simp only [List.cons_append, List.append_assoc]
      rw [readQuoted, if_neg (by decide), if_pos (by rfl)]
      simp only [show Impl.simpleEscape 'u' = none from rfl, hu]
      rw [if_pos (by rfl)]
      have : readQuoted (4 + 1) ('u' :: (h ++ (raw ++ '"' :: rest))) = readQuoted 0 (raw ++ '"' :: rest) := by
        rw [readQuoted, ← hl]
        exact readQuoted_skip ..
      rw [this, ih hq (by grind) (by grind) (short (a := '\\' :: 'u' :: h) hs)]
      rfl
  | @braced h c raw v hne hh _ ih =>
    obtain ⟨h1, h2⟩ := hexNumber_iff.1 hh
    generalize hx : '\\' :: 'u' :: '{' :: h ++ '}' :: raw = y at hq
    cases hq with
    | nil => cases hx
    | plain _ h => cases hx; exact (h rfl).elim
    | esc hq =>
      simp only [List.cons_append, List.cons.injEq, true_and] at hx
      obtain ⟨rfl, rfl⟩ := hx
      have hq : QuotedBody raw := by
        generalize hx : '{' :: (h ++ '}' :: raw) = y at hq
        cases hq with
        | nil => cases hx
        | esc => cases hx
        | plain _ _ hq =>
          cases hx
          have := Impl.quotedBody_hex h1 hq
          generalize hx : '}' :: raw = y at this
          cases this with
          | nil => cases hx
          | esc => cases hx
          | plain _ _ hq => cases hx; exact hq
      have hlen : h.length ≤ 6 := hs [] h raw (by simp) (hex_not_brace h1)
      have hpos : 1 ≤ h.length := by cases h with | nil => exact (hne rfl).elim | cons => simp
      have htw := (takeWhile_all (p := (· != '}')) (s := h) (rest := '}' :: (raw ++ '"' :: rest))
        (fun x hx => by simp only [bne_iff_ne]; rintro rfl; exact hex_not_brace h1 hx)
        (.inr ⟨'}', _, rfl, by rfl⟩)).1
      have hu : readUnicode ('{' :: (h ++ '}' :: (raw ++ '"' :: rest))) = some (c, h.length + 2) := by
        unfold readUnicode
        simp only [List.head?_cons, List.tail_cons, htw]
        rw [if_pos (by rfl), List.drop_left, if_pos (by simp; omega), swiftHex_hex hne h1]
        show Option.map _ (charFromU32 (hexNat h)) = _
        rw [charFromU32_some.2 h2]
        rfl
      simp only [List.cons_append, List.append_assoc]
      rw [readQuoted, if_neg (by decide), if_pos (by rfl)]
      simp only [show Impl.simpleEscape 'u' = none from rfl, hu]
      rw [if_pos (by rfl)]
      have : readQuoted (h.length + 2 + 1) ('u' :: '{' :: (h ++ '}' :: (raw ++ '"' :: rest))) =
          readQuoted 0 (raw ++ '"' :: rest) := by
        rw [readQuoted, readQuoted, show h.length + 1 = (h ++ ['}']).length by simp,
          show h ++ '}' :: (raw ++ '"' :: rest) = (h ++ ['}']) ++ (raw ++ '"' :: rest) by simp]
        exact readQuoted_skip ..
      rw [this, ih hq (by grind) (by grind) (short (a := '\\' :: 'u' :: '{' :: h ++ ['}']) (by simpa using hs))]
      rfl

theorem lex_quoted (U : Classes) (ws nl : Bool) {body v : List Char} (he : Escaped body v) (hq : QuotedBody body)
    (hn : '\n' ∉ body) (hr : '\r' ∉ body) (hs : ShortEscapes body) (rest : List Char) :
    readToken U ws nl ('"' :: body ++ ['"'] ++ rest) = (⟨.quoted, v, ws, nl⟩, ⟨rest, false⟩) := by
  have : '"' :: body ++ ['"'] ++ rest = '"' :: (body ++ '"' :: rest) := by simp
  rw [this, readToken]
  rw [if_neg (by decide), if_neg (by decide), if_neg (by decide), if_neg (by decide), if_neg (by decide),
    if_neg (by decide), if_neg (by decide), if_pos (by decide), lex_quotedBody he hq hn hr hs]

theorem lex_raw (U : Classes) (ws nl : Bool) {n : Nat} {c : List Char}
    (hc : ∀ a b, c ≠ a ++ '"' :: List.replicate n '#' ++ b) (rest : List Char) :
    readToken U ws nl ('r' :: List.replicate n '#' ++ '"' :: c ++ '"' :: List.replicate n '#' ++ rest) =
      (⟨.raw, c, ws, nl⟩, ⟨rest, false⟩) := by
  have hx : 'r' :: List.replicate n '#' ++ '"' :: c ++ '"' :: List.replicate n '#' ++ rest =
      'r' :: (List.replicate n '#' ++ '"' :: (c ++ '"' :: List.replicate n '#' ++ rest)) := by simp
  rw [hx]
  obtain ⟨h1, -⟩ := takeWhile_all (p := (· == '#')) (s := List.replicate n '#')
    (rest := '"' :: (c ++ '"' :: List.replicate n '#' ++ rest)) (by simp) (.inr ⟨_, _, rfl, rfl⟩)
  have hhead : ((List.replicate n '#' ++ '"' :: (c ++ '"' :: List.replicate n '#' ++ rest)).head? == some '#' ||
      (List.replicate n '#' ++ '"' :: (c ++ '"' :: List.replicate n '#' ++ rest)).head? == some '"') = true := by
    cases n with
    | zero => rfl
    | succ n => rfl
  rw [readToken]
  rw [if_neg (by decide), if_neg (by decide), if_neg (by decide), if_neg (by decide), if_neg (by decide),
    if_neg (by decide), if_neg (by decide), if_neg (by decide), if_pos (by rw [hhead]; rfl)]
  simp only [h1, List.length_replicate]
  rw [List.drop_left' (by simp), if_pos (by rfl), List.tail_cons, Impl.readRaw_spec hc]

/-! ## Heredocs -/

theorem splitLines_eq {s : List Char} (h : '\r' ∉ s) : splitLines s = Impl.splitLines s := by
  induction s with
  | nil => rfl
  | cons c s ih =>
    rw [splitLines.eq_def]
    split
    · rename_i h'; cases h'
    · rename_i h'; cases h'; simp at h
    · rename_i h'
      cases h'
      rw [Impl.splitLines, ih (by grind)]
      cases Impl.splitLines s <;> rfl

theorem close_not {U : Classes} (hU : Standard U) {d l : List Char} (text : List Char)
    (h : ¬ ∃ w, (∀ c ∈ w, isWhitespace c = true) ∧ l = w ++ d) : closeHeredoc U d text l = none := by
  unfold closeHeredoc
  rw [if_neg]
  intro hs
  refine h ⟨l.takeWhile U.isWhitespace, ?_, ?_⟩
  · intro c hc
    rw [← hU.space]
    exact List.all_eq_true.1 (List.all_takeWhile ..) c hc
  · rw [← hs, List.takeWhile_append_dropWhile]

theorem unlines_no_cr {ls : List (List Char)} (h : ∀ l ∈ ls, '\r' ∉ l) : '\r' ∉ unlines ls := by
  unfold unlines
  intro hm
  obtain ⟨l, hl, hm⟩ := List.mem_flatMap.1 hm
  rcases List.mem_append.1 hm with hm | hm
  · exact h l hl hm
  · simp at hm

theorem close_yes {U : Classes} (hU : Standard U) {d ind : List Char} {ls : List (List Char)} (hd : Delimiter d)
    (hi : Blanks ind) (hls : ∀ l ∈ ls, '\n' ∉ l ∧ '\r' ∉ l) :
    closeHeredoc U d (unlines ls) (ind ++ d) = some (unlines (ls.map (dedentLine ind.length))) := by
  have hsp : ∀ {c : Char}, Blank c → U.isWhitespace c = true := by
    rintro c (rfl | rfl) <;> rw [hU.space] <;> rfl
  obtain ⟨c, r, rfl, hc, hd2⟩ := hd
  have hcs : isWhitespace c = false := by
    unfold Char.isUpper at hc
    unfold isWhitespace
    have h1 : 65 ≤ c.toNat ∧ c.toNat ≤ 90 := by
      simp only [decide_eq_true_eq] at hc
      exact ⟨hc.1, hc.2⟩
    grind
  have hcb : (c == ' ' || c == '\t') = false := by
    rw [Bool.eq_false_iff]
    intro h
    simp only [Bool.or_eq_true, beq_iff_eq] at h
    rcases h with rfl | rfl <;> exact absurd hcs (by decide)
  have h1 := (takeWhile_all (p := U.isWhitespace) (s := ind) (rest := c :: r) (fun x hx => hsp (hi x hx))
    (.inr ⟨c, r, rfl, by rw [hU.space, hcs]⟩)).2
  have h2 := (takeWhile_all (p := fun c => c == ' ' || c == '\t') (s := ind) (rest := c :: r)
    (fun x hx => by rcases hi x hx with rfl | rfl <;> rfl) (.inr ⟨c, r, rfl, hcb⟩)).1
  unfold closeHeredoc
  rw [if_pos h1]
  simp only [h2]
  split
  · unfold dedent
    rw [splitLines_eq (unlines_no_cr fun l hl => (hls l hl).2)]
    exact congrArg some (Impl.dedent_unlines _ fun l hl => (hls l hl).1)
  · rename_i h
    by_cases hl : 0 < ind.length
    · have : unlines ls = [] := by
        refine Classical.byContradiction fun hh => h ⟨hl, hh⟩
      cases ls with
      | nil => rfl
      | cons l ls => simp [unlines] at this
    · have : ind = [] := by cases ind with | nil => rfl | cons => simp at hl
      subst this
      have : ls.map (dedentLine ([] : List Char).length) = ls := by
        conv => rhs; rw [← List.map_id ls]
        exact List.map_congr_left fun l _ => by cases l <;> rfl
      rw [this]

theorem heredocLoop_cons {U : Classes} {d : List Char} {c : Char} (hc : c ≠ '\r') (line text cs : List Char) :
    heredocLoop U d line text (c :: cs) =
      if c == '\n' then
        match closeHeredoc U d text line with
        | some t => .ok (t, cs, true)
        | none => heredocLoop U d [] (text ++ line ++ ['\n']) cs
      else heredocLoop U d (line ++ [c]) text cs := by
  rw [heredocLoop.eq_def]
  split
  · rename_i h; cases h
  · rename_i h; cases h; exact (hc rfl).elim
  · rename_i h; cases h; rfl

theorem heredocLoop_line (U : Classes) (d text : List Char) {l : List Char} (line x : List Char) (h : '\n' ∉ l)
    (h' : '\r' ∉ l) : heredocLoop U d line text (l ++ x) = heredocLoop U d (line ++ l) text x := by
  induction l generalizing line with
  | nil => simp
  | cons c l ih =>
    rw [List.cons_append, heredocLoop_cons (by grind), if_neg (by simp; grind), ih _ (by grind) (by grind)]
    simp

/-- The state behind the heredoc: its line break has been read. -/
theorem heredocLoop_spec {U : Classes} (hU : Standard U) {d ind : List Char} {ls : List (List Char)} (hd : Delimiter d)
    (hi : Blanks ind) (before : List (List Char)) (hb : ∀ l ∈ before, '\n' ∉ l ∧ '\r' ∉ l)
    (hls : ∀ l ∈ ls, '\n' ∉ l ∧ '\r' ∉ l ∧ ¬ ∃ w, (∀ c ∈ w, isWhitespace c = true) ∧ l = w ++ d)
    {rest : List Char} (hr : rest = [] ∨ ∃ r, rest = '\n' :: r) :
    heredocLoop U d [] (unlines before) (unlines ls ++ (ind ++ d) ++ rest) =
      .ok (unlines ((before ++ ls).map (dedentLine ind.length)), rest.tail, !rest.isEmpty) := by
  induction ls generalizing before with
  | nil =>
    have hn : ∀ c, c.isUpper = false → c.isDigit = false → c ≠ '_' → ¬ Blank c → c ∉ ind ++ d := by
      intro c h1 h2 h3 h4 hm
      rcases List.mem_append.1 hm with hm | hm
      · exact h4 (hi _ hm)
      · exact Impl.delimiter_no hd h1 h2 h3 hm
    rw [show unlines ([] : List (List Char)) = [] from rfl, List.nil_append,
      heredocLoop_line _ _ _ _ _ (hn _ (by decide) (by decide) (by decide) (by decide))
        (hn _ (by decide) (by decide) (by decide) (by decide)), List.nil_append, List.append_nil]
    rcases hr with rfl | ⟨r, rfl⟩
    · rw [heredocLoop, close_yes hU hd hi hb]
      rfl
    · rw [heredocLoop_cons (by decide), if_pos (by rfl), close_yes hU hd hi hb]
      rfl
  | cons l ls ih =>
    obtain ⟨h1, h2, h3⟩ := hls l (List.mem_cons_self ..)
    have := ih (before ++ [l]) (by
      intro x hx
      rcases List.mem_append.1 hx with hx | hx
      · exact hb x hx
      · simp at hx; exact hx ▸ ⟨h1, h2⟩) fun x hx => hls x (List.mem_cons_of_mem _ hx)
    have he : unlines (l :: ls) ++ (ind ++ d) ++ rest = l ++ '\n' :: (unlines ls ++ (ind ++ d) ++ rest) := by
      rw [unlines, List.flatMap_cons]
      simp [unlines]
    rw [he, heredocLoop_line _ _ _ _ _ h1 h2, List.nil_append, heredocLoop_cons (by decide), if_pos (by rfl),
      close_not hU _ h3]
    have hu : unlines before ++ l ++ ['\n'] = unlines (before ++ [l]) := by simp [unlines]
    simp only [hu]
    rw [this]
    simp

theorem upper_ascii {c : Char} (h : c.isUpper = true) : c.toNat < 128 := by
  unfold Char.isUpper at h
  simp only [decide_eq_true_eq] at h
  have : c.toNat ≤ 90 := h.2
  omega

theorem lower_ascii {c : Char} (h : c.isLower = true) : c.toNat < 128 := by
  unfold Char.isLower at h
  simp only [Bool.and_eq_true, decide_eq_true_eq] at h
  have : c.toNat ≤ 122 := h.2
  omega

theorem digit_ascii {c : Char} (h : c.isDigit = true) : c.toNat < 128 := by
  unfold Char.isDigit at h
  simp only [Bool.and_eq_true, decide_eq_true_eq] at h
  have : c.toNat ≤ 57 := h.2
  omega

theorem alpha_ascii {c : Char} (h : c.isAlpha = true) : c.toNat < 128 := by
  unfold Char.isAlpha at h
  rcases Bool.or_eq_true _ _ ▸ h with h | h
  · exact upper_ascii h
  · exact lower_ascii h

theorem lex_heredoc {U : Classes} (hU : Standard U) (ws nl : Bool) {d lang ind : List Char} {ls : List (List Char)}
    (hd : Delimiter d) (hsd : SecondUpper d) (hlang : LangHint lang) (hi : Blanks ind)
    (hls : ∀ l ∈ ls, '\n' ∉ l ∧ '\r' ∉ l ∧ ¬ ∃ w, (∀ c ∈ w, isWhitespace c = true) ∧ l = w ++ d) {rest : List Char}
    (hr : rest = [] ∨ ∃ r, rest = '\n' :: r) :
    readToken U ws nl ('<' :: '<' :: d ++ lang ++ ['\n'] ++ unlines ls ++ ind ++ d ++ rest) =
      (⟨.heredoc, unlines (ls.map (dedentLine ind.length)), ws, nl⟩, ⟨rest.tail, !rest.isEmpty⟩) := by
  have hx : '<' :: '<' :: d ++ lang ++ ['\n'] ++ unlines ls ++ ind ++ d ++ rest =
      '<' :: '<' :: (d ++ (lang ++ '\n' :: (unlines ls ++ (ind ++ d) ++ rest))) := by simp
  rw [hx]
  generalize hbody : unlines ls ++ (ind ++ d) ++ rest = body
  have hsecond : ((d ++ (lang ++ '\n' :: body)).tail.head?.map U.isUppercase).getD false = true := by
    obtain ⟨c, h1, h2⟩ := hsd
    obtain ⟨c0, r, rfl, -⟩ := hd
    cases r with
    | nil => cases h1
    | cons x r =>
      simp at h1
      subst h1
      show U.isUppercase x = true
      rw [hU.upper x (upper_ascii h2), h2]
  have hfirst : ((d ++ (lang ++ '\n' :: body)).head?.map U.isUppercase).getD false = true := by
    obtain ⟨c0, r, rfl, h2, -⟩ := hd
    show U.isUppercase c0 = true
    rw [hU.upper c0 (upper_ascii h2), h2]
  have hall : ∀ c ∈ d, (U.isUppercase c || U.isNumber c || c == '_') = true := by
    obtain ⟨c0, r, rfl, h2, h3, -⟩ := hd
    have hup : ∀ c, c.isUpper = true → (U.isUppercase c || U.isNumber c || c == '_') = true := by
      intro c hc
      rw [hU.upper c (upper_ascii hc), hc]; rfl
    intro c hc
    rcases List.mem_cons.1 hc with rfl | hc
    · exact hup c h2
    · rcases h3 c hc with h | h | rfl
      · exact hup c h
      · rw [hU.number c (digit_ascii h), h]; simp
      · simp
  have hnot : ∀ c : Char, c.toNat < 128 → c.isUpper = false → c.isDigit = false → c ≠ '_' →
      (U.isUppercase c || U.isNumber c || c == '_') = false := by
    intro c h1 h2 h3 h4
    rw [hU.upper c h1, hU.number c h1, h2, h3]
    simpa using h4
  obtain ⟨h1, h2⟩ := takeWhile_all (p := fun c => U.isUppercase c || U.isNumber c || c == '_') (s := d)
    (rest := lang ++ '\n' :: body) hall (by
      rcases hlang with rfl | ⟨c, r, rfl, -⟩
      · exact .inr ⟨_, _, rfl, hnot _ (by decide) (by decide) (by decide) (by decide)⟩
      · exact .inr ⟨_, _, rfl, hnot _ (by decide) (by decide) (by decide) (by decide)⟩)
  have h3 : dropHint U (lang ++ '\n' :: body) = '\n' :: body := by
    unfold dropHint
    rcases hlang with rfl | ⟨c, r, rfl, g1, g2⟩
    · rfl
    · rw [if_pos (by rfl)]
      have : (((',' :: c :: r) ++ '\n' :: body).tail.head?.map U.isLowercase).getD false = true := by
        show U.isLowercase c = true
        rw [hU.lower c (lower_ascii g1), g1]
      rw [if_pos this]
      refine (takeWhile_all (p := fun c => U.isLowercase c || U.isNumber c || c == '_' || c == '.' || c == '-')
        (s := r) (rest := '\n' :: body) ?_ (.inr ⟨_, _, rfl, ?_⟩)).2
      · intro x hx
        rcases g2 x hx with h | h | rfl | rfl | rfl
        · rw [hU.lower x (lower_ascii h), h]; rfl
        · rw [hU.number x (digit_ascii h), h]; simp
        · simp
        · simp
        · simp
      · rw [hU.lower _ (by decide), hU.number _ (by decide)]; rfl
  have hrd : readHeredoc U (d ++ (lang ++ '\n' :: body)) =
      .ok (unlines (ls.map (dedentLine ind.length)), rest.tail, !rest.isEmpty) := by
    have hlen : ¬ 16 < d.length := by
      obtain ⟨_, _, rfl, -, -, h⟩ := hd
      omega
    unfold readHeredoc
    rw [if_pos hfirst]
    simp only [h1, h2]
    rw [if_neg hlen, h3, show dropLineEnd ('\n' :: body) = body from rfl, ← hbody]
    exact heredocLoop_spec hU hd hi [] (by simp) hls hr
  rw [readToken]
  rw [if_neg (by decide), if_neg (by decide), if_neg (by decide), if_neg (by decide), if_neg (by decide),
    if_neg (by decide), if_neg (by decide), if_neg (by decide), if_neg (by simp), if_pos (by rfl), List.tail_cons,
    if_pos hsecond, hrd]

/-! ## Tags -/

theorem tagName_bare {n : List Char} (h : TagName n) : BareText n ∧ '@' ∉ n := by
  obtain ⟨c, r, rfl, h1, h2⟩ := h
  have hch : ∀ x : Char, (x.isAlphanum = true ∨ x = '_' ∨ x = '-') → x ∉ bareForbidden ∧ isWhitespace x = false ∧
      x ∉ ['=', '@', '/', '<', '#'] := by
    intro x hx
    have key : ∀ y : Char, y.isAlphanum = false → y ≠ '_' → y ≠ '-' → x ≠ y := by
      rintro y g1 g2 g3 rfl
      rcases hx with h | h | h
      · rw [h] at g1; cases g1
      · exact g2 h
      · exact g3 h
    refine ⟨?_, ?_, ?_⟩
    · unfold bareForbidden
      simp only [List.mem_cons, List.not_mem_nil, or_false, not_or]
      exact ⟨key _ (by decide) (by decide) (by decide), key _ (by decide) (by decide) (by decide),
        key _ (by decide) (by decide) (by decide), key _ (by decide) (by decide) (by decide),
        key _ (by decide) (by decide) (by decide), key _ (by decide) (by decide) (by decide),
        key _ (by decide) (by decide) (by decide)⟩
    · rcases hx with h | rfl | rfl
      · unfold Char.isAlphanum Char.isAlpha Char.isUpper Char.isLower Char.isDigit at h
        simp only [Bool.or_eq_true, Bool.and_eq_true, decide_eq_true_eq] at h
        have : 48 ≤ x.toNat ∧ x.toNat ≤ 122 := by
          rcases h with (⟨a, b⟩ | ⟨a, b⟩) | ⟨a, b⟩
          · have a : 65 ≤ x.toNat := a
            have b : x.toNat ≤ 90 := b
            omega
          · have a : 97 ≤ x.toNat := a
            have b : x.toNat ≤ 122 := b
            omega
          · have a : 48 ≤ x.toNat := a
            have b : x.toNat ≤ 57 := b
            omega
        unfold isWhitespace
        grind
      · rfl
      · rfl
    · simp only [List.mem_cons, List.not_mem_nil, or_false, not_or]
      exact ⟨key _ (by decide) (by decide) (by decide), key _ (by decide) (by decide) (by decide),
        key _ (by decide) (by decide) (by decide), key _ (by decide) (by decide) (by decide),
        key _ (by decide) (by decide) (by decide)⟩
  have hall : ∀ x ∈ c :: r, x.isAlphanum = true ∨ x = '_' ∨ x = '-' := by
    intro x hx
    rcases List.mem_cons.1 hx with rfl | hx
    · rcases h1 with h1 | h1
      · exact .inl (by unfold Char.isAlphanum; rw [h1]; rfl)
      · exact .inr (.inl h1)
    · exact h2 x hx
  have hc := hch c (hall c (List.mem_cons_self ..))
  refine ⟨⟨fun x hx => ⟨(hch x (hall x hx)).1, (hch x (hall x hx)).2.1⟩, c, r, rfl, ?_, ?_, ?_, ?_⟩, ?_⟩
  · have := hc.2.2; grind
  · have := hc.2.2; grind
  · rintro ⟨-, hh⟩
    cases r with
    | nil => cases hh
    | cons y r =>
      simp at hh
      subst hh
      exact (hch '#' (hall '#' (by simp))).2.2 (by simp)
  · have := hc.2.2; grind
  · intro hm
    exact (hch '@' (hall '@' hm)).2.2 (by simp)

theorem tagError_none {U : Classes} (hU : Standard U) {n : List Char} (h : TagName n) : tagError U n = none := by
  obtain ⟨c, r, rfl, h1, h2⟩ := h
  unfold tagError
  rw [if_neg (by simp), if_neg, if_pos]
  · have hw : ∀ x : Char, (x.isAlphanum = true ∨ x = '_' ∨ x = '-') →
        (U.isLetter x || U.isNumber x || x == '-' || x == '_') = true := by
      intro x hx
      rcases hx with h | rfl | rfl
      · unfold Char.isAlphanum at h
        rcases Bool.or_eq_true _ _ ▸ h with h | h
        · rw [hU.letter x (alpha_ascii h), h]; rfl
        · rw [hU.number x (digit_ascii h), h]; simp
      · simp
      · simp
    rw [List.all_eq_true]
    intro x hx
    rcases List.mem_cons.1 hx with rfl | hx
    · refine hw x ?_
      rcases h1 with h1 | h1
      · exact .inl (by unfold Char.isAlphanum; rw [h1]; rfl)
      · exact .inr (.inl h1)
    · exact hw x (h2 x hx)
  · show ¬ (U.isNumber c || c == '-') = true
    have : c.toNat < 128 := by
      rcases h1 with h1 | rfl
      · exact alpha_ascii h1
      · decide
    rw [hU.number c this]
    rcases h1 with h1 | rfl
    · have hd : c.isDigit = false := by
        rw [Bool.eq_false_iff]
        intro hd
        unfold Char.isDigit at hd
        unfold Char.isAlpha Char.isUpper Char.isLower at h1
        simp only [Bool.or_eq_true, Bool.and_eq_true, decide_eq_true_eq] at h1 hd
        have hd : c.toNat ≤ 57 := hd.2
        rcases h1 with ⟨a, -⟩ | ⟨a, -⟩
        · have a : 65 ≤ c.toNat := a
          omega
        · have a : 97 ≤ c.toNat := a
          omega
      rw [hd]
      have : c ≠ '-' := by rintro rfl; exact absurd h1 (by decide)
      simpa using this
    · decide

end Styx.Swift
