import Verif.Editor.Rule
import Verif.Tokenizer.Kinds

/-!
# Raw strings in the editor's scanner and in the tokenizer
-/

namespace Styx.Editor

/-- The first place where a raw string with `n` hashes ends: what is before it and after it. -/
def cutRaw (n : Nat) : List Char → Option (List Char × List Char)
  | [] => none
  | c :: cs =>
    if c = '"' ∧ hashesFollow n cs = true then some ([], cs.drop n)
    else match cutRaw n cs with
      | none => none
      | some (a, b) => some (c :: a, b)

theorem cutRaw_append {n : Nat} {t a b : List Char} (h : cutRaw n t = some (a, b)) :
    t = a ++ '"' :: (List.replicate n '#' ++ b) := by
  induction t generalizing a b with
  | nil => simp [cutRaw] at h
  | cons c cs ih =>
    simp only [cutRaw] at h
    split at h
    · rename_i hc
      obtain ⟨r, hr⟩ := (hashesFollow_iff _ _).1 hc.2
      simp only [Option.some.injEq, Prod.mk.injEq] at h
      obtain ⟨rfl, rfl⟩ := h
      rw [hc.1, hr]; simp
    · split at h
      · simp at h
      · rename_i a' b' he
        simp only [Option.some.injEq, Prod.mk.injEq] at h
        obtain ⟨rfl, rfl⟩ := h
        rw [ih he]; simp

theorem scanRaw_cut (n : Nat) (t : List Char) : scanRaw n t =
    match cutRaw n t with
    | some (a, b) => (true, a ++ '"' :: List.replicate n '#', b)
    | none => (false, t, []) := by
  induction t with
  | nil => rfl
  | cons c cs ih =>
    simp only [scanRaw, cutRaw]
    split
    · rename_i hc
      obtain ⟨r, hr⟩ := (hashesFollow_iff _ _).1 hc.2
      simp [hr, hc.1]
    · rw [ih]
      cases cutRaw n cs <;> simp

/-- How many hashes a text starts with, up to `n`. -/
theorem stepHashes_spec (n : Nat) : ∀ l : Lexer, stepHashes n l =
    (min n (l.here.takeWhile (· == '#')).length,
      { l with here := l.here.drop (min n (l.here.takeWhile (· == '#')).length) }) := by
  induction n with
  | zero => intro l; simp [stepHashes]
  | succ n ih =>
    intro l
    simp only [stepHashes]
    cases hh : l.here with
    | nil => simp; cases l; simp_all
    | cons c cs =>
      by_cases hc : c = '#'
      · subst hc
        simp only [List.head?_cons, if_true, ih, Lexer.advance, hh, List.tail_cons, List.takeWhile_cons,
          beq_self_eq_true, List.length_cons]
        rw [Nat.succ_min_succ]
        simp
      · simp [hc]
        cases l; simp_all

theorem hashesFollow_take (n : Nat) (t : List Char) :
    hashesFollow n t = true ↔ n ≤ (t.takeWhile (· == '#')).length := by
  induction n generalizing t with
  | zero => simp [hashesFollow]
  | succ n ih =>
    cases t with
    | nil => simp [hashesFollow]
    | cons c cs =>
      by_cases hc : c = '#'
      · subst hc; simp [hashesFollow, ih]
      · simp [hashesFollow, hc]

/-- Hashes are no place to end. -/
theorem cutRaw_hashes (n k : Nat) (t : List Char) (hk : k ≤ (t.takeWhile (· == '#')).length) :
    cutRaw n t = match cutRaw n (t.drop k) with
      | none => none
      | some (a, b) => some (t.take k ++ a, b) := by
  induction k generalizing t with
  | zero => simp; cases cutRaw n t <;> rfl
  | succ k ih =>
    cases t with
    | nil => simp at hk
    | cons c cs =>
      by_cases hc : c = '#'
      · subst hc
        simp only [List.takeWhile_cons, beq_self_eq_true, if_true, List.length_cons] at hk
        have := ih cs (by omega)
        simp only [cutRaw, List.drop_succ_cons, List.take_succ_cons, List.cons_append]
        rw [if_neg (by simp), this]
        cases cutRaw n (cs.drop k) <;> rfl
      · simp [hc] at hk

/-- What the loop inside a raw string finds. -/
theorem rawLoop_spec (s : Scanner) : ∀ (f : Nat) (has : Bool) (l : Lexer), l.here.length < f →
    match cutRaw s.hashes l.here with
    | some (a, b) =>
      if has = false ∧ a = [] then
        ∃ h, rawLoop s f has l = .ok (some .rawEnd, { s with inRaw := false }, ⟨l.start, h, some b⟩)
      else ∃ h, rawLoop s f has l =
        .ok (some .rawContent, s, ⟨l.start, h, some ('"' :: (List.replicate s.hashes '#' ++ b))⟩)
    | none =>
      if has = false ∧ l.here = [] then rawLoop s f has l = .ok (none, s, l)
      else ∃ h, rawLoop s f has l = .ok (some .rawContent, s, ⟨l.start, h, some []⟩) := by
  intro f
  induction f with
  | zero => intro has l h; omega
  | succ f ih =>
    intro has l hl
    obtain ⟨start, here, mark⟩ := l
    simp only at hl
    cases here with
    | nil =>
      simp only [cutRaw, and_true, rawLoop]
      cases has
      · simp
      · simpa using ⟨[], rfl⟩
    | cons c cs =>
      simp only [List.length_cons] at hl
      simp only [rawLoop]
      by_cases hc : c = '"'
      · subst hc
        simp only [if_true, Lexer.markEnd, Lexer.advance, List.tail_cons, stepHashes_spec]
        by_cases hk : s.hashes ≤ (cs.takeWhile (· == '#')).length
        · have hf := (hashesFollow_take _ _).2 hk
          obtain ⟨r, hr⟩ := (hashesFollow_iff _ _).1 hf
          rw [Nat.min_eq_left hk]
          simp only [cutRaw, hf, and_self, if_true, and_true]
          cases has
          · simp only [if_true, Bool.false_eq_true, if_false]
            exact ⟨_, rfl⟩
          · simp only [Bool.true_eq_false, if_true, if_false]
            refine ⟨cs.drop s.hashes, ?_⟩
            rw [hr]; simp
        · have hf : hashesFollow s.hashes cs ≠ true := fun h => hk ((hashesFollow_take _ _).1 h)
          have hm : min s.hashes (cs.takeWhile (· == '#')).length = (cs.takeWhile (· == '#')).length := by
            omega
          rw [hm, if_neg (by omega)]
          have := ih true ⟨start, cs.drop (cs.takeWhile (· == '#')).length, some ('"' :: cs)⟩
            (by simp only [List.length_drop]; omega)
          simp only [Bool.true_eq_false, false_and, if_false] at this
          simp only [cutRaw, hf, and_false, if_false, Bool.false_eq_true, List.cons_ne_nil]
          rw [cutRaw_hashes s.hashes _ cs (Nat.le_refl _)]
          cases hcut : cutRaw s.hashes (cs.drop (cs.takeWhile (· == '#')).length) with
          | none => rw [hcut] at this; simpa using this
          | some q =>
            obtain ⟨a, b⟩ := q
            rw [hcut] at this
            simpa using this
      · have := ih true ⟨start, cs, mark⟩ (by simp only; omega)
        simp only [Bool.true_eq_false, false_and, if_false] at this
        simp only [cutRaw, hc, false_and, if_false, Lexer.advance, List.tail_cons, and_false,
          List.cons_ne_nil]
        cases hcut : cutRaw s.hashes cs with
        | none => rw [hcut] at this; simpa using this
        | some q =>
          obtain ⟨a, b⟩ := q
          rw [hcut] at this
          simpa using this

end Styx.Editor

namespace Styx.Editor

open Styx.Spec

/-- Inside a raw string: the content, if any, and the end. -/
theorem follow_rawEnd {s : Scanner} (n row : Nat) (hrow : row = 6 ∨ row = 8) (hr : s.inRaw = true) (hh : s.inHeredoc = false)
    (hn : s.needsLang = false) (b : List Char) :
    followRule (n + 1) row s ('"' :: (List.replicate s.hashes '#' ++ b)) =
      some ([⟨.rawEnd, [], '"' :: List.replicate s.hashes '#'⟩], b) := by
  have hc : cutRaw s.hashes ('"' :: (List.replicate s.hashes '#' ++ b)) = some ([], b) := by
    have : hashesFollow s.hashes (List.replicate s.hashes '#' ++ b) = true :=
      (hashesFollow_iff _ _).2 ⟨_, rfl⟩
    simp [cutRaw, this]
  have hs := rawLoop_spec s (('"' :: (List.replicate s.hashes '#' ++ b)).length + 1) false
    (.at ('"' :: (List.replicate s.hashes '#' ++ b))) (Nat.lt_succ_self _)
  rw [show cutRaw s.hashes (Lexer.at ('"' :: (List.replicate s.hashes '#' ++ b))).here = _ from hc] at hs
  simp only [and_self, if_true] at hs
  obtain ⟨h, hs⟩ := hs
  have hscan : scan (validSymbols row) s (.at ('"' :: (List.replicate s.hashes '#' ++ b))) =
      .ok (some .rawEnd, { s with inRaw := false }, ⟨'"' :: (List.replicate s.hashes '#' ++ b), h, some b⟩) := by
    refine Eq.trans ?_ hs
    rcases hrow with rfl | rfl <;>
      simp [scan, hn, scanInside, hh, hr, validSymbols, validIn, scanRawContentOrEnd, Lexer.at]
  have hv : validSymbols row .rawEnd = true := by rcases hrow with rfl | rfl <;> rfl
  rw [followRule_step hscan]
  simp only [hv, Bool.not_true, Bool.false_eq_true, if_false, rowAfter, Option.getD_some]
  rw [between_self, ← List.cons_append, between_append]

theorem follow_raw {s : Scanner} (hr : s.inRaw = true) (hh : s.inHeredoc = false)
    (hn : s.needsLang = false) (t : List Char) :
    followRule 3 6 s t =
      match cutRaw s.hashes t with
      | some (a, b) => some ((if a = [] then [] else [⟨.rawContent, [], a⟩]) ++
          [⟨.rawEnd, [], '"' :: List.replicate s.hashes '#'⟩], b)
      | none => none := by
  have hscan : ∀ (row : Nat) (u : List Char), row = 6 ∨ row = 8 →
      scan (validSymbols row) s (.at u) = rawLoop s (u.length + 1) false (.at u) := by
    intro row u hrow
    rcases hrow with rfl | rfl <;>
      simp [scan, hn, scanInside, hh, hr, validSymbols, validIn, scanRawContentOrEnd, Lexer.at]
  have hs := rawLoop_spec s (t.length + 1) false (.at t) (Nat.lt_succ_self _)
  rw [show (Lexer.at t).here = t from rfl] at hs
  cases hc : cutRaw s.hashes t with
  | none =>
    rw [hc] at hs
    simp only [true_and] at hs
    split at hs
    · exact followRule_none ((hscan 6 t (.inl rfl)).trans hs)
    · obtain ⟨h, hs⟩ := hs
      rw [followRule_step ((hscan 6 t (.inl rfl)).trans hs)]
      simp only [show validSymbols 6 .rawContent = true from rfl, Bool.not_true, Bool.false_eq_true,
        if_false, rowAfter, Option.getD_some]
      have h2 := rawLoop_spec s 1 false (.at []) (by decide)
      simp only [Lexer.at, cutRaw, and_self, if_true] at h2
      rw [followRule_none ((hscan 8 [] (.inr rfl)).trans h2)]
  | some q =>
    obtain ⟨a, b⟩ := q
    have ht := cutRaw_append hc
    rw [hc] at hs
    simp only [true_and] at hs
    by_cases ha : a = []
    · subst ha
      simp only [List.nil_append] at ht
      rw [ht]
      simpa using follow_rawEnd 2 6 (.inl rfl) hr hh hn b
    · rw [if_neg ha] at hs
      obtain ⟨h, hs⟩ := hs
      rw [followRule_step ((hscan 6 t (.inl rfl)).trans hs)]
      simp only [show validSymbols 6 .rawContent = true from rfl, Bool.not_true, Bool.false_eq_true,
        if_false, rowAfter, Option.getD_some]
      rw [follow_rawEnd 1 8 (.inr rfl) hr hh hn b]
      simp only [ha, if_false, Lexer.at]
      rw [between_self, ht, between_append]
      rfl

theorem dropWhile_blanks {bl : List Char} (hb : SpacesTabs bl) (c : Char) (cs : List Char)
    (hc : isBlank c = false) : (bl ++ c :: cs).dropWhile isBlank = c :: cs := by
  rw [List.dropWhile_append_of_pos]
  · simp [hc]
  · intro x hx; exact (isBlank_iff x).2 (hb x hx)

/-- Outside of everything, after the blanks. -/
theorem scan_start {bl : List Char} (hb : SpacesTabs bl) (c : Char) (cs : List Char) (hc : isBlank c = false) :
    ∃ l, l.start = c :: cs ∧ l.here = c :: cs ∧ l.mark = none ∧
      scan (validSymbols 2) .create (.at (bl ++ c :: cs)) =
        (if c = '@' then .ok ((scanAtToken (validSymbols 2) l).1, .create, (scanAtToken (validSymbols 2) l).2)
         else if c = '<' then scanHeredocStart .create l
         else if c = 'r' then .ok (scanRawStart .create l .rawStart)
         else .ok (none, .create, l)) := by
  refine ⟨⟨c :: cs, c :: cs, none⟩, rfl, rfl, rfl, ?_⟩
  have hd := dropWhile_blanks hb c cs hc
  have h1 : scan (validSymbols 2) .create (.at (bl ++ c :: cs)) =
      scanOther (validSymbols 2) .create (.at (bl ++ c :: cs)) := rfl
  rw [h1]
  simp only [scanOther, Lexer.at, hd]
  have e1 : validSymbols 2 .immediateUnitAt = false := rfl
  have e2 : validSymbols 2 .immediateRawStart = false := rfl
  have e3 : validSymbols 2 .unitAt = true := rfl
  have e4 : validSymbols 2 .tagStart = true := rfl
  have e5 : validSymbols 2 .heredocStart = true := rfl
  have e6 : validSymbols 2 .rawStart = true := rfl
  simp only [e1, e2, e3, e5, e6, Bool.false_and, Bool.false_eq_true, if_false, Bool.true_and, Bool.true_or,
    show Scanner.create.inHeredoc = false from rfl, show Scanner.create.inRaw = false from rfl,
    Bool.not_false, if_true, Bool.and_self]
  have : (if c :: cs = bl ++ c :: cs then (⟨bl ++ c :: cs, bl ++ c :: cs, none⟩ : Lexer)
      else ⟨c :: cs, c :: cs, none⟩) = ⟨c :: cs, c :: cs, none⟩ := by
    split
    · rename_i h; rw [← h]
    · rfl
  rw [this]
  simp

theorem drop_takeWhile (p : Char → Bool) (cs : List Char) :
    cs.drop (cs.takeWhile p).length = cs.dropWhile p := by
  induction cs with
  | nil => rfl
  | cons c cs ih =>
    by_cases hc : p c = true
    · simp [hc, ih]
    · simp [hc]

theorem head_drop_takeWhile (p : Char → Bool) (cs : List Char) : ∀ n, n < (cs.takeWhile p).length →
    ∃ c, (cs.drop n).head? = some c ∧ p c = true := by
  induction cs with
  | nil => intro n h; simp at h
  | cons c cs ih =>
    intro n h
    by_cases hc : p c = true
    · cases n with
      | zero => exact ⟨c, rfl, hc⟩
      | succ n => simp [hc] at h; exact ih n h
    · simp [hc] at h

/-- Raw strings as the editor reads them. -/
theorem editor_raw {bl : List Char} (hb : SpacesTabs bl) (cs : List Char) :
    followRule 4 2 .create (bl ++ 'r' :: cs) =
      if (cs.takeWhile (· == '#')).length ≤ 255 then
        match cs.dropWhile (· == '#') with
        | '"' :: t =>
          match cutRaw (cs.takeWhile (· == '#')).length t with
          | some (a, b) => some (rawPieces bl (cs.takeWhile (· == '#')).length a, b)
          | none => none
        | _ => none
      else none := by
  obtain ⟨l, h1, h2, h3, hs⟩ := scan_start hb 'r' cs (by decide)
  simp only [show ('r' = '@') = False from by decide, show ('r' = '<') = False from by decide,
    if_false, if_true] at hs
  obtain ⟨start, here, mark⟩ := l
  simp only at h1 h2 h3
  subst h1 h2 h3
  simp only [scanRawStart, List.head?_cons, ne_eq, not_true_eq_false, if_false, Lexer.advance,
    List.tail_cons, stepHashes_spec] at hs
  have hdrop : cs.drop (cs.takeWhile (· == '#')).length = cs.dropWhile (· == '#') := drop_takeWhile ..
  by_cases hk : (cs.takeWhile (· == '#')).length ≤ 255
  · rw [if_pos hk]
    rw [Nat.min_eq_right hk, hdrop] at hs
    have hcs : List.replicate (cs.takeWhile (· == '#')).length '#' = cs.takeWhile (· == '#') := by
      rw [eq_comm, List.eq_replicate_iff]
      refine ⟨rfl, fun x hx => ?_⟩
      simpa using mem_takeWhile hx
    have hcd := List.takeWhile_append_dropWhile (p := (· == '#')) (l := cs)
    generalize cs.dropWhile (· == '#') = d at hs hcd
    split
    · rename_i t
      simp only [List.head?_cons, not_true_eq_false, if_false, List.tail_cons] at hs
      rw [followRule_step hs]
      simp only [show validSymbols 2 .rawStart = true from rfl, Bool.not_true, Bool.false_eq_true,
        if_false, rowAfter, Option.getD_none]
      rw [follow_raw rfl rfl rfl]
      simp only
      cases hc : cutRaw (cs.takeWhile (· == '#')).length t with
      | none => rfl
      | some q =>
        obtain ⟨a, b⟩ := q
        simp only [rawPieces]
        rw [between_append]
        have : between ('r' :: cs) t = 'r' :: (List.replicate (cs.takeWhile (· == '#')).length '#' ++ ['"']) := by
          rw [hcs]
          conv => lhs; rw [← hcd]
          rw [show 'r' :: (cs.takeWhile (· == '#') ++ '"' :: t) = ('r' :: (cs.takeWhile (· == '#') ++ ['"'])) ++ t by simp]
          rw [between_append]
        rw [this]
    · rename_i hd
      have : d.head? ≠ some '"' := by
        intro h
        cases d with
        | nil => simp at h
        | cons x xs => simp at h; subst h; exact hd xs rfl
      rw [if_pos this] at hs
      exact followRule_none hs
  · rw [if_neg hk]
    rw [Nat.min_eq_left (by omega)] at hs
    have : (cs.drop 255).head? = some '#' := by
      obtain ⟨c, h1, h2⟩ := head_drop_takeWhile (· == '#') cs 255 (by omega)
      rw [h1]; simpa using h2
    rw [if_pos (by rw [this]; decide)] at hs
    exact followRule_none hs

end Styx.Editor
