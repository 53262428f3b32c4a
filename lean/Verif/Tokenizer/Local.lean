import Verif.Tokenizer.Kinds
import Verif.Tokenizer.RunLemmas

/-! # Text after a line break does not affect the tokens before it -/

namespace Styx

open Styx.Spec

/-- The result of a step with more text behind. -/
def moreText (y : List Char) (r : Token × Tok) : Token × Tok := (r.1, ⟨r.2.remaining ++ y, r.2.pos, r.2.heredoc⟩)

/-- The result of a step further on in a document. -/
def furtherOn (k : Nat) (r : Token × Tok) : Token × Tok :=
  (⟨r.1.kind, r.1.start + k, r.1.stop + k, r.1.text⟩, ⟨r.2.remaining, r.2.pos + k, r.2.heredoc⟩)

theorem ite_map {α β : Type} (f : α → β) {P : Prop} [Decidable P] {A B : β} {A' B' : α} (h1 : P → A = f A')
    (h2 : ¬ P → B = f B') : (if P then A else B) = f (if P then A' else B') := by
  by_cases h : P
  · rw [if_pos h, if_pos h]; exact h1 h
  · rw [if_neg h, if_neg h]; exact h2 h

theorem emit_further (s : List Char) (p k : Nat) (h : Option HeredocState) (kind : TokenKind) (a b : List Char)
    (h' : Option HeredocState) : Tok.emit ⟨s, p + k, h⟩ kind a b h' = furtherOn k (Tok.emit ⟨s, p, h⟩ kind a b h') := by
  simp [Tok.emit, furtherOn]
  omega

theorem next_further (s : List Char) (p k : Nat) (h : Option HeredocState) :
    Tok.next ⟨s, p + k, h⟩ = furtherOn k (Tok.next ⟨s, p, h⟩) := by
  have e := emit_further s p k
  unfold Tok.next
  split
  · rename_i h' hh
    simp only at hh
    subst hh
    unfold Tok.heredocContent
    simp only
    split
    · exact e ..
    · split <;> exact e ..
  · rename_i hh
    simp only at hh
    subst hh
    simp only
    split
    · exact e ..
    · rename_i c cs _
      refine ite_map _ (fun _ => e ..) fun _ => ?_
      refine ite_map _ (fun _ => e ..) fun _ => ?_
      refine ite_map _ (fun _ => e ..) fun _ => ?_
      refine ite_map _ (fun _ => e ..) fun _ => ?_
      refine ite_map _ (fun _ => e ..) fun _ => ?_
      refine ite_map _ (fun _ => e ..) fun _ => ?_
      refine ite_map _ (fun _ => ?_) fun _ => ?_
      · unfold Tok.atOrTag
        split
        · exact ite_map _ (fun _ => e ..) (fun _ => e ..)
        · exact e ..
      refine ite_map _ (fun _ => ?_) fun _ => ?_
      · split <;> exact e ..
      refine ite_map _ (fun _ => ?_) fun _ => ?_
      · split <;> first | exact e .. | (unfold Tok.bareScalar; exact e ..)
      refine ite_map _ (fun _ => ?_) fun _ => ?_
      · split
        · refine ite_map _ (fun _ => ?_) (fun _ => e ..)
          unfold Tok.heredocStart
          exact ite_map _ (fun _ => e ..) (fun _ => e ..)
        · exact e ..
      refine ite_map _ (fun _ => ?_) fun _ => ?_
      · unfold Tok.rawString
        simp only
        split
        · split <;> exact e ..
        · exact e ..
      refine ite_map _ (fun _ => e ..) fun _ => ?_
      refine ite_map _ (fun _ => e ..) fun _ => ?_
      refine ite_map _ (fun _ => e ..) fun _ => ?_
      exact ite_map _ (fun _ => by unfold Tok.bareScalar; exact e ..) fun _ => e ..

/-! ## More text behind -/

/-- The text ends with a line break. -/
def EndsNl (x : List Char) : Prop := x.getLast? = some '\n'

theorem EndsNl.tail {c : Char} {x : List Char} (h : EndsNl (c :: x)) (hx : x ≠ []) : EndsNl x := by
  cases x with
  | nil => exact absurd rfl hx
  | cons d x => simpa [EndsNl] using h

theorem EndsNl.right {a b : List Char} (h : EndsNl (a ++ b)) (hb : b ≠ []) : EndsNl b := by
  rw [EndsNl, List.getLast?_append] at h
  cases hl : b.getLast? with
  | none => rw [List.getLast?_eq_none_iff] at hl; exact absurd hl hb
  | some c => rw [hl] at h; simpa [EndsNl, hl] using h

theorem EndsNl.ne {x : List Char} (h : EndsNl x) : x ≠ [] := by rintro rfl; simp [EndsNl] at h

theorem EndsNl.tail' {c : Char} {x : List Char} (h : EndsNl (c :: x)) (hc : c ≠ '\n') : EndsNl x := by
  refine h.tail ?_
  rintro rfl
  exact hc (by simpa [EndsNl] using h)

theorem while_more {p : Char → Bool} (hp : p '\n' = false) {x : List Char} (hx : EndsNl x) (y : List Char) :
    (x ++ y).takeWhile p = x.takeWhile p ∧ (x ++ y).dropWhile p = x.dropWhile p ++ y ∧ EndsNl (x.dropWhile p) := by
  induction x with
  | nil => exact absurd rfl hx.ne
  | cons c x ih =>
    cases hc : p c with
    | false => exact ⟨by simp [hc], by simp [hc], by simpa [hc] using hx⟩
    | true =>
      have hn : c ≠ '\n' := by rintro rfl; rw [hp] at hc; cases hc
      obtain ⟨h1, h2, h3⟩ := ih (hx.tail' hn)
      exact ⟨by simp [hc, h1], by simp [hc, h2], by simpa [hc] using h3⟩

theorem scanTagTail_more {x : List Char} (hx : EndsNl x) (y : List Char) :
    scanTagTail (x ++ y) = ((scanTagTail x).1, (scanTagTail x).2 ++ y) ∧ EndsNl (scanTagTail x).2 := by
  induction x with
  | nil => exact absurd rfl hx.ne
  | cons c x ih =>
    by_cases hn : c = '\n'
    · subst hn
      have : isTagChar '\n' = false := by decide
      rw [List.cons_append, scanTagTail, scanTagTail]
      simp [this, hx]
    · have hx' := hx.tail' hn
      obtain ⟨h1, h2⟩ := ih hx'
      obtain ⟨d, x, rfl⟩ := List.exists_cons_of_ne_nil hx'.ne
      rw [List.cons_append, scanTagTail, scanTagTail, h1, show (d :: x ++ y).head? = (d :: x).head? from rfl]
      by_cases h3 : c = 'r' ∧ ((d :: x).head? = some '#' ∨ (d :: x).head? = some '"')
      · rw [if_pos h3, if_pos h3]
        exact ⟨rfl, hx⟩
      · rw [if_neg h3, if_neg h3]
        by_cases h4 : isTagChar c = true
        · rw [if_pos h4, if_pos h4]
          exact ⟨rfl, h2⟩
        · rw [if_neg h4, if_neg h4]
          exact ⟨rfl, hx⟩

theorem scanTagSegment_more {c : Char} {x : List Char} (hx : EndsNl (c :: x)) (hc : c ≠ '\n') (y : List Char) :
    scanTagSegment (c :: x ++ y) = ((scanTagSegment (c :: x)).1, (scanTagSegment (c :: x)).2 ++ y) ∧
      EndsNl (scanTagSegment (c :: x)).2 := by
  obtain ⟨h1, h2⟩ := scanTagTail_more (hx.tail' hc) y
  rw [List.cons_append, scanTagSegment, scanTagSegment, h1]
  exact ⟨rfl, h2⟩

theorem scanTagChain_more (n : Nat) {x : List Char} (hx : EndsNl x) (y : List Char) :
    scanTagChain n (x ++ y) = ((scanTagChain n x).1, (scanTagChain n x).2 ++ y) ∧ EndsNl (scanTagChain n x).2 := by
  induction n generalizing x with
  | zero => exact ⟨rfl, hx⟩
  | succ n ih =>
    by_cases h : ∃ c cs, x = '/' :: '@' :: c :: cs
    · obtain ⟨c, cs, rfl⟩ := h
      simp only [List.cons_append, scanTagChain]
      by_cases hc : isTagStart c = true
      · rw [if_pos hc, if_pos hc]
        have hn : c ≠ '\n' := by rintro rfl; revert hc; decide
        obtain ⟨h1, h2⟩ := scanTagSegment_more ((hx.tail (by simp)).tail (by simp)) hn y
        obtain ⟨h3, h4⟩ := ih h2
        rw [List.cons_append] at h1
        rw [h1, h3]
        exact ⟨rfl, h4⟩
      · rw [if_neg hc, if_neg hc]
        exact ⟨rfl, hx⟩
    · have h1 : scanTagChain (n + 1) x = ([], x) := by
        unfold scanTagChain
        split
        · rename_i h2; cases h2
        · rename_i h2; exact absurd ⟨_, _, rfl⟩ h
        · rfl
      have h2 : scanTagChain (n + 1) (x ++ y) = ([], x ++ y) := by
        unfold scanTagChain
        split
        · rename_i h2; cases h2
        · rename_i c cs _ h2
          exfalso
          rcases x with _ | ⟨a, _ | ⟨b, _ | ⟨d, x⟩⟩⟩
          · exact hx.ne rfl
          · simp at h2; rw [h2.1] at hx; simp [EndsNl] at hx
          · simp at h2; rw [h2.2.1] at hx; simp [EndsNl] at hx
          · simp at h2; exact h ⟨d, x, by rw [h2.1, h2.2.1]⟩
        · rfl
      rw [h1, h2]
      exact ⟨rfl, hx⟩

/-- The fuel for a chain. -/
theorem scanTagChain_fuel' : ∀ (n m : Nat) (s : List Char), s.length ≤ n → s.length ≤ m → scanTagChain n s = scanTagChain m s := by
  intro n
  induction n with
  | zero =>
    intro m s h _
    have : s = [] := by simpa using h
    subst this
    cases m <;> rfl
  | succ n ih =>
    intro m s h1 h2
    cases m with
    | zero =>
      have : s = [] := by simpa using h2
      subst this; rfl
    | succ m =>
      unfold scanTagChain
      split
      · rename_i h; cases h
      · rename_i c cs h
        cases h
        have hl : (scanTagSegment (c :: cs)).2.length ≤ cs.length := by
          have := congrArg List.length (scanTagSegment_append (c :: cs))
          simp [scanTagSegment] at this ⊢
          omega
        simp at h1 h2
        simp only
        rw [ih m _ (by omega) (by omega)]
      · rfl

theorem scanQuoted_more {x a b : List Char} (h : scanQuoted x = (true, a, b)) (y : List Char) :
    scanQuoted (x ++ y) = (true, a, b ++ y) := by
  fun_induction scanQuoted x generalizing a b with
  | case1 => cases h
  | case2 => cases h; rw [List.cons_append, scanQuoted.eq_def]; simp
  | case3 => cases h
  | case4 d ds ok' a' b' hq h1 ih' =>
    cases h
    rw [List.cons_append, List.cons_append, scanQuoted.eq_def]
    simp [ih' hq]
  | case5 c cs h1 h2 ok' a' b' hq ih' =>
    cases h
    rw [List.cons_append, scanQuoted.eq_def]
    simp [h1, h2, ih' hq]

theorem scanQuoted_all {x a b : List Char} (h : scanQuoted x = (false, a, b)) : b = [] := by
  fun_induction scanQuoted x generalizing a b <;> simp_all

theorem hashesFollow_more {n : Nat} {x : List Char} (h : hashesFollow n x = true) (y : List Char) :
    hashesFollow n (x ++ y) = true ∧ n ≤ x.length := by
  induction n generalizing x with
  | zero => exact ⟨by simp [hashesFollow], by simp⟩
  | succ n ih =>
    cases x with
    | nil => simp [hashesFollow] at h
    | cons c x =>
      simp only [hashesFollow, Bool.if_false_right, List.cons_append] at h ⊢
      simp at h
      obtain ⟨h1, h2⟩ := ih h.2
      exact ⟨by simp [h.1, h1], by simp; omega⟩

theorem scanRaw_all {n : Nat} {x a b : List Char} (h : scanRaw n x = (false, a, b)) : b = [] := by
  induction x generalizing a b with
  | nil => simp [scanRaw] at h; exact h.2
  | cons c x ih =>
    rw [scanRaw] at h
    split at h
    · cases h
    · simp at h
      obtain ⟨h1, h2, h3⟩ := h
      exact ih (Prod.ext h1 (Prod.ext rfl h3))

theorem hashesFollow_less {n : Nat} {x : List Char} (hx : EndsNl x) {y : List Char} (h : hashesFollow n (x ++ y) = true) :
    hashesFollow n x = true := by
  induction n generalizing x with
  | zero => simp [hashesFollow]
  | succ n ih =>
    cases x with
    | nil => exact absurd rfl hx.ne
    | cons c x =>
      simp only [hashesFollow, Bool.if_false_right, List.cons_append] at h ⊢
      simp at h
      simp [h.1]
      exact ih (hx.tail' (by rw [h.1]; decide)) h.2

theorem scanRaw_more {n : Nat} {x a b : List Char} (hx : EndsNl x) (h : scanRaw n x = (true, a, b)) (y : List Char) :
    scanRaw n (x ++ y) = (true, a, b ++ y) := by
  induction x generalizing a b with
  | nil => simp [scanRaw] at h
  | cons c x ih =>
    rw [scanRaw] at h
    rw [List.cons_append, scanRaw]
    split at h
    · rename_i hc
      cases h
      obtain ⟨h1, h2⟩ := hashesFollow_more hc.2 y
      rw [if_pos ⟨hc.1, h1⟩, List.take_append_of_le_length h2, List.drop_append_of_le_length h2]
    · rename_i hc
      simp only [Prod.mk.injEq] at h
      obtain ⟨h1, rfl, rfl⟩ := h
      have hne : x ≠ [] := by rintro rfl; simp [scanRaw] at h1
      have := ih (hx.tail hne) (Prod.ext h1 (Prod.ext rfl rfl))
      rw [if_neg, this]
      rintro ⟨h2, h3⟩
      exact hc ⟨h2, hashesFollow_less (hx.tail hne) h3⟩

theorem stripPrefix_more {d : List Char} (hd : '\n' ∉ d) {x : List Char} (hx : EndsNl x) (y : List Char) :
    stripPrefix d (x ++ y) = (stripPrefix d x).map (· ++ y) ∧ ∀ r, stripPrefix d x = some r → EndsNl r := by
  induction d generalizing x with
  | nil => exact ⟨rfl, fun r h => by cases h; exact hx⟩
  | cons c d ih =>
    cases x with
    | nil => exact absurd rfl hx.ne
    | cons e x =>
      simp only [List.mem_cons, not_or] at hd
      rw [List.cons_append, stripPrefix, stripPrefix]
      split
      · rename_i he
        exact ih hd.2 (hx.tail' (by intro h; exact hd.1 (by simp_all)))
      · exact ⟨rfl, by simp⟩

theorem findDelim_more {d : List Char} (hd : '\n' ∉ d) {x : List Char} (hx : EndsNl x) (y : List Char) :
    findDelim d (x ++ y) = findDelim d x := by
  obtain ⟨h1, h2, h3⟩ := while_more (p := isBlank) (by decide) hx y
  obtain ⟨h4, h5⟩ := stripPrefix_more hd h3 y
  unfold findDelim
  rw [h1, h2, h4]
  cases h6 : stripPrefix d (x.dropWhile isBlank) with
  | none => rfl
  | some r =>
    have hr := h5 r h6
    have : ((r ++ y).isEmpty || startsWith (r ++ y) ['\n'] || startsWith (r ++ y) ['\r', '\n']) =
        (r.isEmpty || startsWith r ['\n'] || startsWith r ['\r', '\n']) := by
      rcases r with _ | ⟨a, _ | ⟨b, r⟩⟩
      · exact absurd rfl hr.ne
      · have : a = '\n' := by simpa [EndsNl] using hr
        subst this
        simp [startsWith, stripPrefix]
      · simp [startsWith, stripPrefix]
        congr 1
        · split <;> rfl
        · split
          · split <;> rfl
          · rfl
    simp only [Option.map_some, this]

theorem scanHeredoc_all {d x a b : List Char} (h : scanHeredoc d x = (a, b, none)) : b = [] := by
  induction x generalizing a b with
  | nil => simp [scanHeredoc] at h; exact h.2
  | cons c x ih =>
    rw [scanHeredoc] at h
    split at h
    · split at h
      · cases h
      · simp at h
        exact ih (Prod.ext rfl (Prod.ext h.2.1 h.2.2))
    · simp at h
      exact ih (Prod.ext rfl (Prod.ext h.2.1 h.2.2))

theorem scanHeredoc_more {d : List Char} (hd : '\n' ∉ d) {x a b : List Char} (hx : EndsNl x) {i : Nat}
    (h : scanHeredoc d x = (a, b, some i)) (hb : b ≠ []) (y : List Char) :
    scanHeredoc d (x ++ y) = (a, b ++ y, some i) := by
  induction x generalizing a b with
  | nil => simp [scanHeredoc] at h
  | cons c x ih =>
    rw [scanHeredoc] at h
    rw [List.cons_append, scanHeredoc]
    have hne : x ≠ [] := by
      rintro rfl
      split at h
      · split at h
        · simp at h; exact hb h.2.1
        · simp [scanHeredoc] at h
      · simp [scanHeredoc] at h
    have hx' := hx.tail hne
    have hc : (c = '\n' ∨ x ++ y = []) ↔ (c = '\n' ∨ x = []) := by simp [hne]
    rw [findDelim_more hd hx' y]
    split at h
    · rename_i hcn
      rw [if_pos (hc.2 hcn)]
      split at h
      · simp at h
        obtain ⟨rfl, rfl, rfl⟩ := h
        rfl
      · simp only [Prod.mk.injEq] at h
        obtain ⟨rfl, h2, h3⟩ := h
        rw [ih hx' (Prod.ext rfl (Prod.ext h2 h3)) hb]
    · rename_i hcn
      rw [if_neg (fun h => hcn (hc.1 h))]
      simp only [Prod.mk.injEq] at h
      obtain ⟨rfl, h2, h3⟩ := h
      rw [ih hx' (Prod.ext rfl (Prod.ext h2 h3)) hb]

theorem scanLang_more {x : List Char} (hx : EndsNl x) (y : List Char) :
    scanLang (x ++ y) = ((scanLang x).1, (scanLang x).2 ++ y) ∧ EndsNl (scanLang x).2 := by
  obtain ⟨c, x, rfl⟩ := List.exists_cons_of_ne_nil hx.ne
  by_cases hc : c = ','
  · subst hc
    have hx' := hx.tail' (by decide)
    obtain ⟨d, x, rfl⟩ := List.exists_cons_of_ne_nil hx'.ne
    simp only [List.cons_append, scanLang]
    by_cases hd : d.isLower = true
    · rw [if_pos hd, if_pos hd]
      obtain ⟨k1, k2, k3⟩ := while_more (p := isLangChar) (by decide) (hx'.tail' (by rintro rfl; revert hd; decide)) y
      rw [k1, k2]
      exact ⟨rfl, k3⟩
    · rw [if_neg hd, if_neg hd]
      exact ⟨rfl, hx'⟩
  · have h : ∀ z, scanLang (c :: z) = ([], c :: z) := by
      intro z
      unfold scanLang
      split
      · rename_i h; cases h; exact absurd rfl hc
      · rfl
    rw [List.cons_append, h, h]
    exact ⟨rfl, hx⟩

theorem scanNewlineOpt_more {x : List Char} (hx : EndsNl x) (y : List Char) :
    scanNewlineOpt (x ++ y) = ((scanNewlineOpt x).1, (scanNewlineOpt x).2 ++ y) := by
  rcases x with _ | ⟨a, _ | ⟨b, x⟩⟩
  · exact absurd rfl hx.ne
  · have : a = '\n' := by simpa [EndsNl] using hx
    subst this
    rfl
  · by_cases h1 : a = '\r'
    · subst h1
      by_cases h2 : b = '\n'
      · subst h2; rfl
      · simp [scanNewlineOpt, h2]
    · by_cases h2 : a = '\n'
      · subst h2; rfl
      · simp [scanNewlineOpt, h1, h2]

theorem emit_more (x y : List Char) (p : Nat) (h : Option HeredocState) (kind : TokenKind) (a b : List Char)
    (h' : Option HeredocState) : Tok.emit ⟨x ++ y, p, h⟩ kind a (b ++ y) h' = moreText y (Tok.emit ⟨x, p, h⟩ kind a b h') :=
  rfl

/-- A step that leaves something of the text, or the line break at its end, does not depend on what follows. -/
theorem next_more {x : List Char} (y : List Char) (p : Nat) {h : Option HeredocState} (hx : EndsNl x)
    (hd : ∀ s, h = some s → '\n' ∉ s.delimiter)
    (hr : (Tok.next ⟨x, p, h⟩).2.remaining ≠ [] ∨ (Tok.next ⟨x, p, h⟩).1.kind = .newline ∨
      (Tok.next ⟨x, p, h⟩).1.kind = .heredocStart) :
    Tok.next ⟨x ++ y, p, h⟩ = moreText y (Tok.next ⟨x, p, h⟩) := by
  have e := emit_more x y p
  revert hr
  unfold Tok.next
  cases h with
  | some s =>
    have hd := hd s rfl
    simp only
    unfold Tok.heredocContent
    simp only
    rw [findDelim_more hd hx y]
    cases hf : findDelim s.delimiter x with
    | some i =>
      intro _
      simp only
      have hle : i + s.delimiter.length ≤ x.length := by
        obtain ⟨ind, r, h1, h2, h3, _⟩ := findDelim_some hf
        rw [h1]; simp [h2]
      rw [List.take_append_of_le_length hle, List.drop_append_of_le_length hle]
      exact e ..
    | none =>
      simp only
      rcases hs : scanHeredoc s.delimiter x with ⟨a, b, _ | i⟩
      · intro hr
        have := scanHeredoc_all hs
        subst this
        simp [Tok.emit] at hr
      · intro hr
        have hb : b ≠ [] := by simpa [Tok.emit] using hr
        rw [scanHeredoc_more hd hx hs hb y]
        exact e ..
  | none =>
    simp only
    cases x with
    | nil => exact absurd rfl hx.ne
    | cons c cs =>
      simp only [List.cons_append]
      by_cases hn : c = '\n'
      · subst hn
        intro _
        simp only [Char.reduceEq, if_false, false_and, show isBlank '\n' = false from rfl, Bool.false_eq_true, if_true]
        exact e ..
      · have hx' := hx.tail' hn
        have hh : (cs ++ y).head? = cs.head? := by
          obtain ⟨d, ds, rfl⟩ := List.exists_cons_of_ne_nil hx'.ne
          rfl
        have ht : (cs ++ y).tail = cs.tail ++ y := by
          obtain ⟨d, ds, rfl⟩ := List.exists_cons_of_ne_nil hx'.ne
          rfl
        rw [hh, ht]
        obtain ⟨b1, b2, -⟩ := while_more (p := isBareChar) (by decide) hx y
        rw [List.cons_append] at b1 b2
        have hbare : Tok.bareScalar ⟨c :: (cs ++ y), p, none⟩ = moreText y (Tok.bareScalar ⟨c :: cs, p, none⟩) := by
          unfold Tok.bareScalar
          simp only
          rw [b1, b2]
          exact e ..
        intro hr
        by_cases h1 : c = '{'
        · rw [if_pos h1, if_pos h1]; exact e ..
        rw [if_neg h1] at hr ⊢; rw [if_neg h1]
        by_cases h1 : c = '}'
        · rw [if_pos h1, if_pos h1]; exact e ..
        rw [if_neg h1] at hr ⊢; rw [if_neg h1]
        by_cases h1 : c = '('
        · rw [if_pos h1, if_pos h1]; exact e ..
        rw [if_neg h1] at hr ⊢; rw [if_neg h1]
        by_cases h1 : c = ')'
        · rw [if_pos h1, if_pos h1]; exact e ..
        rw [if_neg h1] at hr ⊢; rw [if_neg h1]
        by_cases h1 : c = ','
        · rw [if_pos h1, if_pos h1]; exact e ..
        rw [if_neg h1] at hr ⊢; rw [if_neg h1]
        by_cases h1 : c = '>'
        · rw [if_pos h1, if_pos h1]; exact e ..
        rw [if_neg h1] at hr ⊢; rw [if_neg h1]
        by_cases h1 : c = '@'
        · rw [if_pos h1, if_pos h1]
          obtain ⟨d, ds, rfl⟩ := List.exists_cons_of_ne_nil hx'.ne
          simp only [List.cons_append, Tok.atOrTag]
          by_cases h2 : isTagStart d = true
          · rw [if_pos h2, if_pos h2]
            have hdn : d ≠ '\n' := by rintro rfl; revert h2; decide
            obtain ⟨k1, k2⟩ := scanTagSegment_more hx' hdn y
            rw [List.cons_append] at k1
            rw [k1]
            simp only
            rw [scanTagChain_fuel' ((scanTagSegment (d :: ds)).2.length) ((scanTagSegment (d :: ds)).2 ++ y).length _
              (Nat.le_refl _) (by simp)]
            obtain ⟨k3, -⟩ := scanTagChain_more ((scanTagSegment (d :: ds)).2 ++ y).length k2 y
            rw [k3]
            exact e ..
          · rw [if_neg h2, if_neg h2]; exact e none .at ['@'] (d :: ds) none
        rw [if_neg h1] at hr ⊢; rw [if_neg h1]
        by_cases h1 : c = '"'
        · rw [if_pos h1] at hr ⊢; rw [if_pos h1]
          rcases hq : scanQuoted cs with ⟨_ | _, a, b⟩
          · rw [hq] at hr
            have := scanQuoted_all hq
            subst this
            simp [Tok.emit] at hr
          · rw [scanQuoted_more hq y]
            exact e ..
        rw [if_neg h1] at hr ⊢; rw [if_neg h1]
        by_cases h1 : c = '/'
        · rw [if_pos h1, if_pos h1]
          obtain ⟨d, ds, rfl⟩ := List.exists_cons_of_ne_nil hx'.ne
          by_cases h2 : d = '/'
          · subst h2
            have hx2 := hx'.tail' (by decide)
            obtain ⟨f, fs, rfl⟩ := List.exists_cons_of_ne_nil hx2.ne
            by_cases h3 : f = '/'
            · subst h3
              obtain ⟨k1, k2, -⟩ := while_more (p := notEol) (by decide) (hx2.tail' (by decide)) y
              simp only [List.cons_append]
              rw [k1, k2]
              exact e ..
            · obtain ⟨k1, k2, -⟩ := while_more (p := notEol) (by decide) hx2 y
              rw [List.cons_append] at k1 k2
              simp only [List.cons_append]
              split
              · rename_i heq; simp at heq; exact absurd heq.1 h3
              · rename_i heq
                cases heq
                split
                · rename_i heq; simp at heq; exact absurd heq.1 h3
                · rename_i heq
                  cases heq
                  rw [k1, k2]
                  exact e ..
                · rename_i h; exact absurd rfl (h _)
              · rename_i h; exact absurd rfl (h _)
          · simp only [List.cons_append]
            split
            · rename_i heq; simp at heq; exact absurd heq.1 h2
            · rename_i heq; simp at heq; exact absurd heq.1 h2
            · split
              · rename_i heq; simp at heq; exact absurd heq.1 h2
              · rename_i heq; simp at heq; exact absurd heq.1 h2
              · exact hbare
        rw [if_neg h1] at hr ⊢; rw [if_neg h1]
        by_cases h1 : c = '<' ∧ cs.head? = some '<'
        · rw [if_pos h1] at hr ⊢; rw [if_pos h1]
          obtain ⟨d, ds, rfl⟩ := List.exists_cons_of_ne_nil hx'.ne
          have hd' : d = '<' := by simpa using h1.2
          subst hd'
          have hx2 := hx'.tail' (by decide)
          obtain ⟨f, fs, rfl⟩ := List.exists_cons_of_ne_nil hx2.ne
          simp only [List.tail_cons, List.cons_append]
          by_cases h2 : f.isUpper = true
          · rw [if_pos h2, if_pos h2]
            obtain ⟨k1, k2, k3⟩ := while_more (p := isDelimChar) (by decide) hx2 y
            rw [List.cons_append] at k1 k2
            unfold Tok.heredocStart
            simp only
            rw [k1, k2]
            refine ite_map _ (fun _ => e ..) fun _ => ?_
            obtain ⟨k4, k5⟩ := scanLang_more k3 y
            rw [k4]
            simp only
            rw [scanNewlineOpt_more k5 y]
            exact e ..
          · rw [if_neg h2, if_neg h2]; exact e none .error ['<', '<'] (f :: fs) none
        rw [if_neg h1] at hr ⊢; rw [if_neg h1]
        by_cases h1 : c = 'r' ∧ (cs.head? = some '#' ∨ cs.head? = some '"')
        · rw [if_pos h1] at hr ⊢; rw [if_pos h1]
          unfold Tok.rawString at hr ⊢
          obtain ⟨k1, k2, k3⟩ := while_more (p := (· == '#')) (by decide) hx' y
          simp only at hr ⊢
          rw [k1, k2]
          obtain ⟨f, fs, hf⟩ := List.exists_cons_of_ne_nil k3.ne
          rw [hf] at hr k3 ⊢
          by_cases h2 : f = '"'
          · subst h2
            simp only [List.cons_append] at hr ⊢
            rcases hq : scanRaw (satHash (cs.takeWhile (· == '#')).length) fs with ⟨_ | _, a, b⟩
            · rw [hq] at hr
              have := scanRaw_all hq
              subst this
              simp [Tok.emit] at hr
            · rw [scanRaw_more (k3.tail' (by decide)) hq y]
              exact e ..
          · simp only [List.cons_append]
            split
            · rename_i heq; simp at heq; exact absurd heq.1 h2
            · split
              · rename_i heq; simp at heq; exact absurd heq.1 h2
              · exact e none .error ('r' :: _) (f :: fs) none
        rw [if_neg h1] at hr ⊢; rw [if_neg h1]
        by_cases h1 : isBlank c = true
        · rw [if_pos h1, if_pos h1]
          obtain ⟨k1, k2, -⟩ := while_more (p := isBlank) (by decide) hx y
          rw [List.cons_append] at k1 k2
          rw [k1, k2]
          exact e ..
        rw [if_neg h1] at hr ⊢; rw [if_neg h1]
        rw [if_neg hn, if_neg hn]
        refine ite_map _ (fun _ => e ..) fun _ => ?_
        exact ite_map _ (fun _ => hbare) fun _ => e ..

/-! ## Less text behind -/

theorem scanQuoted_less {x a b : List Char} (h : scanQuoted x = (false, a, b)) (y : List Char) :
    x.length ≤ (scanQuoted (x ++ y)).2.1.length ∨ ∃ w, x = w ++ ['\\'] := by
  fun_induction scanQuoted x generalizing a b with
  | case1 => simp
  | case2 => cases h
  | case3 => exact .inr ⟨[], rfl⟩
  | case4 d ds ok' a' b' hq h1 ih' =>
    cases h
    rcases ih' hq with h | ⟨w, rfl⟩
    · left
      rw [List.cons_append, List.cons_append, scanQuoted.eq_def]
      simp
      omega
    · exact .inr ⟨'\\' :: d :: w, rfl⟩
  | case5 c cs h1 h2 ok' a' b' hq ih' =>
    cases h
    rcases ih' hq with h | ⟨w, rfl⟩
    · left
      rw [List.cons_append, scanQuoted.eq_def]
      simp [h1, h2]
      omega
    · exact .inr ⟨c :: w, rfl⟩

theorem scanRaw_less {n : Nat} {x a b : List Char} (hx : EndsNl x) (h : scanRaw n x = (false, a, b)) (y : List Char) :
    x.length ≤ (scanRaw n (x ++ y)).2.1.length := by
  induction x generalizing a b with
  | nil => simp
  | cons c x ih =>
    rw [scanRaw] at h
    split at h
    · cases h
    · rename_i hc
      simp only [Prod.mk.injEq] at h
      rw [List.cons_append, scanRaw]
      by_cases hx' : x = []
      · subst hx'
        have : c = '\n' := by simpa [EndsNl] using hx
        subst this
        simp
      · have := ih (hx.tail hx') (Prod.ext h.1 (Prod.ext rfl rfl))
        rw [if_neg]
        · simpa using this
        · rintro ⟨h2, h3⟩
          exact hc ⟨h2, hashesFollow_less (hx.tail hx') h3⟩

theorem scanHeredoc_less {d : List Char} (hd : '\n' ∉ d) {x a b : List Char} (hx : EndsNl x)
    (h : scanHeredoc d x = (a, b, none)) (y : List Char) : x.length ≤ (scanHeredoc d (x ++ y)).1.length := by
  induction x generalizing a b with
  | nil => simp
  | cons c x ih =>
    rw [scanHeredoc] at h
    rw [List.cons_append, scanHeredoc]
    by_cases hx' : x = []
    · subst hx'
      split <;> (try split) <;> simp
    · have hE := hx.tail hx'
      have hc : (c = '\n' ∨ x ++ y = []) ↔ (c = '\n' ∨ x = []) := by simp [hx']
      rw [findDelim_more hd hE y]
      split at h
      · rename_i hcn
        rw [if_pos (hc.2 hcn)]
        split at h
        · cases h
        · simp only [Prod.mk.injEq] at h
          have := ih hE (Prod.ext rfl (Prod.ext rfl h.2.2))
          simpa using this
      · rename_i hcn
        rw [if_neg (fun h => hcn (hc.1 h))]
        simp only [Prod.mk.injEq] at h
        have := ih hE (Prod.ext rfl (Prod.ext rfl h.2.2))
        simpa using this

theorem delimiter_nl {d : List Char} (h : Delimiter d) : '\n' ∉ d := by
  obtain ⟨c, r, rfl, h1, h2, -⟩ := h
  intro hm
  rcases List.mem_cons.1 hm with rfl | hm
  · revert h1; decide
  · rcases h2 _ hm with h | h | h <;> revert h <;> decide

/-- An error or the text of a heredoc that takes everything still does with more text behind. -/
theorem next_takes {x : List Char} (y : List Char) (p : Nat) {h : Option HeredocState} (hx : EndsNl x)
    (hi : TokInv ⟨x, p, h⟩) (hn : ¬ (x.head? = some '\n' ∧ h = none)) :
    (Tok.next ⟨x, p, h⟩).2.remaining = [] →
    ((Tok.next ⟨x, p, h⟩).1.kind = .error ∨ (Tok.next ⟨x, p, h⟩).1.kind = .heredocContent) →
    x.length ≤ (Tok.next ⟨x ++ y, p, h⟩).1.text.length ∧ (Tok.next ⟨x ++ y, p, h⟩).1.kind ≠ .newline := by
  refine next_ind ⟨x, p, h⟩ (fun r => r.2.remaining = [] → (r.1.kind = .error ∨ r.1.kind = .heredocContent) →
    x.length ≤ (Tok.next ⟨x ++ y, p, h⟩).1.text.length ∧ (Tok.next ⟨x ++ y, p, h⟩).1.kind ≠ .newline) ?_ ?_ ?_ ?_ ?_
    ?_ ?_ ?_ ?_ ?_ ?_ ?_ ?_ ?_ ?_
  case refine_1 =>
    intro s hs hr hk
    have hD := hi s hs
    have hd := delimiter_nl hD
    simp only at hs
    subst hs
    unfold Tok.heredocContent at hr hk
    simp only at hr hk
    cases hf : findDelim s.delimiter x with
    | some i =>
      rw [hf] at hk
      rcases hk with hk | hk <;> simp [Tok.emit] at hk
    | none =>
      rw [hf] at hr
      simp only at hr
      have e : Tok.next ⟨x ++ y, p, some s⟩ = Tok.heredocContent ⟨x ++ y, p, some s⟩ s := rfl
      rw [e]
      unfold Tok.heredocContent
      simp only
      rw [findDelim_more hd hx y, hf]
      simp only
      rcases hs : scanHeredoc s.delimiter x with ⟨a, b, _ | i⟩
      · have := scanHeredoc_less hd hx hs y
        split
        · rename_i a' b' i' heq
          rw [heq] at this
          exact ⟨this, by simp [Tok.emit]⟩
        · rename_i a' b' heq
          rw [heq] at this
          exact ⟨this, by simp [Tok.emit]⟩
      · exfalso
        rw [hs] at hr
        have hb : b = [] := by simpa [Tok.emit] using hr
        subst hb
        have := (scanHeredoc_content _ _ _ _ _ hD.ne_nil hs).2
        obtain ⟨ind, r, h1, -⟩ := findDelim_some this
        exact hD.ne_nil (by simp_all)
  case refine_3 =>
    intro k c cs _ _ hm _ hk
    rcases hk with rfl | rfl <;> simp at hm
  case refine_4 =>
    intro cs _ _ _ hk
    unfold Tok.atOrTag at hk
    split at hk
    · split at hk <;> rcases hk with hk | hk <;> simp [Tok.emit] at hk
    · rcases hk with hk | hk <;> simp [Tok.emit] at hk
  case refine_6 =>
    intro cs a b h1 h2 h3 _ _
    simp only at h1 h2
    subst h1 h2
    rcases scanQuoted_less h3 y with h | ⟨w, rfl⟩
    · rcases hq : scanQuoted (cs ++ y) with ⟨_ | _, a', b'⟩ <;> rw [hq] at h
      all_goals
        have e : Tok.next ⟨'"' :: (cs ++ y), p, none⟩ = (match scanQuoted (cs ++ y) with
          | (true, a, b) => Tok.emit ⟨'"' :: (cs ++ y), p, none⟩ .quotedScalar ('"' :: a) b none
          | (false, a, b) => Tok.emit ⟨'"' :: (cs ++ y), p, none⟩ .error ('"' :: a) b none) := rfl
        rw [List.cons_append, e, hq]
        exact ⟨by simpa [Tok.emit] using h, by simp [Tok.emit]⟩
    · have := hx.tail' (by decide)
      simp [EndsNl] at this
  case refine_9 =>
    intro d ds _ h2 hd hr hk
    simp only at h2
    subst h2
    exfalso
    unfold Tok.heredocStart at hr hk
    simp only at hr hk
    split at hr
    · obtain ⟨-, -, h3⟩ := while_more (p := isDelimChar) (by decide) ((hx.tail (by simp)).tail (by simp)) y
      exact h3.ne hr
    · rename_i hl
      rw [if_neg hl] at hk
      rcases hk with hk | hk <;> simp [Tok.emit] at hk
  case refine_10 =>
    intro ds _ h2 _ hr
    simp only at h2
    subst h2
    have : ds = [] := hr
    subst this
    simp [EndsNl] at hx
  case refine_11 =>
    intro cs h1 h2 h3 hr hk
    simp only at h1 h2
    subst h1 h2
    have hx' := hx.tail' (by decide)
    unfold Tok.rawString at hr hk
    simp only at hr hk
    have e : Tok.next ⟨'r' :: (cs ++ y), p, none⟩ = Tok.rawString ⟨'r' :: (cs ++ y), p, none⟩ (cs ++ y) := by
      have hh : (cs ++ y).head? = cs.head? := by
        obtain ⟨d, ds, rfl⟩ := List.exists_cons_of_ne_nil hx'.ne
        rfl
      unfold Tok.next
      simp only [hh, h3, and_self, if_true, Char.reduceEq, if_false, false_and]
    rw [List.cons_append, e]
    unfold Tok.rawString
    obtain ⟨k1, k2, k3⟩ := while_more (p := (· == '#')) (by decide) hx' y
    simp only
    rw [k1, k2]
    have hl : cs.length = (cs.takeWhile (· == '#')).length + (cs.dropWhile (· == '#')).length := by
      rw [← List.length_append, List.takeWhile_append_dropWhile]
    obtain ⟨f, fs, hf⟩ := List.exists_cons_of_ne_nil k3.ne
    rw [hf] at hr hk k3 hl ⊢
    by_cases h2 : f = '"'
    · subst h2
      simp only [List.cons_append] at hr hk ⊢
      rcases hq : scanRaw (satHash (cs.takeWhile (· == '#')).length) fs with ⟨_ | _, a, b⟩
      · have := scanRaw_less (k3.tail' (by decide)) hq y
        simp only [List.length_cons] at hl
        split <;> (rename_i heq; rw [heq] at this; refine ⟨?_, by simp [Tok.emit]⟩; simp [Tok.emit] at this ⊢; omega)
      · rw [hq] at hk
        rcases hk with hk | hk <;> simp [Tok.emit] at hk
    · exfalso
      split at hr
      · rename_i heq; simp at heq; exact absurd heq.1 h2
      · simp [Tok.emit] at hr
  case refine_14 =>
    intro c cs _ _ _ _ hk
    rcases hk with hk | hk <;> simp [Tok.bareScalar, Tok.emit] at hk
  case refine_15 =>
    intro c cs h1 h2 _ hr
    simp only at h1 h2
    subst h1 h2
    have : cs = [] := hr
    subst this
    simp [EndsNl] at hx
    simp [hx] at hn
  all_goals
    intros
    rename_i hk
    rcases hk with hk | hk <;> simp [Tok.emit] at hk

end Styx
