import Verif.Tokenizer.RunLemmas

/-! # Property theorems C01–C04: the tokenizer -/

namespace Styx.Props

open Styx Styx.Spec

/-- **C03** (termination).  For every source there is a number of calls, at most the number of
characters, after which the tokenizer reports end of input – at the end of the source, and at every
later call again; before that it never does; and the collected token list is the results of exactly
these calls. -/
theorem C03_tokenizer_terminates (s : List Char) :
    ∃ n ≤ s.length,
      (∀ m < n, ((Tok.new s).after m).next.1.kind ≠ .eof) ∧
      (∀ m ≥ n, ((Tok.new s).after m).next.1 = ⟨.eof, utf8Len s, utf8Len s, []⟩) ∧
      tokenize s = (List.range n).map (fun m => ((Tok.new s).after m).next.1) := by
  obtain ⟨n, h1, h2, h3⟩ := reaches_eof _ (Tok.new s) (Nat.le_refl _)
  have hm : (Tok.new s).measure = s.length := by simp [Tok.measure, Tok.new]
  refine ⟨n, by omega, h3, ?_, ?_⟩
  · intro m hmn
    have : m = n + (m - n) := by omega
    rw [this, after_add, after_at_eof _ h2, next_at_eof _ h2]
    have hp := after_pos n (Tok.new s)
    rw [((next_eof_iff _).mp h2).1] at hp
    simp only [utf8Len_nil, Nat.add_zero, Tok.new, Nat.zero_add] at hp
    simp only [Tok.new]
    rw [hp]
  · exact run_eq_calls n _ _ (by omega) h3 h2

/-- The bound is reached in a non-trivial way: an unterminated heredoc gives two tokens, the second
of which is an error with empty text. -/
example : (tokenize (chars! "<<A")).map (fun t => (t.kind, t.text)) =
    [(.heredocStart, chars! "<<A"), (.error, [])] := by decide +kernel

/-- **C01**.  The token texts concatenate to the source. -/
theorem C01_tokenize_lossless (s : List Char) : (tokenize s).flatMap (·.text) = s := by
  have := run_spec (s.length + 2) (Tok.new s) (by simp [Tok.measure, Tok.new])
  exact this.1

example : (tokenize (chars! "a r#\"x\"# @t{} <<E\n b\n E\n\"\\\"é\" = // c")).length = 17 := by
  decide +kernel

/-- **C02**.  Token spans are contiguous from 0 to the source length; each has the length of its
token's text, and slicing the source at the span yields that text (in particular both ends are
character boundaries). -/
theorem C02_spans_exact (s : List Char) :
    Contiguous 0 (tokenize s) (utf8Len s) ∧
    ∀ t ∈ tokenize s, slice s t.start t.stop = some t.text ∧ t.stop = t.start + utf8Len t.text := by
  have h := run_spec (s.length + 2) (Tok.new s) (by simp [Tok.measure, Tok.new])
  refine ⟨?_, ?_⟩
  · have := h.2.1
    simpa [tokenize, Tok.new] using this
  · have := run_slice (s.length + 2) (Tok.new s) [] rfl
    simpa [tokenize, Tok.new] using this

example : (tokenize (chars! "é ∀x")).map (fun t => (t.start, t.stop)) = [(0, 2), (2, 3), (3, 7)] ∧
    slice (chars! "é ∀x") 3 7 = some (chars! "∀x") ∧ slice (chars! "é ∀x") 1 3 = none := by
  decide +kernel

/-- **C04**.  Every token's text has the shape its kind promises. -/
theorem C04_kind_text (s : List Char) : ∀ t ∈ tokenize s, KindText t.kind t.text := fun t ht =>
  (run_kind (s.length + 2) (Tok.new s) (tokInv_new s) t ht).1

/-- **C04** (maximal munch).  A bare scalar is as long as possible: the token after it begins with a
character that cannot occur in a bare scalar. -/
theorem C04_bare_maximal (s : List Char) (pre post : List Token) (t₁ t₂ : Token)
    (h : tokenize s = pre ++ t₁ :: t₂ :: post) (hk : t₁.kind = .bareScalar) :
    ∃ c r, t₂.text = c :: r ∧ (c ∈ bareForbidden ∨ isWhitespace c = true) := by
  have key : ∀ (n : Nat) (t : Tok) (pre : List Token), Tok.run n t = pre ++ t₁ :: t₂ :: post →
      ∃ c r, t₂.text = c :: r ∧ isBareChar c = false := by
    intro n
    induction n with
    | zero => intro t pre h; simp [Tok.run] at h
    | succ n ih =>
      intro t pre h
      simp only [Tok.run] at h
      split at h
      · simp at h
      · cases pre with
        | cons p pre =>
          simp only [List.cons_append, List.cons.injEq] at h
          exact ih _ pre h.2
        | nil =>
          simp only [List.nil_append, List.cons.injEq] at h
          obtain ⟨rfl, h⟩ := h
          obtain ⟨h1, h2⟩ := next_bare t hk
          cases n with
          | zero => simp [Tok.run] at h
          | succ n =>
            simp only [Tok.run] at h
            split at h
            · simp at h
            · rename_i hk2
              simp only [List.cons.injEq] at h
              obtain ⟨rfl, _⟩ := h
              have hne := next_none_text h1 hk2
              have hs := next_step t.next.2
              cases htx : t.next.2.next.1.text with
              | nil => exact absurd htx hne
              | cons c r =>
                refine ⟨c, r, rfl, ?_⟩
                have := hs.text
                rw [htx] at this
                exact h2 c _ (by rw [← this]; rfl)
  obtain ⟨c, r, h1, h2⟩ := key _ _ _ h
  refine ⟨c, r, h1, ?_⟩
  have := mt (isBareChar_iff c).mpr (by simp [h2])
  by_cases hc : c ∈ bareForbidden
  · exact Or.inl hc
  · exact Or.inr (by simpa [hc] using this)

example : (tokenize (chars! "ab=c>\"x\"")).map (·.kind) = [.bareScalar, .gt, .quotedScalar] := by
  decide +kernel

end Styx.Props
