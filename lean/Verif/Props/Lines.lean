import Verif.Cst.Cuts
import Verif.Tokenizer.LineSpec
import Verif.Props.OnType

/-!
# C90: lines are tokenized independently of each other
-/

namespace Styx.Props

open Styx Styx.Spec Styx.Lsp Styx.Cst

theorem tokens_text (s : List Char) : (tokenize s).flatMap (·.text) = s := C01_tokenize_lossless s

/-- **C90**: a document can be cut after any line break that is a token of its own; its tokens are those of the first
part followed by those of the second part, moved. -/
theorem C90_split (a b : List Char) (h : EndsLine a) :
    tokenize (a ++ b) = tokenize a ++ (tokenize b).map (moved (utf8Len a)) := by
  obtain ⟨pre, t, ht, hk⟩ := h
  have hx : EndsNl a := by
    have h1 := tokens_text a
    have h2 := (tokenize_kind a t (by simp [ht])).1
    rw [hk] at h2
    rw [← h1, ht, List.flatMap_append]
    refine endsNl_append ?_
    rcases h2 with h | h <;> simp [h, EndsNl]
  have h1 := ht
  rw [tokenize_toks] at h1
  rw [tokenize_toks, toks_more b pre t a 0 none hx (tokInv_none rfl) h1 hk, ht, tokenize_toks b,
    toks_further (utf8Len a) _ b 0 none (Nat.lt_succ_self _), List.append_assoc]
  rfl

/-- **C90**: whether the line ends at a place is up to the text before it. -/
theorem C90_line (a b : List Char) : EndsLine a ↔
    ∃ pre t post, tokenize (a ++ b) = pre ++ t :: post ∧ t.kind = .newline ∧ (pre ++ [t]).flatMap (·.text) = a := by
  constructor
  · intro h
    have h1 := C90_split a b h
    obtain ⟨pre, t, ht, hk⟩ := h
    refine ⟨pre, t, _, by rw [h1, ht, List.append_assoc]; rfl, hk, ?_⟩
    rw [← ht]
    exact tokens_text a
  · rintro ⟨pre, t, post, h1, hk, h2⟩
    rw [tokenize_toks] at h1
    refine ⟨pre, t, ?_, hk⟩
    rw [tokenize_toks]
    exact toks_less pre t post a 0 none (tokInv_none rfl) h1 hk h2

/-- **C90**: editing the text after such a line break leaves the tokens before it as they are, and editing the text
before it only moves the tokens after it. -/
theorem C90_edit (a a' b b' : List Char) (h : EndsLine a) (h' : EndsLine a') :
    ∃ first second : List Token, tokenize (a ++ b) = first ++ second.map (moved (utf8Len a)) ∧
      (∃ second', tokenize (a ++ b') = first ++ second') ∧
      ∃ first', tokenize (a' ++ b) = first' ++ second.map (moved (utf8Len a')) :=
  ⟨tokenize a, tokenize b, C90_split a b h, ⟨_, C90_split a b' h⟩, _, C90_split a' b h'⟩

/-! The line break after a heredoc and that in a string. -/

example : EndsLine (chars! "a {b <<E\nx\nE\n") :=
  ⟨(tokenize (chars! "a {b <<E\nx\nE\n")).take 8, ⟨.newline, 12, 13, ['\n']⟩, by decide +kernel⟩
example : tokenize ((chars! "a \"x\n") ++ chars! "y\"") ≠
    tokenize (chars! "a \"x\n") ++ (tokenize (chars! "y\"")).map (moved 5) := by decide +kernel

theorem solid_append (a b : List Token) : solid (a ++ b) = solid a ++ solid b := by simp [solid]

theorem solid_moved (n : Nat) (a : List Token) : solid (a.map (moved n)) = solid a := by
  induction a with
  | nil => rfl
  | cons t a ih =>
    have h1 : moved n t :: a.map (moved n) = [moved n t] ++ a.map (moved n) := rfl
    have h2 : t :: a = [t] ++ a := rfl
    rw [List.map_cons, h1, h2, solid_append, solid_append, ih]
    congr 1
    unfold solid
    by_cases hk : t.kind = .whitespace <;> simp [moved, hk]

theorem solid_blanks {w r : List Char} (hw : ∀ c ∈ w, c = ' ' ∨ c = '\t') (hr : ∀ c r', r = c :: r' → isBlank c = false) :
    solid (tokenize (w ++ r)) = solid (tokenize r) := by
  by_cases hne : w = []
  · rw [hne]; rfl
  · have h := toks_blanks (b := w) (s := r) hw hne hr 0
    unfold toksAt toksFrom at h
    rw [← List.cons_append] at h
    have h1 := List.append_inj_left' h rfl
    have h2 : toks ⟨w ++ r, 0, none⟩ = ⟨.whitespace, 0, 0 + utf8Len w, w⟩ :: toks ⟨r, 0 + utf8Len w, none⟩ := h1
    rw [tokenize_toks, h2, toks_further (utf8Len w) _ r 0 none (Nat.lt_succ_self _), tokenize_toks r]
    have h3 := solid_moved (utf8Len w) (toks ⟨r, 0, none⟩)
    rw [← h3]
    rfl

theorem solid_indent {w : List Char} (hw : ∀ c ∈ w, c = ' ' ∨ c = '\t') (r : List Char) :
    solid (tokenize (w ++ r)) = solid (tokenize r) := by
  have h1 : ∀ c ∈ r.takeWhile isBlank, c = ' ' ∨ c = '\t' := by
    intro c hc
    have := mem_takeWhile hc
    exact (isBlank_iff c).1 this
  have h2 : ∀ c r', r.dropWhile isBlank = c :: r' → isBlank c = false := fun c r' h => dropWhile_head h
  have h3 := solid_blanks h1 h2
  have h4 := solid_blanks (w := w ++ r.takeWhile isBlank)
    (fun c hc => (List.mem_append.1 hc).elim (hw c) (h1 c)) h2
  rw [List.append_assoc, List.takeWhile_append_dropWhile] at h4
  rw [List.takeWhile_append_dropWhile] at h3
  rw [h4, h3]

/-- **C89**: where the line of the cursor begins after a line break that is a token, the indentation changes no token
but blanks. -/
theorem C89_tokens_partial (s : List Char) (p : Position) (ch : List Char) (tabSize : Nat) (spaces : Bool) (e : TextEdit)
    (he : onTypeFormatting s p ch tabSize spaces = some e) {line : List Char} (hs : s = line ++ fromPosition s ⟨p.line, 0⟩)
    (h : line = [] ∨ EndsLine line) : solid (tokenize (applyEdit s e)) = solid (tokenize s) := by
  unfold onTypeFormatting at he
  split at he
  · cases he
  · simp only [Option.some.injEq] at he
    subst he
    rw [flatten_indent]
    generalize nestingDepth _ _ = n
    obtain ⟨line', h1, h2⟩ := applyEdit_line s p.line (indentation n tabSize spaces)
    rw [h2]
    have : line' = line := List.append_cancel_right (h1.symm.trans hs)
    subst this
    conv => rhs; rw [h1]
    generalize fromPosition s ⟨p.line, 0⟩ = rest
    have hw : ∀ c ∈ indentation n tabSize spaces, c = ' ' ∨ c = '\t' := by
      intro c hc
      unfold indentation at hc
      split at hc
      · exact .inl (List.eq_of_mem_replicate hc)
      · exact .inr (List.eq_of_mem_replicate hc)
    rcases h with rfl | h
    · exact solid_indent hw rest
    · rw [List.append_assoc, C90_split _ _ h, C90_split _ _ h, solid_append, solid_append, solid_moved, solid_moved,
        solid_indent hw]

example : pressed = (chars! "a {\n  b (\n    x>1\n") ++ fromPosition pressed ⟨3, 0⟩ ∧
    EndsLine (chars! "a {\n  b (\n    x>1\n") :=
  ⟨by decide +kernel, (tokenize (chars! "a {\n  b (\n    x>1\n")).take 13, ⟨.newline, 17, 18, ['\n']⟩, by decide +kernel⟩

end Styx.Props
