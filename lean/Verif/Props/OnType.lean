import Verif.Lsp.OnTypeLemmas
import Verif.Props.Lsp
import Verif.Props.Tokenizer

/-!
# C89: a new line is indented by the brackets that are open
-/

namespace Styx.Props

open Styx Styx.Spec Styx.Lsp

theorem find_token {ts : List Token} {o : Nat} (h0 : 0 < o) (h : o ≤ utf8Len (ts.flatMap (·.text))) :
    ∃ pre t post, ts = pre ++ t :: post ∧ utf8Len (pre.flatMap (·.text)) < o ∧
      o ≤ utf8Len (pre.flatMap (·.text)) + utf8Len t.text := by
  induction ts generalizing o with
  | nil => simp at h; omega
  | cons t ts ih =>
    by_cases hc : o ≤ utf8Len t.text
    · exact ⟨[], t, ts, rfl, by simpa using h0, by simpa using hc⟩
    · rw [List.flatMap_cons, utf8Len_append] at h
      obtain ⟨pre, u, post, h1, h2, h3⟩ := ih (o := o - utf8Len t.text) (by omega) (by omega)
      refine ⟨t :: pre, u, post, by rw [h1]; rfl, ?_, ?_⟩ <;> rw [List.flatMap_cons, utf8Len_append] <;> omega

theorem flatten_indent (n tabSize : Nat) (spaces : Bool) :
    (List.replicate n (indentUnit tabSize spaces)).flatten = indentation n tabSize spaces := by
  unfold indentUnit indentation
  cases spaces with
  | true => simp
  | false =>
    simp only [Bool.false_eq_true, if_false]
    induction n with
    | zero => rfl
    | succ n ih => rw [List.replicate_succ, List.flatten_cons, ih]; rfl

theorem applyEdit_line (s : List Char) (l : Nat) (text : List Char) :
    ∃ line, s = line ++ fromPosition s ⟨l, 0⟩ ∧
      applyEdit s ⟨⟨l, 0⟩, ⟨l, 0⟩, text⟩ = line ++ text ++ fromPosition s ⟨l, 0⟩ := by
  obtain ⟨line, h⟩ := fromPosition_suffix s ⟨l, 0⟩
  refine ⟨line, h.symm, ?_⟩
  rw [applyEdit]
  congr 2
  have h' := congrArg List.length h
  rw [List.length_append] at h'
  rw [show s.length - (fromPosition s ⟨l, 0⟩).length = line.length by omega]
  conv => lhs; rw [← h]
  simp

/-- **C89** (part: documents in which no closing bracket stands right after a `>`, without `\r` and without
characters of two UTF-16 units; the cursor is not at the start of the document and not right after a closing bracket).
After Enter the server puts, at the start of the line of the cursor, as many steps of indentation as there are
brackets open at the cursor; nothing else of the document changes. -/
theorem C89_indent_partial (s : List Char) (hs : ∀ c ∈ s, c ≠ '\r' ∧ utf16Units c = 1) (hl : ¬ LooseGt (tokenize s))
    (p : Position) {before : List Char} {c : Char} (hb : s = before ++ c :: fromPosition s p) (hc : c ≠ '}' ∧ c ≠ ')')
    (tabSize : Nat) (spaces : Bool) :
    ∃ e line n, onTypeFormatting s p ['\n'] tabSize spaces = some e ∧ OpenAt (tokenize s) (utf8Len (before ++ [c])) n ∧
      s = line ++ fromPosition s ⟨p.line, 0⟩ ∧
      applyEdit s e = line ++ indentation n tabSize spaces ++ fromPosition s ⟨p.line, 0⟩ := by
  have hb' : s = (before ++ [c]) ++ fromPosition s p := by simpa using hb
  have ho : positionToOffset s p = utf8Len (before ++ [c]) := by
    obtain ⟨b, h1, h2⟩ := C51_receive_partial s hs p
    rw [h2]
    congr 1
    exact List.append_cancel_right (h1.symm.trans hb')
  have htext := C01_tokenize_lossless s
  have hpos : 0 < c.utf8Size := c.utf8Size_pos
  obtain ⟨pre, t, post, h1, h2, h3⟩ := find_token (ts := tokenize s) (o := utf8Len (before ++ [c]))
    (by rw [utf8Len_append]; simp; omega) (by
      rw [htext]
      have := congrArg utf8Len hb'
      rw [utf8Len_append (before ++ [c])] at this
      omega)
  have hct : ¬ Closer t.kind := by
    intro hk
    have hkt := (tokenize_kind s t (by simp [h1])).1
    have htt : t.text = ['}'] ∨ t.text = [')'] := by
      rcases hk with hk | hk <;> rw [hk] at hkt
      · exact .inl hkt
      · exact .inr hkt
    have hlen : utf8Len t.text = 1 := by rcases htt with h | h <;> rw [h] <;> rfl
    have hs2 : s = (pre.flatMap (·.text) ++ t.text) ++ post.flatMap (·.text) := by
      conv => lhs; rw [← htext, h1]
      simp
    have : before ++ [c] = pre.flatMap (·.text) ++ t.text := by
      have e1 := congrArg utf8Len hb'
      have e2 := congrArg utf8Len hs2
      rw [utf8Len_append] at e1 e2
      rw [utf8Len_append (pre.flatMap _)] at e2
      have : fromPosition s p = post.flatMap (·.text) :=
        suffix_of_utf8Len ⟨_, hb'.symm⟩ ⟨_, hs2.symm⟩ (by omega)
      rw [this] at hb'
      exact List.append_cancel_right (hb'.symm.trans hs2)
    have := congrArg List.getLast? this
    rcases htt with h | h <;> rw [h] at this <;> simp at this
    · exact hc.1 this
    · exact hc.2 this
  have hd := nesting_after hl h1 h2 h3 (fun h => absurd h hct)
  obtain ⟨line, k1, k2⟩ := applyEdit_line s p.line (indentation (openAfter [] (pre ++ [t])).length tabSize spaces)
  refine ⟨_, line, (openAfter [] (pre ++ [t])).length, ?_, ⟨pre, t, post, h1, h2, h3, rfl⟩, k1, k2⟩
  rw [onTypeFormatting, if_neg (by simp)]
  simp only
  rw [ho, hd, flatten_indent]

/-- **C89** (part: as above, the cursor being right after a closing bracket).  If what follows is not an opening
bracket, and the bracket closes one if it is the last of the document, the brackets that are still open count. -/
theorem C89_closed_partial (s : List Char) (hs : ∀ c ∈ s, c ≠ '\r' ∧ utf16Units c = 1) (hl : ¬ LooseGt (tokenize s))
    (p : Position) {pre post : List Token} {t : Token} (h : tokenize s = pre ++ t :: post) (hk : Closer t.kind)
    (hb : s = pre.flatMap (·.text) ++ t.text ++ fromPosition s p) (hn : ∀ u ∈ post.head?, ¬ Opener u.kind)
    (he : post = [] → openAfter [] (pre ++ [t]) ≠ openAfter [] pre) (tabSize : Nat) (spaces : Bool) :
    ∃ e line, onTypeFormatting s p ['\n'] tabSize spaces = some e ∧ s = line ++ fromPosition s ⟨p.line, 0⟩ ∧
      applyEdit s e =
        line ++ indentation (openAfter [] (pre ++ [t])).length tabSize spaces ++ fromPosition s ⟨p.line, 0⟩ := by
  have ho : positionToOffset s p = utf8Len (pre.flatMap (·.text)) + utf8Len t.text := by
    obtain ⟨b, h1, h2⟩ := C51_receive_partial s hs p
    rw [h2, ← utf8Len_append]
    congr 1
    exact List.append_cancel_right (h1.symm.trans hb)
  have hlen : utf8Len t.text = 1 := by
    have hkt := (tokenize_kind s t (by simp [h])).1
    rcases hk with hk | hk <;> rw [hk] at hkt <;> rw [show t.text = _ from hkt] <;> rfl
  have hd := nesting_after hl h (offset := utf8Len (pre.flatMap (·.text)) + utf8Len t.text) (by omega) (by omega)
    (fun _ => ⟨hn, he⟩)
  obtain ⟨line, k1, k2⟩ := applyEdit_line s p.line (indentation (openAfter [] (pre ++ [t])).length tabSize spaces)
  refine ⟨_, line, ?_, k1, k2⟩
  rw [onTypeFormatting, if_neg (by simp)]
  simp only
  rw [ho, hd, flatten_indent]

/-- **C89**: any other typed text is left alone. -/
theorem C89_other (s : List Char) (p : Position) (ch : List Char) (tabSize : Nat) (spaces : Bool) (h : ch ≠ ['\n']) :
    onTypeFormatting s p ch tabSize spaces = none := if_pos h

/-! A document with nested brackets, with the cursor at the start of the fourth line. -/

/-- The document after Enter. -/
def pressed : List Char := chars! "a {\n  b (\n    x>1\n\n  )\n}\n"

example : (∀ c ∈ pressed, c ≠ '\r' ∧ utf16Units c = 1) ∧
    pressed = (chars! "a {\n  b (\n    x>1") ++ '\n' :: fromPosition pressed ⟨3, 0⟩ := by decide +kernel
example : (onTypeFormatting pressed ⟨3, 0⟩ ['\n'] 2 true).map (applyEdit pressed) =
    some (chars! "a {\n  b (\n    x>1\n    \n  )\n}\n") := by decide +kernel
example : (onTypeFormatting pressed ⟨3, 0⟩ ['\n'] 2 false).map (applyEdit pressed) =
    some (chars! "a {\n  b (\n    x>1\n\t\t\n  )\n}\n") := by decide +kernel
/-- A computation for the examples. -/
def looseGtB : List Token → Bool
  | [] => false
  | t :: ts =>
    (t.kind == .gt && ((ts.dropWhile (·.kind == .whitespace)).head?.any
      fun u => u.kind == .rbrace || u.kind == .rparen)) || looseGtB ts

theorem not_looseGt {ts : List Token} (h : looseGtB ts = false) : ¬ LooseGt ts := by
  rintro ⟨pre, g, ws, t, post, rfl, hg, hw, hc⟩
  induction pre with
  | nil =>
    have hd : (ws ++ t :: post).dropWhile (·.kind == .whitespace) = t :: post := by
      rw [List.dropWhile_append_of_pos (by simpa using hw)]
      rcases hc with hc | hc <;> simp [hc]
    rw [List.nil_append, looseGtB, hd] at h
    rcases hc with hc | hc <;> simp [hg, hc] at h
  | cons x pre ih =>
    rw [List.cons_append, looseGtB, Bool.or_eq_false_iff] at h
    exact ih h.2

/-- No closing bracket follows the `>`. -/
example : ¬ LooseGt (tokenize pressed) := not_looseGt (by decide +kernel)
/-- The cursor after the `)`: one bracket is still open. -/
example : ∃ pre t post, tokenize (chars! "a {b (1)\n}") = pre ++ t :: post ∧ Closer t.kind ∧
    (chars! "a {b (1)\n}") = pre.flatMap (·.text) ++ t.text ++ fromPosition (chars! "a {b (1)\n}") ⟨0, 8⟩ ∧
    (∀ u ∈ post.head?, ¬ Opener u.kind) ∧ post ≠ [] ∧ (openAfter [] (pre ++ [t])).length = 1 :=
  ⟨(tokenize (chars! "a {b (1)\n}")).take 7, ⟨.rparen, 7, 8, [')']⟩, [⟨.newline, 8, 9, ['\n']⟩, ⟨.rbrace, 9, 10, ['}']⟩],
    by decide +kernel, .inr rfl, by decide +kernel, by simp [Opener], by simp, by decide +kernel⟩

/-- **C89** is false of the line of a closing bracket: it is indented one step further than the line that opened it. -/
theorem C89_close_false : (onTypeFormatting (chars! "a {\n}") ⟨1, 0⟩ ['\n'] 2 true).map (applyEdit (chars! "a {\n}")) =
    some (chars! "a {\n  }") := by decide +kernel

/-- **C89** is false if the editor has indented the line itself: the indentation is added to it. -/
theorem C89_twice_false : (onTypeFormatting (chars! "a {\n  b 1\n  \n}") ⟨2, 2⟩ ['\n'] 2 true).map
    (applyEdit (chars! "a {\n  b 1\n  \n}")) = some (chars! "a {\n  b 1\n    \n}") := by decide +kernel

/-- **C89** is false of a line in a string: the indentation becomes part of the string. -/
theorem C89_string_false :
    (onTypeFormatting (chars! "a {b \"x\n\ny\"}") ⟨1, 0⟩ ['\n'] 2 true).map (applyEdit (chars! "a {b \"x\n\ny\"}")) =
      some (chars! "a {b \"x\n  \ny\"}") ∧
    (tokenize (chars! "a {b \"x\n\ny\"}")).map (·.text) ≠ (tokenize (chars! "a {b \"x\n  \ny\"}")).map (·.text) := by
  decide +kernel

/-- **C89** is false of a line in a heredoc: the indentation becomes part of the text. -/
theorem C89_heredoc_false :
    (onTypeFormatting (chars! "a {b <<E\nx\n\nE\n}") ⟨2, 0⟩ ['\n'] 2 true).map (applyEdit (chars! "a {b <<E\nx\n\nE\n}")) =
      some (chars! "a {b <<E\nx\n  \nE\n}") ∧
    (tokenize (chars! "a {b <<E\nx\n\nE\n}")).map (·.text) ≠
      (tokenize (chars! "a {b <<E\nx\n  \nE\n}")).map (·.text) := by decide +kernel

/-- **C89** is false after `>}`: the brace is taken for the missing value of the attribute, and the object goes on. -/
theorem C89_attribute_false : OpenAt (tokenize (chars! "{a>}\n")) 5 0 ∧
    (onTypeFormatting (chars! "{a>}\n") ⟨1, 0⟩ ['\n'] 2 true).map (applyEdit (chars! "{a>}\n")) =
      some (chars! "{a>}\n  ") :=
  ⟨⟨(tokenize (chars! "{a>}\n")).take 4, ⟨.newline, 4, 5, ['\n']⟩, [], by decide +kernel⟩, by decide +kernel⟩

/-- **C89** is false at the start of a document that begins with a bracket. -/
theorem C89_start_false : (onTypeFormatting (chars! "{a 1}") ⟨0, 0⟩ ['\n'] 2 true).map (applyEdit (chars! "{a 1}")) =
    some (chars! "  {a 1}") := by decide +kernel

/-- **C89** is false between a closing bracket and an opening one, and after a closing bracket that closes nothing and
is the last of the document. -/
theorem C89_between_false :
    OpenAt (tokenize (chars! "a {}{")) 4 0 ∧
    (onTypeFormatting (chars! "a {}{") ⟨0, 4⟩ ['\n'] 2 true).map (applyEdit (chars! "a {}{")) = some (chars! "  a {}{") ∧
    OpenAt (tokenize (chars! "a (}")) 4 1 ∧
    (onTypeFormatting (chars! "a (}") ⟨0, 4⟩ ['\n'] 2 true).map (applyEdit (chars! "a (}")) = some (chars! "a (}") :=
  ⟨⟨(tokenize (chars! "a {}{")).take 3, ⟨.rbrace, 3, 4, ['}']⟩, [⟨.lbrace, 4, 5, ['{']⟩], by decide +kernel⟩,
    by decide +kernel,
    ⟨(tokenize (chars! "a (}")).take 3, ⟨.rbrace, 3, 4, ['}']⟩, [], by decide +kernel⟩, by decide +kernel⟩

end Styx.Props
