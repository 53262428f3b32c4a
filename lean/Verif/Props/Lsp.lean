import Verif.Lsp.TokenLemmas
import Verif.Props.CstFormat

/-! # Property theorems C39, C40, C41, C45, C51, C52: the language server -/

namespace Styx.Props

open Styx Styx.Spec Styx.Lsp Styx.Cst

/-! ## C39 -/

/-- **C39**: for every document and every boundary between two of its characters, converting the byte
offset to a position and back gives the offset. -/
theorem C39 (before after : List Char) :
    positionToOffset (before ++ after) (offsetToPosition (before ++ after) (utf8Len before)) =
      utf8Len before := by
  rw [offsetToPosition_eq]
  have := positionLoop_eq before after 0 ⟨0, 0⟩
  simpa [positionToOffset] using this

/-- **C39**, the position itself: the number of newlines before, and the number of characters since the last
newline. -/
theorem C39_position (before after : List Char) :
    offsetToPosition (before ++ after) (utf8Len before) =
      ⟨(lineColumn before).1, (lineColumn before).2⟩ := by
  rw [offsetToPosition_eq, lineColumn_advance]

/-- Two lines, a character of two bytes before the offset. -/
example : offsetToPosition (chars! "a 1\nb é\n") (utf8Len (chars! "a 1\nb é")) = ⟨1, 3⟩ ∧
    utf8Len (chars! "a 1\nb é") = 8 ∧ positionToOffset (chars! "a 1\nb é\n") ⟨1, 3⟩ = 8 := by
  decide +kernel

/-! ## C51 -/

/-- **C51** is false: a position after a character outside of the basic plane is not the one the editor
means (one column for two UTF-16 units), and a carriage return alone is not counted as the end of a
line. -/
theorem C51_false : ∃ before after before' after',
    fromPosition (before ++ after) (offsetToPosition (before ++ after) (utf8Len before)) ≠ after ∧
    fromPosition (before' ++ after') (offsetToPosition (before' ++ after') (utf8Len before')) ≠ after' ∧
    '\r' ∉ before ++ after ∧ (∀ c ∈ before' ++ after', utf16Units c = 1) :=
  ⟨chars! "k 😀 ", chars! "x", chars! "a\rb ", chars! "c", by decide +kernel⟩

/-- **C51**, for documents without carriage returns whose characters are all one UTF-16 unit: the position
that the server sends for an offset is, for the editor, this place. -/
theorem C51_send_partial (before after : List Char)
    (h : ∀ c ∈ before ++ after, c ≠ '\r' ∧ utf16Units c = 1) :
    fromPosition (before ++ after) (offsetToPosition (before ++ after) (utf8Len before)) = after := by
  have h1 := positionToOffset_fromPosition (before ++ after) h
    (offsetToPosition (before ++ after) (utf8Len before))
  rw [C39, utf8Len_append] at h1
  exact suffix_of_utf8Len (fromPosition_suffix _ _) (List.suffix_append _ _) (by omega)

/-- **C51**, same documents: for every position at all the offset that the server computes is where the
position is for the editor. -/
theorem C51_receive_partial (s : List Char) (h : ∀ c ∈ s, c ≠ '\r' ∧ utf16Units c = 1) (p : Position) :
    ∃ before, s = before ++ fromPosition s p ∧ positionToOffset s p = utf8Len before := by
  obtain ⟨before, hb⟩ := fromPosition_suffix s p
  refine ⟨before, hb.symm, ?_⟩
  have h1 := positionToOffset_fromPosition s h p
  have h2 := congrArg utf8Len hb
  rw [utf8Len_append] at h2
  omega

example : ∀ c ∈ chars! "name é\nlist (a b)\n", c ≠ '\r' ∧ utf16Units c = 1 := by decide
/-- A column after the end of the line. -/
example : positionToOffset (chars! "ab\ncd") ⟨0, 9⟩ = 2 ∧
    fromPosition (chars! "ab\ncd") ⟨0, 9⟩ = chars! "\ncd" := by decide +kernel

/-! ## C40 -/

/-- **C40**: tokens none of which starts before the one before it are encoded without an underflow, and
an editor that decodes them gets their places, lengths, types and modifiers. -/
theorem C40 (ts : List RawToken) (h : ts.Pairwise NotAfter) :
    ∃ enc, encodeTokens ts = some enc ∧
      decode enc = ts.map fun t => ⟨t.line, t.startChar, t.length, t.type, t.modifiers⟩ :=
  encodeLoop_decode ts 0 0 (fun t _ => by simp only [NotAfter]; omega) h

example : [⟨0, 3, 2, 6, 0⟩, ⟨0, 6, 4, 1, 0⟩, ⟨2, 1, 5, 0, 1⟩].Pairwise NotAfter := by
  simp [NotAfter]

/-- Out of order the subtraction underflows. -/
example : encodeTokens [⟨1, 0, 1, 1, 0⟩, ⟨0, 0, 1, 1, 0⟩] = none := by decide

/-- **C40**, for the tokens of a document: for every source, valid or not, the tokens are encoded
without an underflow, and what the editor decodes are leaves of the tree, in order, each at its line
and column, with its length in bytes and a type for its kind. -/
theorem C40_document (s : List Char) :
    ∃ enc, computeSemanticTokens (Cst.parse s).green = some enc ∧
      Picked [] (leaves (Cst.parse s).green) (decode enc) :=
  computeSemanticTokens_picked _

/-- A document with a comment, a tag, an attribute and a sequence. -/
example : (computeSemanticTokens (Cst.parse (chars! "/// d\na @t\nb c>1\nl (x)")).green).map decode =
    some [⟨0, 0, 5, 0, 1⟩, ⟨1, 0, 1, 6, 0⟩, ⟨1, 2, 2, 4, 0⟩, ⟨2, 0, 1, 6, 0⟩, ⟨2, 2, 1, 6, 0⟩,
      ⟨2, 3, 1, 7, 0⟩, ⟨2, 4, 1, 1, 0⟩, ⟨3, 0, 1, 6, 0⟩, ⟨3, 3, 1, 1, 0⟩] := by
  decide +kernel

/-- Whether the token is, for the editor, exactly a leaf of the tree: at its place the text of the leaf
follows, and its length is that of the text in UTF-16 units. -/
def ExactToken (s : List Char) (ls : List (SyntaxKind × List Char)) (t : EdToken) : Prop :=
  ∃ l ∈ ls, ∃ rest, fromPosition s ⟨t.line, t.column⟩ = l.2 ++ rest ∧
    t.length = (l.2.map utf16Units).sum

/-- **C51** is false for tokens too: their length is in bytes, and the highlighted range of `é` is two
characters. -/
theorem C51_false_length : ∃ s enc, computeSemanticTokens (Cst.parse s).green = some enc ∧
    (∀ c ∈ s, c ≠ '\r' ∧ utf16Units c = 1) ∧ s = chars! "é x" ∧
    decode enc = [⟨0, 0, 2, 6, 0⟩, ⟨0, 2, 1, 1, 0⟩] := by
  have h : (computeSemanticTokens (Cst.parse (chars! "é x")).green).map decode =
      some [⟨0, 0, 2, 6, 0⟩, ⟨0, 2, 1, 1, 0⟩] := by decide +kernel
  cases he : computeSemanticTokens (Cst.parse (chars! "é x")).green with
  | none => rw [he] at h; cases h
  | some enc =>
    rw [he] at h
    exact ⟨_, enc, he, by decide, rfl, Option.some.inj h⟩

theorem picked_exact {before : List Char} {ls ts} (h : Picked before ls ts) (s : List Char)
    (hs : ∀ c ∈ s, c ≠ '\r' ∧ c.utf8Size = 1) (hb : s = before ++ ls.flatMap (·.2)) :
    ∀ t ∈ ts, ExactToken s ls t := by
  have hasc : ∀ c : Char, c.utf8Size = 1 → utf16Units c = 1 := by
    intro c hc
    have hsz : c.utf8Size = if c.val ≤ 0x7f then 1 else if c.val ≤ 0x7ff then 2 else if c.val ≤ 0xffff then 3 else 4 := rfl
    unfold utf16Units
    by_cases h1 : c.val ≤ 0x7f
    · have : c.toNat ≤ 127 := by simpa [UInt32.le_iff_toNat_le] using h1
      rw [if_pos (by omega)]
    · rw [if_neg h1] at hsz
      exfalso
      split at hsz
      · omega
      · split at hsz <;> omega
  have hs' : ∀ c ∈ s, c ≠ '\r' ∧ utf16Units c = 1 := fun c hc => ⟨(hs c hc).1, hasc c (hs c hc).2⟩
  have hsum : ∀ t : List Char, (∀ c ∈ t, c ∈ s) → utf8Len t = (t.map utf16Units).sum := by
    intro t
    induction t with
    | nil => intro _; rfl
    | cons c cs ih =>
      intro h
      have hc := h c (by simp)
      simp only [utf8Len, List.map_cons, List.sum_cons, (hs c hc).2, (hs' c hc).2,
        ih (fun d hd => h d (by simp [hd]))]
  induction h with
  | nil => simp
  | skip _ ih =>
    intro t ht
    obtain ⟨l, hl, rest, h1, h2⟩ := ih (by simp [hb]) t ht
    exact ⟨l, by simp [hl], rest, h1, h2⟩
  | @take before l ls ts ty m _ _ ih =>
    intro t ht
    rw [List.mem_cons] at ht
    rcases ht with rfl | ht
    · refine ⟨l, by simp, ls.flatMap (·.2), ?_, ?_⟩
      · have := C51_send_partial before (l.2 ++ ls.flatMap (·.2)) (by
          rw [← List.flatMap_cons, ← hb]; exact hs')
        rw [C39_position] at this
        rw [hb, List.flatMap_cons]; exact this
      · exact hsum l.2 (fun c hc => by rw [hb]; simp [hc])
    · obtain ⟨l', hl, rest, h1, h2⟩ := ih (by simp [hb]) t ht
      exact ⟨l', by simp [hl], rest, h1, h2⟩

/-- **C51**, for ASCII documents without carriage returns: every token that the editor decodes is exactly
a leaf of the tree. -/
theorem C51_tokens_partial (s : List Char) (h : ∀ c ∈ s, c ≠ '\r' ∧ c.utf8Size = 1) :
    ∃ enc, computeSemanticTokens (Cst.parse s).green = some enc ∧
      ∀ t ∈ decode enc, ExactToken s (leaves (Cst.parse s).green) t := by
  obtain ⟨enc, he, hp⟩ := C40_document s
  refine ⟨enc, he, picked_exact hp s h ?_⟩
  have htext : (Cst.parse s).green.text = s := (C26_cst_lossless s).2
  rw [leaves_text, htext]; rfl

example : ∀ c ∈ chars! "a @t\nb c>1\n", c ≠ '\r' ∧ c.utf8Size = 1 := by decide

/-! ## C41 -/

/-- **C41** is false: the range of the edit ends before the newline at the end of the document, so the
formatted text, which ends with a newline, is followed by another. -/
theorem C41_false : ∃ s, hasTree s = true ∧
    applyEdits s (formatting true true 2 s) = formatSource (chars! "  ") s ++ ['\n'] ∧
    s = chars! "a  1\n" ∧ formatSource (chars! "  ") s = chars! "a 1\n" :=
  ⟨chars! "a  1\n", by decide +kernel⟩

/-- **C41**, for documents without a carriage return that is not part of `\r\n`: after the edits the document
is the formatted text, followed, when something changed, by the line terminator at the end of the
old document. -/
theorem C41_partial (s : List Char) (spaces : Bool) (tab : Nat) (h : ¬ LoneCr s) :
    applyEdits s (formatting true spaces tab s) = formatSource (indentOf spaces tab) s ++
      (if formatSource (indentOf spaces tab) s = s then [] else finalTerminator s) := by
  unfold formatting
  simp only [Bool.true_eq_false, if_false]
  split
  · rename_i he
    simp [applyEdits, he]
  · simp only [applyEdits, List.foldl_cons, List.foldl_nil, applyEdit]
    have h0 : fromPosition s ⟨0, 0⟩ = s := by cases s <;> simp [fromPosition, fromLine, fromColumn]
    rw [h0, end_position _ s (Nat.le_refl _) h]
    simp

/-- **C41**, for documents that do not end with a newline (and have no lone carriage return): after the edits
the document is exactly the formatted text. -/
theorem C41_unterminated_partial (s : List Char) (spaces : Bool) (tab : Nat) (h : ¬ LoneCr s)
    (hn : s.getLast? ≠ some '\n') :
    applyEdits s (formatting true spaces tab s) = formatSource (indentOf spaces tab) s := by
  have hf : finalTerminator s = [] := by
    have e1 : ¬ ['\r', '\n'] <:+ s := fun h => hn (last2 h)
    have e2 : ¬ ['\n'] <:+ s := fun ⟨t, ht⟩ => hn (by rw [← ht]; simp)
    simp [finalTerminator, e1, e2]
  rw [C41_partial s spaces tab h, hf]
  simp

/-- A document without a newline at the end, with characters of several bytes on the last line. -/
example : ¬ LoneCr (chars! "a  1\r\nb   é") ∧ (chars! "a  1\r\nb   é").getLast? ≠ some '\n' ∧
    formatSource (indentOf true 2) (chars! "a  1\r\nb   é") = chars! "a 1\nb é\n" := by
  refine ⟨?_, by decide, by decide +kernel⟩
  rintro ⟨pre, post, h, hp⟩
  match pre, h with
  | [], h => simp at h
  | [_], h => simp at h
  | [_, _], h => simp at h
  | [_, _, _], h => simp at h
  | [_, _, _, _], h => simp at h; rw [← h.2.2.2.2] at hp; simp at hp
  | [_, _, _, _, _], h => simp at h
  | [_, _, _, _, _, _], h => simp at h
  | [_, _, _, _, _, _, _], h => simp at h
  | [_, _, _, _, _, _, _, _], h => simp at h
  | [_, _, _, _, _, _, _, _, _], h => simp at h
  | [_, _, _, _, _, _, _, _, _, _], h => simp at h
  | _ :: _ :: _ :: _ :: _ :: _ :: _ :: _ :: _ :: _ :: _ :: _, h => simp at h

/-- A document that has no tree is left alone. -/
theorem C41_broken (s : List Char) (spaces : Bool) (tab : Nat) :
    applyEdits s (formatting false spaces tab s) = s := by simp [formatting, applyEdits]

/-! ## C52 -/

/-- **C52** is false: the column that the extension host computes counts bytes, the column that it reads counts
characters; and the end of a document that ends with a newline has a position but is not found. -/
theorem C52_false : ∃ before after p q s r,
    hostOffsetToPosition (before ++ after) (utf8Len before) = .ok (some p) ∧
    hostPositionToOffset (before ++ after) p = some q ∧ q ≠ utf8Len before ∧
    hostOffsetToPosition s (utf8Len s) = .ok (some r) ∧ hostPositionToOffset s r = none :=
  ⟨chars! "é ", chars! "xy", ⟨0, 3⟩, 4, chars! "a\n", ⟨1, 0⟩, by decide +kernel⟩

/-- **C52**, when the line up to the offset is ASCII and the offset is not the end of the document at the start
of a line: the extension host converts an offset to a position and back. -/
theorem C52_partial (lines line after : List Char) (hl : lines = [] ∨ lines.getLast? = some '\n')
    (hn : '\n' ∉ line) (ha : ∀ c ∈ line, c.utf8Size = 1) (he : line ++ after ≠ []) :
    ∃ p, hostOffsetToPosition (lines ++ line ++ after) (utf8Len (lines ++ line)) = .ok (some p) ∧
      hostPositionToOffset (lines ++ line ++ after) p = some (utf8Len (lines ++ line)) := by
  refine ⟨⟨lines.count '\n', line.length⟩, ?_, ?_⟩
  · unfold hostOffsetToPosition
    rw [if_neg (by simp only [utf8Len_append]; omega), takeBytes_app]
    simp only [lastLine_eq hl hn, utf8Len_append, utf8Len_ascii line ha]
    congr 3
    · simp only [List.count_append, List.count_eq_zero.mpr hn]; omega
    · omega
  · unfold hostPositionToOffset
    have h1 := hostPositionLoop_eq lines (line ++ after) hl he line.length 0 0
    have h2 := hostColumn_eq line after hn 0 (utf8Len lines)
    simp only [Nat.zero_add] at h1 h2
    rw [List.append_assoc, h1, h2, utf8Len_append]

/-- **C52**: the extension host panics for no offset on the boundary of a character, but it does for an
offset inside of a character. -/
theorem C52_panics : (∀ before after, hostOffsetToPosition (before ++ after) (utf8Len before) ≠ .panic) ∧
    ∃ s n, hostOffsetToPosition s n = .panic := by
  refine ⟨fun before after => ?_, chars! "é", 1, by decide⟩
  unfold hostOffsetToPosition
  rw [if_neg (by simp only [utf8Len_append]; omega), takeBytes_app]
  simp

example : (chars! "é\n" = [] ∨ (chars! "é\n").getLast? = some '\n') ∧ '\n' ∉ chars! "ab" ∧
    (∀ c ∈ chars! "ab", c.utf8Size = 1) ∧ chars! "ab" ++ [] ≠ [] := by decide

/-! ## C45 -/

/-- **C45**: highlighting a source never fails, its result is the source with some parts in colour, and
a terminal shows the source, when that has no escape character itself. -/
theorem C45 (s : List Char) : ∃ out, highlightStyx s = some out ∧ Coloured s out ∧
    (Char.ofNat 27 ∉ s → shown out = s) := by
  have hp : PickedS (fun _ _ _ => True) 0 (leaves (Cst.parse s).green)
      (collect spanChild (.walk false) 0 (Cst.parse s).green) :=
    collect_picked (fun _ _ _ _ _ _ => trivial) _ _ _
  have hsort : computeHighlightSpans (Cst.parse s).green =
      collect spanChild (.walk false) 0 (Cst.parse s).green := sortBy_id _ _ hp.sorted
  have htext : (leaves (Cst.parse s).green).flatMap (·.2) = s := by
    rw [leaves_text]; exact (C26_cst_lossless s).2
  obtain ⟨out, h1, h2⟩ := highlightLoop_coloured hp s [] [] (by simp [htext]) rfl
  have hc : ∃ out, highlightStyx s = some out ∧ Coloured s out := by
    unfold highlightStyx
    simp only [hsort]
    split
    · exact ⟨s, rfl, Coloured.refl s⟩
    · exact ⟨out, h1, by simpa [htext] using h2⟩
  obtain ⟨out, h1, h2⟩ := hc
  exact ⟨out, h1, h2, fun h => Lsp.Coloured.shown h2 h⟩

/-- The property name in blue, the comment in gray. -/
example : highlightStyx (chars! "a 1 // c") = some
    (esc (chars! "38;5;75") ++ ['a'] ++ reset ++ [' '] ++ esc (chars! "38;5;214") ++ ['1'] ++ reset ++
      [' '] ++ esc (chars! "38;5;243") ++ chars! "// c" ++ reset) := by decide +kernel

end Styx.Props
