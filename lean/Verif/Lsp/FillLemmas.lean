import Verif.Lsp.Fill
import Verif.Lsp.FillSpec
import Verif.Lsp.Lemmas

/-!
# Lemmas about filling in missing fields
-/

namespace Styx.Lsp

open Styx Styx.Spec Styx.Schema

/-! ## Trimming -/

theorem dropWhile_snoc {p : Char → Bool} (a : List Char) (c : Char) (h : p c = false) :
    (a ++ [c]).dropWhile p = a.dropWhile p ++ [c] := by
  induction a with
  | nil => simp [h]
  | cons x a ih =>
    simp only [List.cons_append, List.dropWhile_cons]
    split
    · exact ih
    · simp

theorem trim_line {ind r : List Char} {c : Char} (hi : ∀ x ∈ ind, isWhitespace x = true)
    (hc : isWhitespace c = false) :
    trim (ind ++ c :: r) = c :: (r.reverse.dropWhile isWhitespace).reverse := by
  have h1 : trimStart (ind ++ c :: r) = c :: r := by
    unfold trimStart
    induction ind with
    | nil => simp [hc]
    | cons x ind ih =>
      simp only [List.cons_append, List.dropWhile_cons, hi x (by simp), if_true]
      exact ih fun y hy => hi y (by simp [hy])
  rw [trim, h1, List.reverse_cons, dropWhile_snoc _ _ hc]
  simp

theorem trimEnd_head (r : List Char) (c : Char)
    (h : ((r.reverse.dropWhile isWhitespace).reverse).head? = some c) : r.head? = some c := by
  have h1 : (r.reverse.dropWhile isWhitespace) <:+ r.reverse := List.dropWhile_suffix _
  have h2 := List.reverse_prefix.2 h1
  rw [List.reverse_reverse] at h2
  obtain ⟨t, ht⟩ := h2
  rw [← ht]
  cases hd : (List.dropWhile isWhitespace r.reverse).reverse with
  | nil => rw [hd] at h; simp at h
  | cons x xs => rw [hd] at h; simpa using h

theorem blank_ws {c : Char} (h : Blank c) : isWhitespace c = true := by
  rcases h with rfl | rfl <;> decide

theorem blanks_ws {b : List Char} (h : Blanks b) : ∀ c ∈ b, isWhitespace c = true := fun c hc => blank_ws (h c hc)

theorem trim_blanks {b : List Char} (h : ∀ c ∈ b, isWhitespace c = true) : trim b = [] := by
  have : trimStart b = [] := by
    unfold trimStart
    induction b with
    | nil => rfl
    | cons x b ih =>
      simp only [List.dropWhile_cons, h x (by simp), if_true]
      exact ih fun y hy => h y (by simp [hy])
  rw [trim, this]; rfl

theorem passedOver_blanks {b : List Char} (h : Blanks b) : passedOver b = true := by
  simp [passedOver, trim_blanks (blanks_ws h)]

theorem passedOver_comment {b t : List Char} (h : Blanks b) (ht : CommentText t) : passedOver (b ++ t) = true := by
  obtain ⟨r, rfl, hr, _⟩ := ht
  have hs : isWhitespace '/' = false := by decide
  have h1 := trim_line (r := '/' :: r) (blanks_ws h) hs
  have h2 : trim (b ++ '/' :: '/' :: r) = '/' :: '/' :: (r.reverse.dropWhile isWhitespace).reverse := by
    rw [h1, List.reverse_cons, dropWhile_snoc _ _ hs]; simp
  simp [passedOver, h2, startsWith, stripPrefix]

theorem passedOver_field {ind l : List Char} (h : FieldLine ind l) : passedOver l = false := by
  obtain ⟨c, r, rfl, hb, hc, hh, hs⟩ := h
  rw [passedOver, trim_line (blanks_ws hb) hc]
  have hh' : ¬ '#' = c := fun e => hh e.symm
  by_cases h1 : '/' = c
  · subst h1
    cases hr : (r.reverse.dropWhile isWhitespace).reverse with
    | nil => simp [startsWith, stripPrefix]
    | cons x xs =>
      have h2 := trimEnd_head r x (by rw [hr]; rfl)
      have h3 : ¬ '/' = x := by rintro rfl; exact hs ⟨rfl, h2⟩
      simp [startsWith, stripPrefix, h3]
  · simp [startsWith, stripPrefix, hh', h1]

theorem field_indent {ind l : List Char} (h : FieldLine ind l) : l.takeWhile isWhitespace = ind := by
  obtain ⟨c, r, rfl, hb, hc, _⟩ := h
  have := blanks_ws hb
  clear hb
  induction ind with
  | nil => simp [hc]
  | cons x ind ih =>
    simp only [List.cons_append, List.takeWhile_cons, this x (by simp), if_true]
    rw [ih fun y hy => this y (by simp [hy])]

theorem field_ne {ind l : List Char} (h : FieldLine ind l) : l ≠ [] := by
  obtain ⟨c, r, rfl, _⟩ := h
  simp

/-! ## Lines -/

theorem dropCr_self {l : List Char} (h : '\r' ∉ l) : dropCr l = l := by
  have : l.getLast? ≠ some '\r' := fun e => h (List.mem_of_getLast? e)
  simp [dropCr, this]

theorem gap_passed {g : List Char} (h : Gap false g) : ∀ cur, Blanks cur → '\r' ∉ g →
    ∀ l ∈ linesFrom cur g, passedOver l = true := by
  induction h with
  | nil =>
    intro cur hc _ l hl
    by_cases h0 : cur = []
    · simp [linesFrom, h0] at hl
    · simp only [linesFrom, h0, if_false, List.mem_singleton] at hl
      subst hl; exact passedOver_blanks hc
  | @blank c g hb _ ih =>
    intro cur hc hr l hl
    have hn : c ≠ '\n' := by rcases hb with rfl | rfl <;> decide
    rw [linesFrom, if_neg hn] at hl
    refine ih _ ?_ (fun h => hr (by simp [h])) l hl
    intro x hx
    rcases List.mem_append.1 hx with hx | hx
    · exact hc x hx
    · rw [List.mem_singleton.1 hx]; exact hb
  | @newline n g hn _ ih =>
    intro cur hc hr l hl
    have hn' : n = ['\n'] := by
      rcases hn with rfl | rfl
      · rfl
      · exact absurd (by simp) hr
    subst hn'
    have hcr : '\r' ∉ cur := fun h => by rcases hc _ h with h | h <;> exact absurd h (by decide)
    simp only [List.cons_append, List.nil_append, linesFrom, if_true, dropCr_self hcr, List.mem_cons] at hl
    rcases hl with rfl | hl
    · exact passedOver_blanks hc
    · exact ih [] (by simp [Blanks]) (fun h => hr (by simp [h])) l hl
  | @comment t n g ht hn _ ih =>
    intro cur hc hr l hl
    have hn' : n = ['\n'] := by
      rcases hn with rfl | rfl
      · rfl
      · exact absurd (by simp) hr
    subst hn'
    have hcr : '\r' ∉ cur ++ t := fun h => by
      rcases List.mem_append.1 h with h | h
      · rcases hc _ h with h | h <;> exact absurd h (by decide)
      · exact hr (by simp [h])
    have htn : '\n' ∉ t := by
      obtain ⟨r, rfl, h1, _⟩ := ht
      simp only [List.mem_cons, not_or]
      exact ⟨by decide, by decide, fun h => (h1 _ h).1 rfl⟩
    rw [List.singleton_append, linesFrom_line _ _ htn, dropCr_self hcr] at hl
    rcases List.mem_cons.1 hl with rfl | hl
    · exact passedOver_comment hc ht
    · exact ih [] (by simp [Blanks]) (fun h => hr (by simp [h])) l hl
  | comma h => cases h

theorem lines_snocNl (p x : List Char) : ∀ cur, linesFrom cur (p ++ '\n' :: x) = linesFrom cur (p ++ ['\n']) ++ lines x := by
  induction p with
  | nil => intro cur; simp [linesFrom, lines]
  | cons c p ih =>
    intro cur
    simp only [List.cons_append, linesFrom]
    split
    · simp [ih]
    · exact ih _

theorem lines_count (p : List Char) : ∀ cur, (linesFrom cur (p ++ ['\n'])).length = p.count '\n' + 1 := by
  induction p with
  | nil => intro cur; simp [linesFrom]
  | cons c p ih =>
    intro cur
    simp only [List.cons_append, linesFrom]
    split
    · rename_i hc; subst hc; simp [ih]
    · rename_i hc; rw [ih]; simp [hc]

/-- The lines of a text that ends in a line are those before it and it. -/
theorem lines_pre {pre last : List Char} (h : LastLine pre last) (x : List Char) :
    ∃ ls, lines (pre ++ x) = ls ++ lines x ∧ ls.length = pre.count '\n' := by
  rcases h.1 with rfl | ⟨p, rfl⟩
  · exact ⟨[], rfl, rfl⟩
  · refine ⟨linesFrom [] (p ++ ['\n']), ?_, ?_⟩
    · rw [lines, List.append_assoc, List.singleton_append, lines_snocNl]
    · rw [lines_count]; simp

theorem lastField_append (a b : List (List Char)) : ∀ i, lastField i (a ++ b) =
    match lastField (i + a.length) b with
    | some r => some r
    | none => lastField i a := by
  induction a with
  | nil => intro i; simp only [List.nil_append, List.length_nil, Nat.add_zero, lastField]; cases lastField i b <;> rfl
  | cons l a ih =>
    intro i
    simp only [List.cons_append, lastField, ih, List.length_cons]
    rw [show i + 1 + a.length = i + (a.length + 1) by omega]
    cases lastField (i + (a.length + 1)) b <;> rfl

theorem lastField_passed (ls : List (List Char)) (h : ∀ l ∈ ls, passedOver l = true) : ∀ i, lastField i ls = none := by
  induction ls with
  | nil => intro i; rfl
  | cons l ls ih =>
    intro i
    rw [lastField, ih fun x hx => h x (by simp [hx])]
    simp [h l (by simp)]

/-- Where fields are inserted: at the end of the last line of fields, with its indentation. -/
theorem findInsert_line {pre last ind tail : List Char} (hl : LastLine pre last) (hf : FieldLine ind last)
    (ht : NoFields tail) (hr : '\r' ∉ last ++ tail) :
    findInsert (pre ++ (last ++ tail)) = ⟨⟨pre.count '\n', utf8Len last⟩, ind⟩ := by
  obtain ⟨ls, h1, h2⟩ := lines_pre hl (last ++ tail)
  have h3 : ∃ rest, lines (last ++ tail) = last :: rest ∧ ∀ l ∈ rest, passedOver l = true := by
    rcases ht with rfl | ⟨g, rfl, hg⟩
    · refine ⟨[], ?_, by simp⟩
      rw [lines, List.append_nil, linesFrom_noNl _ hl.2, List.nil_append, if_neg (field_ne hf)]
    · refine ⟨lines g, ?_, ?_⟩
      · rw [lines, linesFrom_line _ _ hl.2, List.nil_append, dropCr_self fun h => hr (by simp [h])]; rfl
      · exact gap_passed hg [] (by simp [Blanks]) fun h => hr (by simp [h])
  obtain ⟨rest, h3, h4⟩ := h3
  have h5 : lastField 0 (lines (pre ++ (last ++ tail))) = some (pre.count '\n', last) := by
    rw [h1, h3, lastField_append, lastField, lastField_passed rest h4, passedOver_field hf]
    simp [h2]
  rw [findInsert, h5]
  simp only [field_indent hf]

/-! ## The edit -/

theorem fromLine_count {p : List Char} (hr : '\r' ∉ p) : ∀ x, fromLine (p.count '\n' + 1) (p ++ '\n' :: x) = x := by
  induction p with
  | nil => intro x; simp [fromLine, afterLine]
  | cons c p ih =>
    intro x
    have hc : c ≠ '\r' := fun h => hr (by simp [h])
    have ih := ih (fun h => hr (by simp [h])) x
    by_cases hn : c = '\n'
    · subst hn
      rw [List.count_cons_self, List.cons_append, fromLine]
      have : afterLine ('\n' :: (p ++ '\n' :: x)) = p ++ '\n' :: x := by simp [afterLine]
      rw [this]; exact ih
    · rw [List.count_cons_of_ne (by simpa using hn), List.cons_append, fromLine]
      rw [fromLine] at ih
      rw [afterLine_cons hn hc]; exact ih

theorem fromLine_pre {pre last : List Char} (h : LastLine pre last) (hr : '\r' ∉ pre) (x : List Char) :
    fromLine (pre.count '\n') (pre ++ x) = x := by
  rcases h.1 with rfl | ⟨p, rfl⟩
  · rfl
  · rw [List.count_append, List.append_assoc]
    exact fromLine_count (fun h => hr (by simp [h])) x

theorem applyEdit_insert {doc front rest : List Char} {p : Position} (text : List Char) (hd : doc = front ++ rest)
    (hp : fromPosition doc p = rest) : applyEdit doc ⟨p, p, text⟩ = front ++ text ++ rest := by
  rw [applyEdit, hp, hd]
  simp

/-- The document after the edit at the root. -/
theorem applyEdit_root {F : Type} {pre last ind tail : List Char} (hl : LastLine pre last) (hf : FieldLine ind last)
    (ht : NoFields tail) (hr : '\r' ∉ pre ++ (last ++ tail)) (fs : List (SchemaField F)) :
    applyEdit (pre ++ (last ++ tail)) (fillEdit (findInsert (pre ++ (last ++ tail))) fs) =
      pre ++ last ++ fieldsText ind fs ++ tail := by
  rw [findInsert_line hl hf ht fun h => hr (by simp only [List.mem_append] at h ⊢; exact .inr h)]
  refine applyEdit_insert _ (by simp) ?_
  rw [fromPosition, fromLine_pre hl fun h => hr (by simp [h])]
  refine fromColumn_all last tail ⟨hl.2, fun h => hr (by simp [h])⟩ ?_ _ (Nat.le_refl _)
  rcases ht with rfl | ⟨g, rfl, _⟩ <;> simp

end Styx.Lsp
