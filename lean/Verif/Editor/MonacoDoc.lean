import Verif.Editor.MonacoLines

/-!
# Coloured documents are painted as they are coloured
-/

namespace Styx.Monaco

open Styx.Spec

/-! ## The texts of coloured documents -/

theorem PGap.gap {commas p} (h : PGap commas p) : Gap commas (text p) := by
  induction h with
  | nil => exact .nil
  | blank hc _ ih => rw [text_append, text_ink]; exact .blank hc ih
  | newline _ ih => rw [text_append]; exact .newline (.inl rfl) ih
  | comment hc _ ih => rw [text_append, text_append, text_ink]; exact .comment hc (.inl rfl) ih
  | comma hc _ ih => rw [text_append, text_ink]; exact .comma hc ih

theorem loose_of_closing {d l : List Char} (h : ClosingLine d l) : LooseClosing d l := by
  obtain ⟨ind, hi, h⟩ := h
  have hw : ∀ c ∈ ind, isWhitespace c = true := fun c hc => by rcases hi c hc with rfl | rfl <;> decide
  rcases h with h | h
  · exact ⟨ind, [], by simp [h], by simpa using hw⟩
  · refine ⟨ind, ['\r'], h, ?_⟩
    intro c hc
    rcases List.mem_append.1 hc with hc | hc
    · exact hw c hc
    · simp at hc; subst hc; decide

theorem PScalar.scalar {key v k e p} (h : PScalar key v k e p) : ScalarText v k e (text p) := by
  cases h with
  | bare h => rw [text_ink]; exact .bare h
  | quoted h1 h2 _ =>
    simp only [text_append, text_ink, text_inkBody]
    exact .quoted h1 h2
  | raw _ h1 h2 => rw [text_inkLines]; exact .raw h1 h2
  | heredoc _ h1 h2 h3 h4 =>
    rw [text_inkLines]
    exact .heredoc h1 h2 (.inl rfl) h3 (fun l hl => ⟨(h4 l hl).1, fun hc => (h4 l hl).2 (loose_of_closing hc)⟩)

theorem PayloadMark.start {n s} (h : PayloadMark n s) : PayloadStart n s := by
  obtain ⟨c, r, hs, h⟩ := h
  refine ⟨c, r, hs, ?_⟩
  rcases h with h | h | h
  · exact .inl h
  · exact .inr (.inl h)
  · exact .inr (.inr (.inl h))

theorem PScalar.kind {v k e p} (h : PScalar true v k e p) : k ≠ .heredoc := by
  cases h <;> simp_all

theorem PKey.key {k e p} (h : PKey k e p) : KeyText k e (text p) := by
  cases h with
  | scalar h => exact .scalar h.scalar h.kind
  | unit => exact .unit
  | tag h => rw [text_ink]; exact .tag h
  | tagged h1 h2 h3 h4 => rw [text_append, text_ink]; exact .tagged h1 h2.scalar h3.start h4

theorem PDoc.lines {ls p} (h : PDoc ls p) : DocLines ls (text p) := by
  induction h with
  | nil => exact .nil
  | cons h1 h2 h3 _ ih =>
    simp only [text_append, text_ink]
    exact .cons h1 h2 (.inl rfl) h3.gap ih

theorem PTrailing.trailing {p} (h : PTrailing p) : Trailing (text p) := by
  cases h with
  | none => exact .none
  | comment h1 h2 => simp only [text_append, text_ink]; exact .comment h1 h2

theorem PValue.value {v e p} (h : PValue v e p) : ValueText v e (text p) := by
  refine PValue.rec (motive_1 := fun v e p _ => ValueText v e (text p)) (motive_2 := fun vs p _ => ItemsText vs (text p))
    (motive_3 := fun es p _ => EntriesText es (text p)) ?_ ?_ ?_ ?_ ?_ ?_ ?_ ?_ ?_ ?_ ?_ h
  · intro v k e s h; exact .scalar h.scalar
  · exact .unit
  · intro n h; rw [text_ink]; exact .tag h
  · intro n p e s h1 _ h3 ih; rw [text_append, text_ink]; exact .tagged h1 ih h3.start
  · intro vs t _ ih; rw [text_append, text_ink]; exact .sequence ih
  · intro es t _ h ih; rw [text_append, text_ink]; exact .object ih h
  · intro g h; rw [text_append, text_ink]; exact .nil h.gap
  · intro g v e s vs t h1 _ _ h4 ih1 ih2; rw [text_append, text_append]; exact .cons h1.gap ih1 ih2 h4
  · intro g h; rw [text_append, text_ink]; exact .nil h.gap
  · intro g ls dt k ke ks b v e s tr es t h1 h2 h3 h4 h5 _ h7 _ h9 h10 ih1 ih2
    rw [text_append] at h9
    simp only [text_append, text_ink]
    exact .cons h1.gap h2.lines h3.key h4 h5 ih1 h7.trailing ih2 h9 h10
  · intro g ls dt k ke ks tr es t h1 h2 h3 h4 _ h6 h7 ih
    rw [text_append] at h6
    simp only [text_append]
    exact .lone h1.gap h2.lines h3.key h4.trailing ih h6 h7

theorem PRootKey.rootKey {ks path e p} (h : PRootKey ks path e p) : RootKeyText ks path e (text p) := by
  cases h with
  | path h1 h2 h3 => rw [text_ink]; exact .path h1 h2 h3
  | other h1 h2 => exact .other h1.key h2

theorem PRoot.root {es p} (h : PRoot es p) : RootText es (text p) := by
  induction h with
  | nil h => exact .nil h.gap
  | cons h1 h2 h3 h4 h5 h6 h7 _ h9 h10 ih =>
    rw [text_append] at h9
    simp only [text_append, text_ink]
    exact .cons h1.gap h2.lines h3.rootKey h4 h5 h6.value h7.trailing ih h9 h10
  | lone h1 h2 h3 h4 _ h6 h7 ih =>
    rw [text_append] at h6
    simp only [text_append]
    exact .lone h1.gap h2.lines h3.rootKey h4.trailing ih h6 h7

/-! ## Plain texts -/

theorem PlainText.left {a b : List Char} (h : PlainText (a ++ b)) : PlainText a := fun c hc => h c (by simp [hc])

theorem PlainText.right {a b : List Char} (h : PlainText (a ++ b)) : PlainText b := fun c hc => h c (by simp [hc])

theorem PlainText.append {a b : List Char} (ha : PlainText a) (hb : PlainText b) : PlainText (a ++ b) := fun c hc =>
  (List.mem_append.1 hc).elim (ha c) (hb c)

/-! ## What follows -/

/-- The end of an entry is next: the end of the line or the text, a comma or a closing brace. -/
def sep : List Char → Bool
  | [] => true
  | c :: t => if blank c then sep t else c == '\n' || c == ',' || c == '}'

theorem sep_blanks {b : List Char} (hb : Blanks b) (t : List Char) : sep (b ++ t) = sep t := by
  induction b with
  | nil => rfl
  | cons c b ih =>
    have := (blank_iff c).2 (hb c (by simp))
    simp only [List.cons_append, sep, this, if_true]
    exact ih (fun x hx => hb x (by simp [hx]))

theorem entryEnd_sep {tr t : List Char} (h : EntryEnd tr t) (hp : PlainText t) : sep t = true := by
  unfold EntryEnd at h
  split at h
  · obtain ⟨b, u, rfl, hb, hu⟩ := h
    rw [sep_blanks hb]
    rcases hu with hu | ⟨c, r, rfl, hc⟩
    · rcases atLineEnd hu hp.right with rfl | ⟨r, rfl⟩ <;> simp [sep, blank]
    · rcases hc with rfl | rfl <;> simp [sep, blank]
  · rcases atLineEnd h hp with rfl | ⟨r, rfl⟩ <;> simp [sep, blank]

theorem sep_append {x : List Char} (r : List Char) (h : sep (x ++ ['}']) = true) : sep (x ++ ['}'] ++ r) = true := by
  induction x with
  | nil => simp [sep, blank]
  | cons c x ih =>
    simp only [List.cons_append, sep] at h ⊢
    split
    · rename_i hb
      rw [if_pos hb] at h
      simpa using ih h
    · rename_i hb
      rw [if_neg hb] at h
      exact h

theorem follows_append {e : Tail} (he : e = .closed ∨ e = .word ∨ e = .line) {y : List Char} (hy : y ≠ [])
    (h : Follows e y) (r : List Char) : Follows e (y ++ r) := by
  rcases he with rfl | rfl | rfl
  · trivial
  · rcases h with h | ⟨c, u, rfl, hc⟩
    · exact absurd h hy
    · exact .inr ⟨c, u ++ r, rfl, hc⟩
  · rcases h with h | ⟨u, rfl⟩ | ⟨u, rfl⟩
    · exact absurd h hy
    · exact .inr (.inl ⟨u ++ r, rfl⟩)
    · exact .inr (.inr ⟨u ++ r, rfl⟩)

theorem PScalar.tail {key v k e p} (h : PScalar key v k e p) : e = .closed ∨ e = .word ∨ e = .line := by
  cases h <;> simp

theorem PScalar.keyTail {v k e p} (h : PScalar true v k e p) : e = .closed ∨ e = .word := by
  cases h <;> simp_all

theorem PKey.tail {k e p} (h : PKey k e p) : e = .closed ∨ e = .word := by
  cases h with
  | scalar h => exact h.keyTail
  | unit => simp
  | tag => simp
  | tagged _ h => exact h.keyTail

theorem PValue.tail {v e p} (h : PValue v e p) : e = .closed ∨ e = .word ∨ e = .line := by
  refine PValue.rec (motive_1 := fun _ e _ _ => e = .closed ∨ e = .word ∨ e = .line) (motive_2 := fun _ _ _ => True)
    (motive_3 := fun _ _ _ => True) ?_ ?_ ?_ ?_ ?_ ?_ ?_ ?_ ?_ ?_ ?_ h
  all_goals intros
  all_goals first
    | trivial
    | assumption
    | (rename_i h; exact h.tail)
    | simp

theorem PItems.last {vs p} (h : PItems vs p) : ∃ x, text p = x ++ [')'] := by
  refine PItems.rec (motive_1 := fun _ _ _ _ => True) (motive_2 := fun _ p _ => ∃ x, text p = x ++ [')'])
    (motive_3 := fun _ _ _ => True) ?_ ?_ ?_ ?_ ?_ ?_ ?_ ?_ ?_ ?_ ?_ h
  all_goals intros
  all_goals try trivial
  · exact ⟨_, by rw [text_append, text_ink]⟩
  · rename_i ih
    obtain ⟨x, hx⟩ := ih
    rename_i g v e s vs t _ _ _ _ _
    exact ⟨text g ++ text s ++ x, by simp [text_append, hx]⟩

theorem PEntries.last {es p} (h : PEntries es p) : ∃ x, text p = x ++ ['}'] := by
  refine PEntries.rec (motive_1 := fun _ _ _ _ => True) (motive_2 := fun _ _ _ => True)
    (motive_3 := fun _ p _ => ∃ x, text p = x ++ ['}']) ?_ ?_ ?_ ?_ ?_ ?_ ?_ ?_ ?_ ?_ ?_ h
  all_goals intros
  all_goals try trivial
  · exact ⟨_, by rw [text_append, text_ink]⟩
  · rename_i ih
    obtain ⟨x, hx⟩ := ih
    exact ⟨_, by rw [text_append, hx, ← List.append_assoc]⟩
  · rename_i ih
    obtain ⟨x, hx⟩ := ih
    exact ⟨_, by rw [text_append, hx, ← List.append_assoc]⟩

/-! ## Gaps -/

/-- What is known of the state behind a construct. -/
structure Same (st st' : St) : Prop where
  stack : st'.stack = st.stack
  calm : Calm st'

theorem gap_paint {commas p} (h : PGap commas p) : ∀ (st : St) (t : List Char), Calm st → PlainText (text p) → ∃ st',
    mid st (text p ++ t) = p ++ mid st' t ∧ Same st st' ∧
      (inObject st = true → st.phase = .key ∨ sep (text p ++ t) = true → st'.phase = .key ∨ sep t = true) := by
  induction h with
  | nil => intro st t hc _; exact ⟨st, rfl, ⟨rfl, hc⟩, fun _ h => h⟩
  | @blank c g hb _ ih =>
    intro st t hc hp
    rw [text_append, text_ink] at hp ⊢
    obtain ⟨st', h1, h2, h3⟩ := ih st t hc hp.right
    refine ⟨st', ?_, h2, fun ho h => h3 ho ?_⟩
    · rw [List.append_assoc, List.singleton_append, mid_blank hb, h1]; rfl
    · refine h.imp_right fun h => ?_
      rw [List.append_assoc, sep_blanks (b := [c]) (by intro x hx; simp at hx; exact hx ▸ hb)] at h
      exact h
  | @newline g _ ih =>
    intro st t hc hp
    rw [text_append, text_brk] at hp ⊢
    obtain ⟨st', h1, h2, h3⟩ := ih (endLine st) t (endLine_calm hc) hp.right
    refine ⟨st', ?_, ⟨h2.stack.trans (endLine_stack st), h2.calm⟩, fun ho _ => h3 ?_ ?_⟩
    · rw [List.append_assoc, List.singleton_append, mid_break, start_calm (endLine_calm hc), h1]; rfl
    · rw [inObject_congr (endLine_stack st)]; exact ho
    · left; simp [endLine, ho]
  | @comment c g hcm _ ih =>
    intro st t hc hp
    rw [text_append, text_append, text_brk, text_ink] at hp ⊢
    obtain ⟨st', h1, h2, h3⟩ := ih (endLine st) t (endLine_calm hc) hp.right.right
    refine ⟨st', ?_, ⟨h2.stack.trans (endLine_stack st), h2.calm⟩, fun ho _ => h3 ?_ ?_⟩
    · rw [List.append_assoc, mid_comment hcm hp.left st (t := ['\n'] ++ text g ++ t) (by simp [line])]
      rw [List.append_assoc, List.singleton_append, mid_break, start_calm (endLine_calm hc), h1]
      simp [brk]
    · rw [inObject_congr (endLine_stack st)]; exact ho
    · left; simp [endLine, ho]
  | @comma g _ _ ih =>
    intro st t hc hp
    rw [text_append, text_ink] at hp ⊢
    have hm := mid_comma st (text g ++ t)
    cases ho : inObject st with
    | false =>
      rw [ho] at hm
      obtain ⟨st', h1, h2, _⟩ := ih st t hc hp.right
      refine ⟨st', ?_, h2, fun h => by cases h⟩
      rw [List.append_assoc, List.singleton_append, hm]
      simp only [Bool.false_eq_true, if_false]
      rw [h1]; rfl
    | true =>
      rw [ho] at hm
      obtain ⟨st', h1, h2, h3⟩ := ih { st with phase := .key } t ⟨hc.1, hc.2, hc.3⟩ hp.right
      refine ⟨st', ?_, ⟨h2.stack, h2.calm⟩, fun _ _ => h3 ho (.inl rfl)⟩
      rw [List.append_assoc, List.singleton_append, hm]
      simp only [if_true]
      rw [h1]; rfl

theorem doc_paint {ls p} (h : PDoc ls p) : ∀ (st : St) (t : List Char), Calm st → inObject st = true → PlainText (text p) →
    st.phase = .key ∨ sep (text p ++ t) = true → sep t = false → ∃ st',
    mid st (text p ++ t) = p ++ mid st' t ∧ Same st st' ∧ st'.phase = .key := by
  induction h with
  | nil =>
    intro st t hc _ _ h hs
    refine ⟨st, rfl, ⟨rfl, hc⟩, h.resolve_right ?_⟩
    show sep t ≠ true
    rw [hs]; simp
  | @cons l body g ls p hb hl hg _ ih =>
    intro st t hc ho hp h hs
    simp only [text_append, text_ink, text_brk] at hp h ⊢
    have hbody : ∀ c ∈ body, c ≠ '\n' := by
      intro c hcb
      rcases hb with rfl | ⟨rfl, _⟩
      · rcases List.mem_cons.1 hcb with rfl | hcb
        · decide
        · exact (hl c hcb).1
      · exact (hl c hcb).1
    have hm := mid_doc hbody (fun c hcb => hp c (by simp [hcb])) st (t := '\n' :: (text g ++ (text p ++ t))) (by simp [line])
    rw [mid_break, start_calm (endLine_calm hc)] at hm
    have ho' : inObject (endLine st) = true := by rw [inObject_congr (endLine_stack st)]; exact ho
    obtain ⟨st1, h1, h2, h3⟩ := gap_paint hg (endLine st) (text p ++ t) (endLine_calm hc) hp.left.right
    have h3 := h3 ho' (.inl (by simp [endLine, ho]))
    have ho1 : inObject st1 = true := by rw [inObject_congr h2.stack]; exact ho'
    obtain ⟨st2, h4, h5, h6⟩ := ih st1 t h2.calm ho1 hp.right h3 hs
    refine ⟨st2, ?_, ⟨by rw [h5.stack, h2.stack, endLine_stack], h5.calm⟩, h6⟩
    rw [show '/' :: '/' :: '/' :: body ++ ['\n'] ++ text g ++ text p ++ t =
      '/' :: '/' :: '/' :: body ++ '\n' :: (text g ++ (text p ++ t)) by simp, hm, h1, h4]
    simp [brk]

theorem trailing_paint {p} (h : PTrailing p) (st : St) (t : List Char) (hp : PlainText (text p)) (ht : PlainText t)
    (he : EntryEnd (text p) t) : mid st (text p ++ t) = p ++ mid st t := by
  cases h with
  | none => rfl
  | @comment b c hb hc =>
    simp only [text_append, text_ink] at hp he ⊢
    have hne : b ++ c ≠ [] := by obtain ⟨r, rfl, _⟩ := hc; simp
    unfold EntryEnd at he
    rw [if_neg hne] at he
    rw [List.append_assoc, mid_blanks hb, mid_comment hc hp.right st (line_atLineEnd he ht), List.append_assoc]

/-! ## Scalars, keys and values -/

theorem scalar_paint {key v k e p} (h : PScalar key v k e p) (st : St) (t : List Char) (hc : Calm st)
    (hk : isKey st = key) (hf : Follows e t) (hp : PlainText (text p)) (ht : PlainText t) : ∃ st',
    mid st (text p ++ t) = p ++ mid st' t ∧ Same st st' ∧ (key = true → st'.phase = .value) := by
  subst hk
  cases h with
  | bare h =>
    rw [text_ink] at hp ⊢
    exact ⟨_, mid_bare h hp hf st, ⟨afterAtom_stack _, afterAtom_calm hc⟩, fun h => afterAtom_key h⟩
  | @quoted body v h1 h2 h3 =>
    simp only [text_append, text_ink, text_inkBody]
    refine ⟨_, ?_, ⟨afterAtom_stack _, afterAtom_calm hc⟩, fun h => afterAtom_key h⟩
    rw [← mid_quoted h1 h3 t st]
    simp
  | @raw n _ h1 h2 h3 =>
    rw [text_inkLines]
    obtain ⟨st', h4, h5, h6, h7⟩ := mid_raw h1 h3 t st hc
    exact ⟨st', h4, ⟨h5, h6⟩, h7⟩
  | heredoc h1 h2 h3 h4 h5 =>
    rw [text_inkLines] at hp ⊢
    exact ⟨_, mid_heredoc h2 h3 h4 h5 hp.left.left.right hf ht st hc h1, ⟨afterAtom_stack _, afterAtom_calm hc⟩,
      fun h => afterAtom_key h⟩

theorem payload_head {n s t : List Char} (h : PayloadMark n s) :
    (∃ c r, s ++ t = c :: r ∧ (c = '(' ∨ c = '{' ∨ c = '"')) ∧
      ((s ++ t).head? = some '{' ∨ (s ++ t).head? = some '(' ∨ (s ++ t).head? = some '"') := by
  obtain ⟨c, r, rfl, h⟩ := h
  rcases h with rfl | rfl | ⟨rfl, _⟩ <;> exact ⟨⟨_, _, rfl, by simp⟩, by simp⟩

theorem tag_paint {n : List Char} (hn : TagName n) (st : St) (t : List Char) (hf : Follows .word t) :
    mid st ('@' :: n ++ t) = ink (tagColour (isKey st)) ('@' :: n) ++ mid (afterAtom st) t := by
  rw [mid_tag hn (.inl hf), if_neg]
  rcases hf with rfl | ⟨c, r, rfl, hc⟩
  · simp
  · simp only [List.mem_cons, List.not_mem_nil, or_false] at hc
    rcases hc with rfl | rfl | rfl | rfl | rfl | rfl | rfl <;> simp

theorem key_paint {k e p} (h : PKey k e p) (st : St) (t : List Char) (hc : Calm st) (hk : isKey st = true)
    (hf : Follows e t) (hp : PlainText (text p)) (ht : PlainText t) : ∃ st',
    mid st (text p ++ t) = p ++ mid st' t ∧ Same st st' ∧ st'.phase = .value := by
  have htag : tagColour (isKey st) = .tagKey := by rw [hk]; rfl
  cases h with
  | scalar h =>
    obtain ⟨st', h1, h2, h3⟩ := scalar_paint h st t hc hk hf hp ht
    exact ⟨st', h1, h2, h3 rfl⟩
  | unit =>
    refine ⟨_, ?_, ⟨afterAtom_stack st, afterAtom_calm hc⟩, afterAtom_key hk⟩
    have := mid_unit hf st
    rw [htag] at this
    exact this
  | tag hn =>
    refine ⟨_, ?_, ⟨afterAtom_stack st, afterAtom_calm hc⟩, afterAtom_key hk⟩
    rw [text_ink, tag_paint hn st t hf, htag]
  | @tagged n v k e s hn hs hm _ =>
    rw [text_append, text_ink] at hp ⊢
    obtain ⟨st', h1, h2, h3⟩ := scalar_paint hs st t hc hk hf hp.right ht
    refine ⟨st', ?_, h2, h3 rfl⟩
    have hh := payload_head (t := t) hm
    rw [List.append_assoc, mid_tag hn (.inr hh.1), if_pos hh.2, h1, htag, List.append_assoc]

/-- The first character of a key. -/
theorem key_start {k e p} (h : PKey k e p) (t : List Char) : sep (text p ++ t) = false := by
  have hb : ∀ s u, BareText s → sep (s ++ u) = false := by
    rintro s u ⟨ha, c, r, rfl, -, -, -, -⟩
    have h1 := ha c (by simp)
    simp only [bareForbidden, List.mem_cons, List.not_mem_nil, or_false, not_or] at h1
    have h2 : blank c = false := by
      cases hbl : blank c with
      | false => rfl
      | true => rcases (blank_iff c).1 hbl with rfl | rfl <;> simp [isWhitespace] at h1
    have h3 : c ≠ '\n' := by rintro rfl; simp [isWhitespace] at h1
    simp [sep, h2, h3, h1]
  cases h with
  | scalar h =>
    cases h with
    | bare h => rw [text_ink]; exact hb _ _ h
    | quoted => simp [text_append, text_ink, sep, blank]
    | raw => rw [text_inkLines]; simp [sep, blank]
    | heredoc h => cases h
  | unit => simp [text_ink, sep, blank]
  | tag => simp [text_ink, sep, blank]
  | tagged => simp [text_append, text_ink, sep, blank]

theorem rootKey_paint {ks path e p} (h : PRootKey ks path e p) (st : St) (t : List Char) (hc : Calm st)
    (hk : isKey st = true) (hf : Follows e t) (hp : PlainText (text p)) (ht : PlainText t) : ∃ st',
    mid st (text p ++ t) = p ++ mid st' t ∧ Same st st' ∧ st'.phase = .value := by
  cases h with
  | path _ _ h => exact key_paint (.scalar (.bare h)) st t hc hk hf hp ht
  | other h _ => exact key_paint h st t hc hk hf hp ht

theorem rootKey_start {ks path e p} (h : PRootKey ks path e p) (t : List Char) : sep (text p ++ t) = false := by
  cases h with
  | path _ _ h => exact key_start (.scalar (.bare (key := true) h)) t
  | other h _ => exact key_start h t

theorem follows_blank {e : Tail} (he : e = .closed ∨ e = .word) {b : List Char} (hb : Blanks b) (hn : b ≠ [])
    (t : List Char) : Follows e (b ++ t) := by
  rcases he with rfl | rfl
  · trivial
  · cases b with
    | nil => exact absurd rfl hn
    | cons c b =>
      refine .inr ⟨c, b ++ t, rfl, ?_⟩
      rcases hb c (by simp) with rfl | rfl <;> simp

/-- A key with what stands before it. -/
theorem entryKey_paint {g dt kt : Painted} {ls ke} (hg : PGap true g) (hd : PDoc ls dt) (hs : ∀ t, sep (text kt ++ t) = false)
    (hkp : ∀ st t, Calm st → isKey st = true → Follows ke t → PlainText (text kt) → PlainText t → ∃ st',
      mid st (text kt ++ t) = kt ++ mid st' t ∧ Same st st' ∧ st'.phase = .value)
    (st : St) (t : List Char) (hc : Calm st) (ho : inObject st = true)
    (hph : st.phase = .key ∨ sep (text g ++ (text dt ++ (text kt ++ t))) = true) (hf : Follows ke t)
    (hpg : PlainText (text g)) (hpd : PlainText (text dt)) (hpk : PlainText (text kt)) (ht : PlainText t) : ∃ st',
    mid st (text g ++ (text dt ++ (text kt ++ t))) = g ++ (dt ++ (kt ++ mid st' t)) ∧ Same st st' ∧ st'.phase = .value := by
  obtain ⟨st1, h1, h2, h3⟩ := gap_paint hg st (text dt ++ (text kt ++ t)) hc hpg
  have h3 := h3 ho hph
  have ho1 : inObject st1 = true := by rw [inObject_congr h2.stack]; exact ho
  obtain ⟨st2, h4, h5, h6⟩ := doc_paint hd st1 (text kt ++ t) h2.calm ho1 hpd h3 (hs t)
  have ho2 : inObject st2 = true := by rw [inObject_congr h5.stack]; exact ho1
  obtain ⟨st3, h7, h8, h9⟩ := hkp st2 t h5.calm (by simp [isKey, ho2, h6]) hf hpk ht
  refine ⟨st3, by rw [h1, h4, h7], ⟨by rw [h8.stack, h5.stack, h2.stack], h8.calm⟩, h9⟩

theorem isKey_value {st : St} (h : st.phase = .value) : isKey st = false := by simp [isKey, h]

theorem isKey_sequence {st : St} (h : inObject st = false) : isKey st = false := by simp [isKey, h]

theorem closed_same {st : St} (h : Calm st) : (closed st).stack = st.stack.tail ∧ Calm (closed st) := by
  unfold closed
  simp only
  split
  · exact ⟨rfl, h.1, h.2, h.3⟩
  · exact ⟨rfl, h.1, h.2, h.3⟩

theorem value_paint {v e p} (h : PValue v e p) : ∀ (st : St) (t : List Char), Calm st → isKey st = false → Follows e t →
    PlainText (text p) → PlainText t → ∃ st', mid st (text p ++ t) = p ++ mid st' t ∧ Same st st' := by
  refine PValue.rec
    (motive_1 := fun _ e p _ => ∀ (st : St) (t : List Char), Calm st → isKey st = false → Follows e t →
      PlainText (text p) → PlainText t → ∃ st', mid st (text p ++ t) = p ++ mid st' t ∧ Same st st')
    (motive_2 := fun _ p _ => ∀ (st : St) (t : List Char), Calm st → inObject st = false → PlainText (text p) →
      PlainText t → ∃ st', mid st (text p ++ t) = p ++ mid st' t ∧ st'.stack = st.stack.tail ∧ Calm st')
    (motive_3 := fun _ p _ => ∀ (st : St) (t : List Char), Calm st → inObject st = true →
      st.phase = .key ∨ sep (text p ++ t) = true → PlainText (text p) → PlainText t →
      ∃ st', mid st (text p ++ t) = p ++ mid st' t ∧ st'.stack = st.stack.tail ∧ Calm st')
    ?_ ?_ ?_ ?_ ?_ ?_ ?_ ?_ ?_ ?_ ?_ h
  · intro v k e s h st t hc hk hf hp ht
    obtain ⟨st', h1, h2, _⟩ := scalar_paint h st t hc hk hf hp ht
    exact ⟨st', h1, h2⟩
  · intro st t hc hk hf _ _
    refine ⟨_, ?_, ⟨afterAtom_stack st, afterAtom_calm hc⟩⟩
    have := mid_unit hf st
    rw [hk] at this
    exact this
  · intro n hn st t hc hk hf _ _
    refine ⟨_, ?_, ⟨afterAtom_stack st, afterAtom_calm hc⟩⟩
    rw [text_ink, tag_paint hn st t hf, hk]
    rfl
  · intro n p e s hn _ hm ih st t hc hk hf hp ht
    rw [text_append, text_ink] at hp ⊢
    obtain ⟨st', h1, h2⟩ := ih st t hc hk hf hp.right ht
    refine ⟨st', ?_, h2⟩
    have hh := payload_head (t := t) hm
    rw [List.append_assoc, mid_tag hn (.inr hh.1), if_pos hh.2, h1, hk, List.append_assoc]
    rfl
  · intro vs p _ ih st t hc _ _ hp ht
    rw [text_append, text_ink] at hp ⊢
    obtain ⟨st', h1, h2, h3⟩ := ih { st with stack := .sequence :: st.stack } t ⟨hc.1, hc.2, hc.3⟩ rfl hp.right ht
    refine ⟨st', ?_, ⟨h2, h3⟩⟩
    rw [List.append_assoc, List.singleton_append, mid_openParen, h1]; rfl
  · intro es p _ _ ih st t hc _ _ hp ht
    rw [text_append, text_ink] at hp ⊢
    obtain ⟨st', h1, h2, h3⟩ := ih { st with stack := .object :: st.stack, phase := .key } t ⟨hc.1, hc.2, hc.3⟩ rfl (.inl rfl)
      hp.right ht
    refine ⟨st', ?_, ⟨h2, h3⟩⟩
    rw [List.append_assoc, List.singleton_append, mid_openCurly, h1]; rfl
  · intro g hg st t hc _ hp ht
    rw [text_append, text_ink] at hp ⊢
    obtain ⟨st1, h1, h2, _⟩ := gap_paint hg st (')' :: t) hc hp.left
    refine ⟨closed st1, ?_, by rw [(closed_same h2.calm).1, h2.stack], (closed_same h2.calm).2⟩
    rw [List.append_assoc, List.singleton_append, h1, mid_closeParen]
    simp [ink]
  · intro g v e s vs p hg hv hi hf ih1 ih2 st t hc ho hp ht
    simp only [text_append] at hp ⊢
    obtain ⟨st1, h1, h2, _⟩ := gap_paint hg st (text s ++ (text p ++ t)) hc hp.left.left
    have ho1 : inObject st1 = false := by rw [inObject_congr h2.stack]; exact ho
    obtain ⟨x, hx⟩ := hi.last
    have hf' := follows_append hv.tail (by rw [hx]; simp) hf t
    obtain ⟨st2, h3, h4⟩ := ih1 st1 (text p ++ t) h2.calm (isKey_sequence ho1) hf' hp.left.right (hp.right.append ht)
    have ho2 : inObject st2 = false := by rw [inObject_congr h4.stack]; exact ho1
    obtain ⟨st3, h5, h6, h7⟩ := ih2 st2 t h4.calm ho2 hp.right ht
    refine ⟨st3, ?_, by rw [h6, h4.stack, h2.stack], h7⟩
    rw [List.append_assoc, List.append_assoc, h1, h3, h5]
    simp
  · intro g hg st t hc _ _ hp ht
    rw [text_append, text_ink] at hp ⊢
    obtain ⟨st1, h1, h2, _⟩ := gap_paint hg st ('}' :: t) hc hp.left
    refine ⟨closed st1, ?_, by rw [(closed_same h2.calm).1, h2.stack], (closed_same h2.calm).2⟩
    rw [List.append_assoc, List.singleton_append, h1, mid_closeCurly]
    simp [ink]
  · intro g ls dt k ke ks b v e s tr es p hg hd hk hb hbn hv htr hes hf hend ih1 ih2 st t hc ho hph hp ht
    simp only [text_append, text_ink] at hp hph hf ⊢
    have hpr : PlainText (text p) := hp.right
    have hptr : PlainText (text tr) := hp.left.right
    have hps : PlainText (text s) := hp.left.left.right
    have hpb : PlainText b := hp.left.left.left.right
    have hpk : PlainText (text ks) := hp.left.left.left.left.right
    have hpd : PlainText (text dt) := hp.left.left.left.left.left.right
    have hpg : PlainText (text g) := hp.left.left.left.left.left.left
    obtain ⟨x, hx⟩ := hes.last
    have hsep : sep (text p ++ t) = true := by
      have := entryEnd_sep hend hpr
      rw [hx] at this ⊢
      exact sep_append t this
    have hend' : EntryEnd (text tr) (text p ++ t) := by
      unfold EntryEnd at hend ⊢
      split
      · rename_i h0
        rw [if_pos h0] at hend
        obtain ⟨b', u, h1, h2, h3⟩ := hend
        have hun : u ≠ [] := by
          rintro rfl
          rw [List.append_nil, hx] at h1
          have := h2 '}' (by rw [← h1]; simp)
          simp [Blank] at this
        refine ⟨b', u ++ t, by rw [h1, List.append_assoc], h2, ?_⟩
        rcases h3 with (h3 | ⟨r, rfl⟩ | ⟨r, rfl⟩) | ⟨c, r, rfl, h3⟩
        · exact absurd h3 hun
        · exact .inl (.inr (.inl ⟨r ++ t, rfl⟩))
        · exact .inl (.inr (.inr ⟨r ++ t, rfl⟩))
        · exact .inr ⟨c, r ++ t, rfl, h3⟩
      · rename_i h0
        rw [if_neg h0] at hend
        exact follows_append (e := .line) (.inr (.inr rfl)) (by rw [hx]; simp) hend t
    obtain ⟨st1, h1, h2, h3⟩ := entryKey_paint hg hd (key_start hk) (key_paint hk) st
      (b ++ (text s ++ (text tr ++ (text p ++ t)))) hc ho
      (by simpa [List.append_assoc] using hph) (follows_blank hk.tail hb hbn _) hpg hpd hpk
      (hpb.append (hps.append (hptr.append (hpr.append ht))))
    have hf' : Follows e (text tr ++ (text p ++ t)) := by
      rw [← List.append_assoc]
      exact follows_append hv.tail (by rw [hx]; simp) hf t
    obtain ⟨st2, h4, h5⟩ := ih1 st1 (text tr ++ (text p ++ t)) h2.calm (isKey_value h3) hf' hps
      (hptr.append (hpr.append ht))
    have ho2 : inObject st2 = true := by rw [inObject_congr h5.stack, inObject_congr h2.stack]; exact ho
    obtain ⟨st3, h6, h7, h8⟩ := ih2 st2 t h5.calm ho2 (.inr hsep) hpr ht
    refine ⟨st3, ?_, by rw [h7, h5.stack, h2.stack], h8⟩
    have h9 := trailing_paint htr st2 (text p ++ t) hptr (hpr.append ht) hend'
    simp only [List.append_assoc]
    rw [h1, mid_blanks hb, h4, h9, h6]
  · intro g ls dt k ke ks tr es p hg hd hk htr hes hf hend ih st t hc ho hph hp ht
    simp only [text_append] at hp hph hf ⊢
    have hpr : PlainText (text p) := hp.right
    have hptr : PlainText (text tr) := hp.left.right
    have hpk : PlainText (text ks) := hp.left.left.right
    have hpd : PlainText (text dt) := hp.left.left.left.right
    have hpg : PlainText (text g) := hp.left.left.left.left
    obtain ⟨x, hx⟩ := hes.last
    have hsep : sep (text p ++ t) = true := by
      have := entryEnd_sep hend hpr
      rw [hx] at this ⊢
      exact sep_append t this
    have hend' : EntryEnd (text tr) (text p ++ t) := by
      unfold EntryEnd at hend ⊢
      split
      · rename_i h0
        rw [if_pos h0] at hend
        obtain ⟨b', u, h1, h2, h3⟩ := hend
        have hun : u ≠ [] := by
          rintro rfl
          rw [List.append_nil, hx] at h1
          have := h2 '}' (by rw [← h1]; simp)
          simp [Blank] at this
        refine ⟨b', u ++ t, by rw [h1, List.append_assoc], h2, ?_⟩
        rcases h3 with (h3 | ⟨r, rfl⟩ | ⟨r, rfl⟩) | ⟨c, r, rfl, h3⟩
        · exact absurd h3 hun
        · exact .inl (.inr (.inl ⟨r ++ t, rfl⟩))
        · exact .inl (.inr (.inr ⟨r ++ t, rfl⟩))
        · exact .inr ⟨c, r ++ t, rfl, h3⟩
      · rename_i h0
        rw [if_neg h0] at hend
        exact follows_append (e := .line) (.inr (.inr rfl)) (by rw [hx]; simp) hend t
    have hf' : Follows ke (text tr ++ (text p ++ t)) := by
      rw [← List.append_assoc]
      exact follows_append (hk.tail.imp_right .inl) (by rw [hx]; simp) hf t
    obtain ⟨st1, h1, h2, h3⟩ := entryKey_paint hg hd (key_start hk) (key_paint hk) st
      (text tr ++ (text p ++ t)) hc ho (by simpa [List.append_assoc] using hph) hf' hpg hpd hpk
      (hptr.append (hpr.append ht))
    have ho2 : inObject st1 = true := by rw [inObject_congr h2.stack]; exact ho
    obtain ⟨st3, h6, h7, h8⟩ := ih st1 t h2.calm ho2 (.inr hsep) hpr ht
    refine ⟨st3, ?_, by rw [h7, h2.stack], h8⟩
    have h9 := trailing_paint htr st1 (text p ++ t) hptr (hpr.append ht) hend'
    simp only [List.append_assoc]
    rw [h1, h9, h6]

/-! ## Documents -/

theorem root_paint {es p} (h : PRoot es p) : ∀ st, Calm st → inObject st = true →
    st.phase = .key ∨ sep (text p) = true → PlainText (text p) → mid st (text p) = p := by
  induction h with
  | nil hg =>
    intro st hc _ _ hp
    obtain ⟨st', h1, _⟩ := gap_paint hg st [] hc hp
    simpa [mid_nil] using h1
  | @cons g ls dt ks path ke kt b v e s tr es p hg hd hk hb hbn hv htr _ hf hend ih =>
    intro st hc ho hph hp
    simp only [text_append, text_ink] at hp hph hf ⊢
    have hpr : PlainText (text p) := hp.right
    have hptr : PlainText (text tr) := hp.left.right
    have hps : PlainText (text s) := hp.left.left.right
    have hpb : PlainText b := hp.left.left.left.right
    have hpk : PlainText (text kt) := hp.left.left.left.left.right
    have hpd : PlainText (text dt) := hp.left.left.left.left.left.right
    have hpg : PlainText (text g) := hp.left.left.left.left.left.left
    have hke : ke = .closed ∨ ke = .word := by
      cases hk with
      | path => simp
      | other h _ => exact h.tail
    obtain ⟨st1, h1, h2, h3⟩ := entryKey_paint hg hd (rootKey_start hk) (rootKey_paint hk) st
      (b ++ (text s ++ (text tr ++ text p))) hc ho (by simpa [List.append_assoc] using hph)
      (follows_blank hke hb hbn _) hpg hpd hpk (hpb.append (hps.append (hptr.append hpr)))
    obtain ⟨st2, h4, h5⟩ := value_paint hv st1 (text tr ++ text p) h2.calm (isKey_value h3) hf hps (hptr.append hpr)
    have ho2 : inObject st2 = true := by rw [inObject_congr h5.stack, inObject_congr h2.stack]; exact ho
    have h6 := ih st2 h5.calm ho2 (.inr (entryEnd_sep hend hpr)) hpr
    have h9 := trailing_paint htr st2 (text p) hptr hpr hend
    simp only [List.append_assoc]
    rw [h1, mid_blanks hb, h4, h9, h6]
  | @lone g ls dt ks path ke kt tr es p hg hd hk htr _ hf hend ih =>
    intro st hc ho hph hp
    simp only [text_append] at hp hph hf ⊢
    have hpr : PlainText (text p) := hp.right
    have hptr : PlainText (text tr) := hp.left.right
    have hpk : PlainText (text kt) := hp.left.left.right
    have hpd : PlainText (text dt) := hp.left.left.left.right
    have hpg : PlainText (text g) := hp.left.left.left.left
    obtain ⟨st1, h1, h2, h3⟩ := entryKey_paint hg hd (rootKey_start hk) (rootKey_paint hk) st
      (text tr ++ text p) hc ho (by simpa [List.append_assoc] using hph) hf hpg hpd hpk (hptr.append hpr)
    have ho2 : inObject st1 = true := by rw [inObject_congr h2.stack]; exact ho
    have h6 := ih st1 h2.calm ho2 (.inr (entryEnd_sep hend hpr)) hpr
    have h9 := trailing_paint htr st1 (text p) hptr hpr hend
    simp only [List.append_assoc]
    rw [h1, h9, h6]

/-- A coloured document is painted in its colours. -/
theorem colours_root {es p} (h : PRoot es p) (hp : PlainText (text p)) : colours (text p) = p := by
  have hc : Calm initial := ⟨rfl, rfl, rfl⟩
  show start initial (text p) = p
  rw [start_calm hc]
  exact root_paint h initial hc rfl (.inl rfl) hp

end Styx.Monaco
