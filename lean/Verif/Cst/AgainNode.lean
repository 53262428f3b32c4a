import Verif.Cst.AgainSpec
import Verif.Cst.SameNode

/-! # Objects and sequences: what is written for them is read as nodes that are written in the same way -/

namespace Styx.Cst

open Styx Styx.Spec

variable {ind : List Char} {dc : Bool} {R : List Green → List Char → Prop} {Q : List Green → List Green → Prop}
  {source : List Char} {L : List Token → List Green → List Token → Prop}

theorem tidyL_iff (cs : List Green) : TidyL cs ↔ ∀ g ∈ cs, Tidy g := by
  induction cs with
  | nil => simp [TidyL]
  | cons g gs ih => simp [TidyL, ih]

/-- What is known about a tree without errors. -/
structure Fine (g : Green) : Prop where
  ok : OkG g
  neat : Neat g
  tidy : Tidy g

theorem Fine.kids {k : SyntaxKind} {cs : List Green} (h : Fine (.node k cs)) : ∀ g ∈ cs, Fine g := by
  obtain ⟨h1, h2, h3⟩ := h
  rw [Neat] at h2
  rw [Tidy] at h3
  exact fun g hg => ⟨h1.kids g hg, (neatL_iff _).1 h2.2.2 g hg, (tidyL_iff _).1 h3.2.2 g hg⟩

theorem mem_entriesOf {c : List Green} : ∀ {cs : List Green}, .node .ENTRY c ∈ cs → c ∈ entriesOf cs := by
  intro cs
  induction cs with
  | nil => intro h; simp at h
  | cons g gs ih =>
    intro h
    rw [entriesOf] at ih ⊢
    rcases List.mem_cons.1 h with rfl | h'
    · rw [nodesOf, if_pos rfl]; simp
    · cases g with
      | token _ _ => rw [nodesOf]; exact ih h'
      | node k c' =>
        rw [nodesOf]
        split
        · exact List.mem_cons_of_mem _ (ih h')
        · exact ih h'

theorem hasToken_mem {k : SyntaxKind} : ∀ {cs : List Green}, hasToken k cs = true ↔ ∃ t, .token k t ∈ cs := by
  intro cs
  induction cs with
  | nil => simp [hasToken]
  | cons g gs ih =>
    cases g with
    | token k' t =>
      rw [hasToken, Bool.or_eq_true, ih]
      constructor
      · rintro (h | ⟨t, h⟩)
        · obtain rfl : k' = k := by simpa using h
          exact ⟨t, by simp⟩
        · exact ⟨t, by simp [h]⟩
      · rintro ⟨t', h⟩
        rcases List.mem_cons.1 h with h | h
        · cases h; exact .inl (by simp)
        · exact .inr ⟨t', h⟩
    | node k' c =>
      rw [hasToken, ih]
      simp

theorem hasKind_mem {k : SyntaxKind} {t : List Char} {cs : List Green} (h : .token k t ∈ cs) : hasKind k cs = true := by
  simp only [hasKind, List.any_eq_true, beq_iff_eq]
  exact ⟨_, h, rfl⟩

theorem tidy_empty {cs : List Green} (h : Tidy (.node .OBJECT cs)) (he : entriesOf cs = []) (hc : hasComments cs = false) :
    hasToken .NEWLINE cs = false := by
  rw [Tidy] at h
  cases hn : hasToken .NEWLINE cs with
  | false => rfl
  | true =>
    obtain ⟨t, ht⟩ := hasToken_mem.1 hn
    rw [hasComments, Bool.or_eq_false_iff] at hc
    rcases h.2.1 rfl with ⟨c, hm⟩ | ⟨t', hm | hm⟩ | h
    · have := mem_entriesOf hm
      rw [he] at this
      simp at this
    · rw [hasKind_mem hm] at hc; simp at hc
    · rw [hasKind_mem hm] at hc; simp at hc
    · exact absurd ht (h t)

mutual
/-- `Tidy` as a test. -/
def tidyB : Green → Bool
  | .token _ _ => true
  | .node k cs =>
    (k != .ENTRY || !cs.isEmpty) &&
    (k != .OBJECT || (!(entriesOf cs).isEmpty || hasToken .LINE_COMMENT cs || hasToken .DOC_COMMENT cs || !hasToken .NEWLINE cs)) &&
    tidyBL cs
/-- `TidyL` as a test. -/
def tidyBL : List Green → Bool
  | [] => true
  | g :: gs => tidyB g && tidyBL gs
end

mutual
theorem tidy_of_test : ∀ g : Green, tidyB g = true → Tidy g
  | .token _ _, _ => by rw [Tidy]; trivial
  | .node k cs, h => by
    simp only [tidyB, Bool.and_eq_true] at h
    rw [Tidy]
    refine ⟨?_, ?_, tidyL_of_test cs h.2⟩
    · rintro rfl
      have := h.1.1
      intro he
      subst he
      cases this
    · rintro rfl
      have := h.1.2
      simp only [Bool.or_eq_true, hasToken_mem] at this
      rcases this with h | ((h | ⟨t, h⟩) | ⟨t, h⟩) | h
      · cases h
      · cases he : entriesOf cs with
        | nil => rw [he] at h; cases h
        | cons c cs' => exact .inl ⟨c, nodesOf_mem c (by rw [← entriesOf, he]; simp)⟩
      · exact .inr (.inl ⟨t, .inl h⟩)
      · exact .inr (.inl ⟨t, .inr h⟩)
      · refine .inr (.inr fun t ht => ?_)
        rw [hasToken_mem.2 ⟨t, ht⟩] at h
        cases h
theorem tidyL_of_test : ∀ gs : List Green, tidyBL gs = true → TidyL gs
  | [], _ => by rw [TidyL]; trivial
  | g :: gs, h => by
    simp only [tidyBL, Bool.and_eq_true] at h
    rw [TidyL]
    exact ⟨tidy_of_test g h.1, tidyL_of_test gs h.2⟩
end

/-! ## Blocks -/

/-- What is written for a block. -/
theorem block_writes {act : List Green → Fmt → Fmt} {fin : Char} (hfin : fin ≠ '\n') {f1 : Fmt} (h1 : f1.atLineStart = false)
    {ls : List (Nat × Ln)} (hne : ls ≠ []) (h : ∀ x ∈ ls, LineOk ind dc R act x.2) {F : Fmt}
    (hF : F = runBlock ind act false ls { f1.newline with level := f1.level + 1 }) :
    ∃ s, Writes ind f1 (({ F.newline with level := F.newline.level - 1 } : Fmt).write ind [fin])
        ('\n' :: (s ++ '\n' :: indentOf ind f1.level) ++ [fin]) ∧
      Printed ind (f1.level + 1) dc R false (normB false ls) s := by
  obtain ⟨s, o1, o2, o3, o4⟩ := runBlock_printed ls false { f1.newline with level := f1.level + 1 } h rfl (.inl hne)
  rw [← hF] at o1 o2 o3
  refine ⟨s, ?_, o4⟩
  obtain ⟨w1, w2, w3, -, -⟩ := write_writes (ind := ind) ({ F.newline with level := F.newline.level - 1 } : Fmt) (s := [fin])
    (by simp) (by simpa using hfin)
  have hl : F.newline.level - 1 = f1.level := by simp [Fmt.newline, o2]
  refine ⟨?_, ?_, w3, by simp, ?_⟩
  · rw [w1, h1]
    simp only [hl]
    simp [Fmt.newline, o1]
  · rw [w2]; exact hl
  · rw [List.getLast?_append]
    simpa using hfin

/-- How a block is read. -/
theorem block_read (hi : Blanks ind) (hL : Loop source dc R Q L) {lvl lvl' : Nat} {ls : List (Nat × Ln)} {s : List Char}
    (h : Printed ind lvl dc R false (normB false ls) s) (hd : DocOk false ls) {x : List Char}
    (hx : (∃ r, x = '}' :: r) ∨ ∃ r, x = ')' :: r)
    (hend : ∀ p g ts', L (toksAt x p) g ts' → g = [] ∧ ts' = toksAt x p) {p : Nat} {g : List Green} {ts' : List Token}
    (hh : Here source ('\n' :: (s ++ '\n' :: indentOf ind lvl') ++ x) p)
    (hl : L (toksAt ('\n' :: (s ++ '\n' :: indentOf ind lvl') ++ x) p) g ts') :
    (∃ m', g = .token .NEWLINE ['\n'] :: m' ∧ Facts Q (normB false ls) m') ∧
      ts' = toksAt x (p + utf8Len ('\n' :: (s ++ '\n' :: indentOf ind lvl'))) := by
  have hb := blanks_indent hi lvl'
  have hnx : NoBlank x := by
    intro c r e
    rcases hx with ⟨r', rfl⟩ | ⟨r', rfl⟩ <;> cases e <;> rfl
  have e0 : '\n' :: (s ++ '\n' :: indentOf ind lvl') ++ x = '\n' :: (s ++ '\n' :: (indentOf ind lvl' ++ x)) := by simp
  rw [e0] at hh hl
  rw [toks_nl] at hl
  obtain ⟨m', rfl, hl'⟩ := hL.trivia _ _ _ _ rfl hl
  have hr := lines_read (fin := toksAt x (p + 1 + utf8Len s + utf8Len ('\n' :: indentOf ind lvl'))) hi hL h
    (z := indentOf ind lvl' ++ x) (fun p => noCom_end hb (.inr hx) p) false (p + 1) m' ts'
    (docOk_normB hd) hh.cons (fun g ts' hz => lines_end hL hb hnx hend hz) hl'
  refine ⟨⟨m', rfl, hr.1⟩, ?_⟩
  rw [hr.2]
  congr 1
  simp only [utf8Len_append, utf8Len, show '\n'.utf8Size = 1 from rfl]
  omega

/-! ## Objects -/

theorem line_comment {t : List Char} (h : LeafText .LINE_COMMENT t) : CommentText t := by
  obtain ⟨r, rfl, h1, h2, h3⟩ := h
  refine ⟨r, rfl, fun c hc => ⟨?_, ?_⟩, h1⟩
  · rintro rfl; exact h2 hc
  · rintro rfl; exact h3 hc

theorem doc_comment {t : List Char} (h : LeafText .DOC_COMMENT t) :
    ∃ body, t = '/' :: '/' :: '/' :: body ∧ ∀ c ∈ body, c ≠ '\n' ∧ c ≠ '\r' := by
  obtain ⟨r, rfl, h2, h3⟩ := h
  refine ⟨r, rfl, fun c hc => ⟨?_, ?_⟩⟩
  · rintro rfl; exact h2 hc
  · rintro rfl; exact h3 hc

theorem lines_nonempty {ls : List (Nat × Ln)}
    (h : (((ls.filterMap (·.2.entry)).isEmpty) && !(ls.any (·.2.isCom) || ls.any (·.2.isDoc))) = false) : ls ≠ [] := by
  rintro rfl
  simp at h

/-- What is written for an object, and how it is read. -/
theorem object_again (hi : Blanks ind) {cs : List Green} (hg : Fine (.node .OBJECT cs))
    (h : ∀ c ∈ entriesOf cs, ∀ f, ∃ u, Writes ind f (formatNode ind (.node .ENTRY c) f) u ∧
      EntR ind (hasToken .NEWLINE cs) (some .rbrace) c u) (f : Fmt) :
    ∃ u, Writes ind f (formatNode ind (.node .OBJECT cs) f) u ∧ AtomReads u .closed (Same ind (.node .OBJECT cs)) := by
  have hin := object_inner hg.ok
  have w0 := write_writes (ind := ind) f (s := ['{']) (by simp) (by simp)
  suffices hs : ∃ t, Writes ind (f.write ind ['{']) (formatNode ind (.node .OBJECT cs) f) (t ++ ['}']) ∧
      ∀ source rest p g ts', Here source (t ++ '}' :: rest) p →
        EntLoop source (some .rbrace) (toksAt (t ++ '}' :: rest) p) g ts' →
        Same ind (.node .OBJECT cs) (.node .OBJECT (.token .L_BRACE ['{'] :: g ++ [.token .R_BRACE ['}']])) ∧
          ts' = toksAt ('}' :: rest) (p + utf8Len t) by
    obtain ⟨t, w, hr⟩ := hs
    refine ⟨['{'] ++ (t ++ ['}']), w0.trans w, ?_⟩
    intro source rest n p gs st hf hh hp herr
    obtain ⟨g, rfl, ⟨m, rfl, hq⟩, hst⟩ := atom_braces hr _ _ _ _ _ _ hf hh hp herr
    exact ⟨_, rfl, hq, hst⟩
  rw [formatNode.eq_def]
  simp only
  obtain ⟨-, -, o3, -, -⟩ := w0
  generalize f.write ind ['{'] = f1 at *
  split
  · rename_i he
    simp only [Bool.and_eq_true, List.isEmpty_iff, Bool.not_eq_true'] at he
    refine ⟨[], write_writes _ (by simp) (by simp), ?_⟩
    intro source rest p g ts' hh hl
    obtain ⟨rfl, rfl⟩ := entLoop_end (.inr ⟨rest, rfl, rfl⟩) hl
    exact ⟨object_same_empty hin he.1 he.2 (tidy_empty hg.tidy he.1 he.2), rfl⟩
  · rename_i hne
    have hne : ((entriesOf cs).isEmpty && !hasComments cs) = false := by simpa using hne
    have hneat := hg.neat
    rw [Neat] at hneat
    obtain ⟨hdn, hcm⟩ := hneat.1 rfl
    split
    · rename_i hmul
      rw [formatBlock_items _ _ _ _ hin]
      have hls : items true 0 cs ≠ [] := by
        apply lines_nonempty
        obtain ⟨i1, i2, i3⟩ := inner_items (rst := true) (n := 0) hin
        rw [← i1, ← i2, ← i3]
        exact hne
      have hok : ∀ x ∈ items true 0 cs, LineOk ind true (EntR ind (hasToken .NEWLINE cs) (some .rbrace))
          (fun c => formatNode ind (.node .ENTRY c)) x.2 := by
        intro x hx
        rcases items_mem hx with ⟨t, h1, h2⟩ | ⟨t, h1, h2⟩ | ⟨k, c, h1, h2⟩
        · rw [h1]; exact line_comment (hg.ok.kids _ h2).leaf
        · rw [h1]; exact ⟨rfl, doc_comment (hg.ok.kids _ h2).leaf⟩
        · rw [h1]
          obtain rfl := inner_entry hin _ h2 _ _ rfl
          exact h c (mem_entriesOf h2)
      obtain ⟨s, w, hp⟩ := block_writes (fin := '}') (by simp) o3 hls hok rfl
      refine ⟨_, w, ?_⟩
      intro source rest p g ts' hh hl
      obtain ⟨⟨m', rfl, hF⟩, hts⟩ := block_read hi (loop_entries (.inr rfl) _) hp (docOk_items hdn) (.inl ⟨rest, rfl⟩)
        (fun p g ts' h => entLoop_end (.inr ⟨rest, rfl, rfl⟩) h) hh hl
      exact ⟨object_same_block hin hcm hne hmul rfl hF, hts⟩
    · rename_i hmul
      have hmul : objMultiline cs = false := by simpa using hmul
      have hnl : hasToken .NEWLINE cs = false := by
        cases hn : hasToken .NEWLINE cs with
        | false => rfl
        | true => rw [objMultiline, newline_separator hn] at hmul; simp at hmul
      have hemp : entriesOf cs ≠ [] := by
        intro he
        rw [objMultiline, he] at hmul
        simp at hmul
      rw [hnl] at h
      rw [formatInline_eq, inlineLoop_run]
      obtain ⟨s, w, ho⟩ := runInline_printed (act := fun c => formatNode ind (.node .ENTRY c)) (sep := [',', ' ']) (by simp) (by simp)
        (entriesOf cs) f1 hemp h o3
      obtain ⟨q1, q2, q3, -, -⟩ := w
      rw [o3] at q1
      refine ⟨s, close_inline o3 (by simpa using q1) q2 q3 (by simp), ?_⟩
      intro source rest p g ts' hh hl
      obtain ⟨hF, hts⟩ := inline_read loopI_entries (by simp) ho hh hl
      exact ⟨object_same_inline hin hmul hF, hts⟩

/-! ## Sequences -/

/-- What is written for a sequence, and how it is read. -/
theorem sequence_again (hi : Blanks ind) {cs : List Green} (hg : Fine (.node .SEQUENCE cs))
    (h : ∀ c ∈ entriesOf cs, ∀ f, ∃ u, Writes ind f (formatItem ind c f) u ∧ ItemR ind (hasToken .NEWLINE cs) c u)
    (h1 : (entriesOf cs).length = 1 → ∀ c ∈ entriesOf cs, ∀ f, ∃ u, Writes ind f (formatItem ind c f) u ∧ ItemR ind false c u)
    (f : Fmt) :
    ∃ u, Writes ind f (formatNode ind (.node .SEQUENCE cs) f) u ∧ AtomReads u .closed (Same ind (.node .SEQUENCE cs)) := by
  have hel := sequence_inner hg.ok
  have hin : ∀ g ∈ cs, InnerSeq g := fun g hg => (hel g hg).imp_left seqElem_elem
  have w0 := write_writes (ind := ind) f (s := ['(']) (by simp) (by simp)
  suffices hs : ∃ t, Writes ind (f.write ind ['(']) (formatNode ind (.node .SEQUENCE cs) f) (t ++ [')']) ∧
      ∀ source rest p g ts', Here source (t ++ ')' :: rest) p →
        ItemLoop source (toksAt (t ++ ')' :: rest) p) g ts' →
        Same ind (.node .SEQUENCE cs) (.node .SEQUENCE (.token .L_PAREN ['('] :: g ++ [.token .R_PAREN [')']])) ∧
          ts' = toksAt (')' :: rest) (p + utf8Len t) by
    obtain ⟨t, w, hr⟩ := hs
    refine ⟨['('] ++ (t ++ [')']), w0.trans w, ?_⟩
    intro source rest n p gs st hf hh hp herr
    obtain ⟨g, rfl, ⟨m, rfl, hq⟩, hst⟩ := atom_parens hr _ _ _ _ _ _ hf hh hp herr
    exact ⟨_, rfl, hq, hst⟩
  rw [formatNode.eq_def]
  simp only
  obtain ⟨-, -, o3, -, -⟩ := w0
  generalize f.write ind ['('] = f1 at *
  split
  · rename_i he
    simp only [Bool.and_eq_true, List.isEmpty_iff, Bool.not_eq_true'] at he
    refine ⟨[], write_writes _ (by simp) (by simp), ?_⟩
    intro source rest p g ts' hh hl
    obtain ⟨rfl, rfl⟩ := itemLoop_end (r := rest) hl
    exact ⟨sequence_same_empty hin he.1 he.2, rfl⟩
  · rename_i hne
    have hne : ((entriesOf cs).isEmpty && !hasComments cs) = false := by simpa using hne
    split
    · rename_i hst
      have hone : ∃ e, entriesOf cs = [e] := by
        have := hst
        unfold seqSingleTag at this
        simp only [Bool.and_eq_true] at this
        have := this.2
        split at this
        · exact ⟨_, ‹_›⟩
        · cases this
      obtain ⟨e, he⟩ := hone
      rw [formatFirstItem_eq cs f1 e he]
      obtain ⟨u, w, hu⟩ := h1 (by rw [he]; rfl) e (by rw [he]; simp) f1
      obtain ⟨q1, q2, q3, -, -⟩ := w
      rw [o3] at q1
      refine ⟨u, close_inline o3 (by simpa using q1) q2 q3 (by simp), ?_⟩
      intro source rest p g ts' hh hl
      obtain ⟨hF, hts⟩ := inline_read loopI_items (by simp) (.one hu) hh hl
      rw [← he] at hF
      exact ⟨sequence_same_tag hin hne hst hF, hts⟩
    · rename_i hst
      have hst : seqSingleTag cs = false := by simpa using hst
      split
      · rename_i hmul
        rw [formatSeqBlock_items _ _ _ _ hin]
        have hls : items true 0 cs ≠ [] := by
          apply lines_nonempty
          obtain ⟨i1, i2, i3⟩ := innerSeq_items (rst := true) (n := 0) hin
          rw [← i1, ← i2, ← i3]
          exact hne
        have nodoc : ∀ t, .token .DOC_COMMENT t ∉ cs := by
          intro t ht
          rcases hel _ ht with h | ⟨t, h | h⟩
          · simp [SeqElem] at h
          · cases h
          · cases h
        have hok : ∀ x ∈ items true 0 cs, LineOk ind false (ItemR ind (hasToken .NEWLINE cs))
            (fun c => formatItem ind c) x.2 := by
          intro x hx
          rcases items_mem hx with ⟨t, h1, h2⟩ | ⟨t, h1, h2⟩ | ⟨k, c, h1, h2⟩
          · rw [h1]; exact line_comment (hg.ok.kids _ h2).leaf
          · exact absurd h2 (nodoc t)
          · rw [h1]
            obtain rfl := innerSeq_entry hin _ h2 _ _ rfl
            exact h c (mem_entriesOf h2)
        have hdoc : DocOk false (items true 0 cs) := by
          apply docOk_noDoc
          intro x hx t ht
          rcases items_mem hx with ⟨t', h1, h2⟩ | ⟨t', h1, h2⟩ | ⟨k, c, h1, h2⟩
          · rw [h1] at ht; cases ht
          · exact nodoc _ h2
          · rw [h1] at ht; cases ht
        obtain ⟨s, w, hp⟩ := block_writes (fin := ')') (by simp) o3 hls hok rfl
        refine ⟨_, w, ?_⟩
        intro source rest p g ts' hh hl
        obtain ⟨⟨m', rfl, hF⟩, hts⟩ := block_read hi (loop_items _) hp hdoc (.inr ⟨rest, rfl⟩)
          (fun p g ts' h => itemLoop_end h) hh hl
        exact ⟨sequence_same_block hin hne hst hmul rfl hF, hts⟩
      · rename_i hmul
        have hmul : seqIsMultiline cs = false := by simpa using hmul
        have key : hasComments cs = false ∧ (entriesOf cs).isEmpty = false ∧
            ((entriesOf cs).length = 1 ∨ hasToken .NEWLINE cs = false) := by
          cases hc : seqCollapse cs with
          | true =>
            unfold seqCollapse at hc
            simp only [Bool.and_eq_true, Bool.not_eq_true'] at hc
            refine ⟨hc.1, ?_⟩
            have := hc.2
            split at this
            · rename_i e he
              rw [he]
              exact ⟨rfl, .inl rfl⟩
            · cases this
          | false =>
            rw [seqIsMultiline, hc, hst] at hmul
            simp only [Bool.not_false, Bool.true_and, Bool.or_eq_false_iff, seqMultiline] at hmul
            exact ⟨hmul.1.2, hmul.2, .inr hmul.1.1.1.1⟩
        obtain ⟨hc, hemp, hor⟩ := key
        have h' : ∀ c ∈ entriesOf cs, ∀ f, ∃ u, Writes ind f (formatItem ind c f) u ∧ ItemR ind false c u := by
          rcases hor with hlen | hnl
          · exact h1 hlen
          · rwa [hnl] at h
        rw [formatSeqInline_eq, inlineLoop_run]
        obtain ⟨s, w, ho⟩ := runInline_printed (act := fun c => formatItem ind c) (sep := [' ']) (by simp) (by simp)
          (entriesOf cs) f1 (by intro h; rw [h] at hemp; simp at hemp) h' o3
        obtain ⟨q1, q2, q3, -, -⟩ := w
        rw [o3] at q1
        refine ⟨s, close_inline o3 (by simpa using q1) q2 q3 (by simp), ?_⟩
        intro source rest p g ts' hh hl
        obtain ⟨hF, hts⟩ := inline_read loopI_items (by simp) ho hh hl
        exact ⟨sequence_same_inline hin hemp hc hst hmul hF, hts⟩

end Styx.Cst
