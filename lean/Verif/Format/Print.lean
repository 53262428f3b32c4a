import Verif.Format.PrintLemmas

/-! # The formatter writes the texts of the values: induction over values -/

namespace Styx

open Styx.Spec

/-! ## Steps of the writer -/

/-- No object on the stack still has to be turned multi-line. -/
def NoPending (st : List Ctx) : Prop := ∀ c ∈ st, c.pending = false

/-- `w'` is `w` with more text and another stack. -/
structure Wrote (w w' : Writer) (s : List Char) (st : List Ctx) : Prop where
  out : w'.out = w.out ++ s
  stack : w'.stack = st
  options : w'.options = w.options
  panicked : w'.panicked = w.panicked

theorem Wrote.trans {w w' w'' : Writer} {s s' : List Char} {st st' : List Ctx} (h : Wrote w w' s st)
    (h' : Wrote w' w'' s' st') : Wrote w w'' (s ++ s') st' :=
  ⟨by rw [h'.out, h.out, List.append_assoc], h'.stack, h'.options.trans h.options, h'.panicked.trans h.panicked⟩

theorem newlineIndent_eq (w : Writer) :
    w.newlineIndent = w.emit ('\n' :: indentText w.options w.indentDepth) := by
  simp [Writer.newlineIndent, Writer.writeIndent, Writer.emit, Writer.indentDepth]

theorem newlineIndent_wrote (w : Writer) :
    Wrote w w.newlineIndent ('\n' :: indentText w.options w.indentDepth) w.stack := by
  rw [newlineIndent_eq]; exact ⟨rfl, rfl, rfl, rfl⟩

theorem emit_wrote (w : Writer) (s : List Char) : Wrote w (w.emit s) s w.stack := ⟨rfl, rfl, rfl, rfl⟩

theorem indentText_blanks {o : FormatOptions} (h : ∀ c ∈ o.indent, Blank c) (n : Nat) :
    Blanks (indentText o n) := by
  intro c hc
  simp only [indentText, List.mem_flatten, List.mem_replicate] at hc
  obtain ⟨l, ⟨-, rfl⟩, hc⟩ := hc
  exact h c hc

theorem gap_of_blanks {b : Bool} {g : List Char} (h : Blanks g) : Gap b g := by
  induction g with
  | nil => exact .nil
  | cons c g ih => exact .blank (h c (by simp)) (ih fun x hx => h x (by simp [hx]))

theorem gap_newline {b : Bool} {g : List Char} (h : Blanks g) : Gap b ('\n' :: g) :=
  .newline (n := ['\n']) (.inl rfl) (gap_of_blanks h)

theorem noPending_markSeq {st : List Ctx} (h : NoPending st) : NoPending (markSeq st) := by
  unfold markSeq
  split
  · intro c hc
    rcases List.mem_cons.1 hc with rfl | hc
    · rfl
    · exact h c (by simp [hc])
  · exact h

theorem beforeValue_struct {w : Writer} {f r m i : Bool} {c : List Nat} {op : Option Nat} {st : List Ctx}
    (h : w.stack = .struct f r m i c op :: st) : w.beforeValue = { w with skip := false } := by
  unfold Writer.beforeValue
  split
  · simp [h, markSeq]
  · rename_i hs
    simp only [Bool.not_eq_true] at hs
    rw [h]
    simp only [h, markSeq]
    cases w; simp_all

theorem beforeValue_stack (w : Writer) : w.beforeValue.stack = markSeq w.stack := by
  unfold Writer.beforeValue
  split
  · rfl
  · split
    · split
      · rfl
      · rw [newlineIndent_eq]; rfl
    · rfl

theorem beforeValue_options (w : Writer) : w.beforeValue.options = w.options := by
  unfold Writer.beforeValue
  split
  · rfl
  · split
    · split
      · rfl
      · rw [newlineIndent_eq]; rfl
    · rfl

theorem beforeValue_panicked (w : Writer) : w.beforeValue.panicked = w.panicked := by
  unfold Writer.beforeValue
  split
  · rfl
  · split
    · split
      · rfl
      · rw [newlineIndent_eq]; rfl
    · rfl

theorem beforeValue_skip (w : Writer) : w.beforeValue.skip = false := by
  unfold Writer.beforeValue
  split
  · rfl
  · rename_i hs
    simp only [Bool.not_eq_true] at hs
    split
    · split
      · exact hs
      · rw [newlineIndent_eq]; exact hs
    · exact hs

/-- Before an item of a sequence: a space unless it is the first. -/
theorem beforeValue_seq {w : Writer} {first : Bool} {st : List Ctx} (h : w.stack = .seq first true :: st) :
    w.beforeValue.out = w.out ++ (if w.skip = false ∧ first = false then [' '] else []) := by
  unfold Writer.beforeValue
  split
  · rename_i hs; simp [hs]
  · rename_i hs
    simp only [Bool.not_eq_true] at hs
    rw [h]
    cases first
    · simp [Writer.emit, hs]
    · simp

/-! ## Doc comments -/

/-- The lines of a doc comment after the first line break. -/
def docTail (nl : List Char) : List (List Char) → List Char
  | [] => []
  | [l] => '/' :: '/' :: '/' :: ' ' :: l
  | l :: ls => '/' :: '/' :: '/' :: ' ' :: l ++ nl ++ docTail nl ls

theorem docLines_wrote (w : Writer) (ls : List (List Char)) (hne : ls ≠ []) (need : Bool) :
    Wrote w (w.docLines need ls)
      ((if need then '\n' :: indentText w.options w.indentDepth else []) ++
        docTail ('\n' :: indentText w.options w.indentDepth) ls) w.stack := by
  induction ls generalizing w need with
  | nil => exact absurd rfl hne
  | cons l ls ih =>
    rw [Writer.docLines]
    have h1 : Wrote w (if need = true then w.newlineIndent else w)
        (if need then '\n' :: indentText w.options w.indentDepth else []) w.stack := by
      cases need
      · exact ⟨by simp, rfl, rfl, rfl⟩
      · exact newlineIndent_wrote w
    have h2 := h1.trans (emit_wrote (if need = true then w.newlineIndent else w) ('/' :: '/' :: '/' :: ' ' :: l))
    cases ls with
    | nil =>
      rw [Writer.docLines, docTail, ← h1.stack]
      exact h2
    | cons l' ls =>
      have h3 := ih ((if need = true then w.newlineIndent else w).emit ('/' :: '/' :: '/' :: ' ' :: l)) (by simp) true
      have e1 : ((if need = true then w.newlineIndent else w).emit ('/' :: '/' :: '/' :: ' ' :: l)).options
          = w.options := h2.options
      have e2 : ((if need = true then w.newlineIndent else w).emit ('/' :: '/' :: '/' :: ' ' :: l)).stack
          = w.stack := h2.stack.trans h1.stack
      have e3 : ((if need = true then w.newlineIndent else w).emit ('/' :: '/' :: '/' :: ' ' :: l)).indentDepth
          = w.indentDepth := by simp only [Writer.indentDepth, e2]
      have h4 := h2.trans h3
      rw [e1, e3, e2] at h4
      rw [docTail]
      · simpa using h4
      · simp

theorem docTail_lines {nl g : List Char} (hnl : nl = '\n' :: g) (hg : Blanks g) {ls : List (List Char)}
    (hne : ls ≠ []) (h : ∀ l ∈ ls, ∀ c ∈ l, c ≠ '\n' ∧ c ≠ '\r') : DocLines ls (docTail nl ls ++ nl) := by
  subst hnl
  induction ls with
  | nil => exact absurd rfl hne
  | cons l ls ih =>
    cases ls with
    | nil =>
      have := DocLines.cons (l := l) (n := ['\n']) (.inl rfl) (h l (by simp)) (.inl rfl) (gap_of_blanks hg) .nil
      simpa [docTail] using this
    | cons l' ls =>
      have := DocLines.cons (l := l) (n := ['\n']) (.inl rfl) (h l (by simp)) (.inl rfl) (gap_of_blanks hg)
        (ih (by simp) fun l hl => h l (by simp [hl]))
      rw [docTail]
      · simpa using this
      · simp

theorem collectFixes_id (d : Nat) (st : List Ctx) (h : NoPending st) : collectFixes d st = ([], st) := by
  induction st generalizing d with
  | nil => rfl
  | cons c st ih =>
    have ih' := fun d => ih d fun x hx => h x (by simp [hx])
    have hc := h c (by simp)
    match c, hc with
    | .seq f i, _ => simp [collectFixes, ih']
    | .struct f r m i cs none, _ => simp [collectFixes, ih']
    | .struct f r m i cs (some p), hc =>
      rw [collectFixes]
      split
      · simp [ih']
      · rename_i hr
        simp only [ih']
        split
        · rename_i hi
          simp only [Bool.and_eq_true, Bool.not_eq_true'] at hi
          simp [Ctx.pending, hi, hr] at hc
        · rfl

theorem clearPending_id {c : Ctx} (h : c.pending = false) : c.clearPending = c := by
  cases c with
  | seq => rfl
  | struct => simp [Ctx.clearPending, h]

theorem propagate_id (w : Writer) (h : NoPending w.stack) : w.propagate = w := by
  have h1 : w.stack.reverse.filter Ctx.pending = [] := by
    rw [List.filter_eq_nil_iff]
    intro c hc
    simp [h c (List.mem_reverse.1 hc)]
  have h2 : w.stack.reverse.map Ctx.clearPending = w.stack.reverse := by
    rw [List.map_congr_left (g := id), List.map_id]
    intro c hc
    exact clearPending_id (h c (List.mem_reverse.1 hc))
  unfold Writer.propagate
  rw [h1, h2, collectFixes_id _ _ (fun c hc => h c (List.mem_reverse.1 hc))]
  simp

/-- The depth of the entries of an object. -/
theorem docKeyRaw_wrote {w : Writer} {first root force i : Bool} {op : Option Nat} {st : List Ctx}
    (hs : w.stack = .struct first root force i [] op :: st) (hp : NoPending st) (doc key : List Char)
    (hne : textLines doc ≠ []) :
    let st' := Ctx.struct false root true i [] op :: st
    let nl := '\n' :: indentText w.options (st'.countP Ctx.indents)
    Wrote w (w.docKeyRaw doc key)
      ((if first = false ∧ root = true then ['\n'] else []) ++ (if first = false ∨ root = false then nl else []) ++
        docTail nl (textLines doc) ++ (if first = true ∧ root = true then ['\n'] else nl) ++ (key ++ [' '])) st' := by
  intro st' nl
  unfold Writer.docKeyRaw
  rw [hs]
  simp only [markDoc]
  have hfix : ({ w with stack := st' } : Writer).fixCommas = { w with stack := st' } := by
    simp [Writer.fixCommas, st']
  have hnp : NoPending st' := by
    intro c hc
    rcases List.mem_cons.1 hc with rfl | hc
    · cases root <;> rfl
    · exact hp c hc
  rw [hfix, propagate_id _ hnp]
  have h0 : Wrote w ({ w with stack := st' } : Writer) [] st' := ⟨by simp, rfl, rfl, rfl⟩
  generalize hw0 : ({ w with stack := st' } : Writer) = w0 at *
  have h1 : Wrote w0 (if (!first && root) = true then w0.emit ['\n'] else w0)
      (if first = false ∧ root = true then ['\n'] else []) st' := by
    cases first <;> cases root <;> exact ⟨by simp [Writer.emit], h0.stack, rfl, rfl⟩
  generalize (if (!first && root) = true then w0.emit ['\n'] else w0) = w1 at *
  have h2 := docLines_wrote w1 (textLines doc) hne (!first || !root)
  have hd1 : w1.indentDepth = st'.countP Ctx.indents := by rw [Writer.indentDepth, h1.stack]
  rw [hd1, h1.options, h0.options, h1.stack] at h2
  generalize w1.docLines (!first || !root) (textLines doc) = w2 at *
  have h3 : Wrote w2 (if (first && root) = true then w2.emit ['\n'] else w2.newlineIndent)
      (if first = true ∧ root = true then ['\n'] else nl) st' := by
    have hn := newlineIndent_wrote w2
    have hd2 : w2.indentDepth = st'.countP Ctx.indents := by rw [Writer.indentDepth, h2.stack]
    rw [hd2, h2.options, h1.options, h0.options, h2.stack] at hn
    cases first <;> cases root
    · exact hn
    · exact hn
    · exact hn
    · exact ⟨rfl, h2.stack, rfl, rfl⟩
  generalize (if (first && root) = true then w2.emit ['\n'] else w2.newlineIndent) = w3 at *
  have h4 := emit_wrote w3 (key ++ [' '])
  rw [h3.stack] at h4
  have := (((h0.trans h1).trans h2).trans h3).trans h4
  have e : (if (!first || !root) = true then '\n' :: indentText w.options (List.countP Ctx.indents st') else []) =
      (if first = false ∨ root = false then nl else []) := by
    cases first <;> cases root <;> simp [nl]
  rw [e] at this
  simpa using this

/-! ## Values -/

theorem shouldInline_force {w : Writer} {first i : Bool} {c : List Nat} {op : Option Nat} {st : List Ctx}
    (hs : w.stack = .struct first false true i c op :: st) :
    w.shouldInline = decide (w.options.forceStyle = .inline) := by
  unfold Writer.shouldInline
  rw [hs]
  cases w.options.forceStyle <;> simp

theorem atLineEnd_newline (r : List Char) : AtLineEnd ('\n' :: r) := .inr (.inl ⟨r, rfl⟩)

/-- A field of a nested object without doc comment. -/
theorem fieldKeyRaw_wrote {w : Writer} {first force : Bool} {commas : List Nat} {op : Option Nat}
    {st : List Ctx} (ho : ∀ c ∈ w.options.indent, Blank c)
    (hs : w.stack = .struct first false force true commas op :: st) (key : List Char) :
    ∃ g commas', Wrote w (w.fieldKeyRaw key).2 (g ++ (key ++ [' '])) (.struct false false force true commas' op :: st) ∧
      Gap true g ∧ (w.options.forceStyle ≠ .inline → force = true ∨ first = true → commas' = commas) ∧
      (first = false → ∃ c r, g = c :: r ∧ (c = ',' ∨ c = '\n') ∧
        (force = true → w.options.forceStyle ≠ .inline → c = '\n')) := by
  unfold Writer.fieldKeyRaw
  rw [hs]
  dsimp only
  have hinl : ((true && !force) || w.shouldInline) = true ∨
      (((true && !force) || w.shouldInline) = false ∧ force = true ∧ w.options.forceStyle ≠ .inline) := by
    cases force
    · simp
    · rw [shouldInline_force hs]
      by_cases h : w.options.forceStyle = .inline <;> simp [h]
  have hc' : ((true && !force) || w.shouldInline) = true → force = true → w.options.forceStyle = .inline := by
    intro h1 h2
    subst h2
    rw [shouldInline_force hs] at h1
    simpa using h1
  have hnl : Wrote w w.newlineIndent ('\n' :: indentText w.options w.indentDepth) w.stack := newlineIndent_wrote w
  have hb := indentText_blanks ho w.indentDepth
  generalize ((true && !force) || w.shouldInline) = inl at *
  generalize indentText w.options w.indentDepth = ind at *
  cases first
  · rcases hinl with rfl | ⟨rfl, hf, hst⟩
    · refine ⟨[',', ' '], commas ++ [utf8Len w.out], ⟨by simp [Writer.emit], by simp [Writer.emit], rfl, rfl⟩,
        .comma rfl (.blank (.inl rfl) .nil), ?_, fun _ => ⟨_, _, rfl, .inl rfl, ?_⟩⟩
      · rintro h1 (h2 | h2)
        · exact absurd (hc' rfl h2) h1
        · cases h2
      · intro h2 h1
        exact absurd (hc' rfl h2) h1
    · refine ⟨'\n' :: ind, commas, ⟨?_, ?_, ?_, ?_⟩, gap_newline hb, fun _ _ => rfl,
        fun _ => ⟨_, _, rfl, .inr rfl, fun _ _ => rfl⟩⟩
      · simp [Writer.emit, hnl.stack, hs, hnl.out]
      · simp [Writer.emit, hnl.stack, hs]
      · simp [Writer.emit, hnl.stack, hs, hnl.options]
      · simp [Writer.emit, hnl.stack, hs, hnl.panicked]
  · rcases hinl with rfl | ⟨rfl, hf, hst⟩
    · refine ⟨[], commas, ⟨?_, ?_, ?_, ?_⟩, .nil, fun _ _ => rfl, by simp⟩ <;> simp [Writer.emit, hs]
    · refine ⟨'\n' :: ind, commas, ⟨?_, ?_, ?_, ?_⟩, gap_newline hb, fun _ _ => rfl, by simp⟩
      · simp [Writer.emit, hnl.stack, hs, hnl.out]
      · simp [Writer.emit, hnl.stack, hs]
      · simp [Writer.emit, hnl.stack, hs, hnl.options]
      · simp [Writer.emit, hnl.stack, hs, hnl.panicked]

/-- What formatting a value does. -/
def ValueWritten (line : Bool) (w w' : Writer) (v : Value) : Prop :=
  ∃ s e v', w'.out = w.beforeValue.out ++ s ∧ w'.stack = markSeq w.stack ∧ w'.options = w.options ∧
    w'.panicked = w.panicked ∧ ValueText v' e s ∧ forget v' = forget v ∧
    (w'.skip = true → e = .closed ∨ v.payload = none) ∧ (e = .closed ∨ e = .word ∨ (e = .line ∧ line = true))

/-- What formatting items and closing the sequence does. -/
def ItemsWritten (first : Bool) (w w' : Writer) (vs : List Value) (st : List Ctx) : Prop :=
  ∃ t vs', Wrote w w' t st ∧ ItemsText vs' t ∧ forgetAll vs' = forgetAll vs ∧
    (first = false → w.skip = false ∨ vs = [] → ∃ c r, t = c :: r ∧ (c = ' ' ∨ c = ')'))

/-- What formatting entries and closing the object does. -/
def EntriesWritten (first force : Bool) (w w' : Writer) (es : List Entry) (st : List Ctx) : Prop :=
  ∃ t es', Wrote w w' t st ∧ EntriesText es' t ∧ forgetEntries es' = forgetEntries es ∧
    (es'.map fun e => keyId (entryKey e)) = es.map (fun e => keyId (entryKey e)) ∧
    (first = false → ∃ c r, t = c :: r ∧ (c = ',' ∨ c = '\n' ∨ c = '}') ∧
      (force = true → w.options.forceStyle ≠ .inline → c = '\n'))

/-- Writing the key of an entry, with its doc comment. -/
def Writer.writeKey (w : Writer) (doc : Option (List Char)) (k : List Char) : Writer :=
  match doc with
  | some d => w.docKeyRaw d k
  | none => (w.fieldKeyRaw k).2

theorem formatEntries_cons {w : Writer} {key v : Value} {doc : Option (List Char)} {es : List Entry}
    {k : List Char} (h : formatKey key = some k) :
    w.formatEntries (.mk key v doc :: es) = ((w.writeKey doc k).formatValue v).formatEntries es := by
  rw [Writer.formatEntries, h]
  cases doc <;> rfl

theorem objectMultiline_false {es : List Entry} (h : objectMultiline es = false) :
    es.length ≤ 2 ∧ ∀ e ∈ es, e.val.nested = false := by
  simp only [objectMultiline, Bool.or_eq_false_iff, decide_eq_false_iff_not, Nat.not_lt] at h
  refine ⟨h.1, ?_⟩
  intro e he
  have := List.any_eq_false.1 h.2 e he
  simpa using this

mutual

theorem formatValue_written {o : FormatOptions} (ho : ∀ c ∈ o.indent, Blank c) (line : Bool) :
    ∀ (v : Value) (w : Writer), w.options = o → Printable o line v → (v.nested = true → NoPending w.stack) →
      (v.tag = none → v.payload = none → ∀ f i st, w.stack ≠ .seq f i :: st) →
      ValueWritten line w (w.formatValue v) v
  | .mk none none sp, w, hw, hp, hn, hu => by
    have hu' := hu rfl rfl
    have h1 : markSeq w.stack = w.stack := by
      unfold markSeq
      split
      · rename_i h; exact absurd h (hu' _ _ _)
      · rfl
    have h2 : w.beforeValue.out = w.out := by
      unfold Writer.beforeValue
      split
      · rfl
      · split
        · rename_i h; exact absurd h (hu' _ _ _)
        · rfl
    refine ⟨['@'], .word, .mk none none none, ?_, ?_, ?_, ?_, .unit, rfl, fun _ => .inr rfl, .inr (.inl rfl)⟩
    · rw [h2]; simp [Writer.formatValue, Writer.emit]
    · rw [h1]; simp [Writer.formatValue, Writer.emit]
    · simp [Writer.formatValue, Writer.emit]
    · simp [Writer.formatValue, Writer.emit]
  | .mk (some t) none sp, w, hw, hp, hn, hu => by
    refine ⟨'@' :: t.name, .word, .mk (some ⟨t.name, none⟩) none none, ?_, ?_, ?_, ?_, .tag hp, rfl,
      fun _ => .inr rfl, .inr (.inl rfl)⟩
    · simp [Writer.formatValue, Writer.writeTag, Writer.emit]
    · simp [Writer.formatValue, Writer.writeTag, Writer.emit, beforeValue_stack]
    · simp [Writer.formatValue, Writer.writeTag, Writer.emit, beforeValue_options]
    · simp [Writer.formatValue, Writer.writeTag, Writer.emit, beforeValue_panicked]
  | .mk none (some (.scalar s k sp)) sp', w, hw, hp, hn, hu => by
    have hop := beforeValue_options w
    obtain ⟨k', e, h1, h2⟩ := scalarText_ok (o := o) (line := line) hp w.beforeValue.forceQuote
    refine ⟨scalarText o w.beforeValue.forceQuote s, e, scalarValue s k', ?_, ?_, ?_, ?_, .scalar h1, rfl, ?_, h2⟩
    · simp [Writer.formatValue, Writer.writeString, Writer.writeScalarString, Writer.emit, hop, hw]
    · simp [Writer.formatValue, Writer.writeString, Writer.writeScalarString, Writer.emit, beforeValue_stack]
    · simp [Writer.formatValue, Writer.writeString, Writer.writeScalarString, Writer.emit, hop]
    · simp [Writer.formatValue, Writer.writeString, Writer.writeScalarString, Writer.emit, beforeValue_panicked]
    · intro h
      simp [Writer.formatValue, Writer.writeString, Writer.writeScalarString, Writer.emit, beforeValue_skip] at h
  | .mk (some t) (some (.scalar s k sp)) sp', w, hw, hp, hn, hu => hp.elim
  | .mk none (some (.sequence items sp)) sp', w, hw, hp, hn, hu => by
    have hpend := noPending_markSeq (hn rfl)
    obtain ⟨t, vs', h1, h2, h3, -⟩ := formatItems_written ho items w.beginSeq true (markSeq w.stack)
      (by simp [Writer.beginSeq, Writer.emit, beforeValue_stack])
      (by simp [Writer.beginSeq, Writer.emit, beforeValue_options, hw]) hpend hp.2
    refine ⟨'(' :: t, .closed, .mk none (some (.sequence vs' none)) none, ?_, ?_, ?_, ?_, .sequence h2, ?_,
      fun _ => .inl rfl, .inl rfl⟩
    · simpa [Writer.formatValue, Writer.beginSeq, Writer.emit] using h1.out
    · simpa [Writer.formatValue, Writer.beginSeq, Writer.emit] using h1.stack
    · simpa [Writer.formatValue, Writer.beginSeq, Writer.emit, beforeValue_options] using h1.options
    · simpa [Writer.formatValue, Writer.beginSeq, Writer.emit, beforeValue_panicked] using h1.panicked
    · simp [forget, h3]
  | .mk (some tg) (some (.sequence items sp)) sp', w, hw, hp, hn, hu => by
    have hpend := noPending_markSeq (hn rfl)
    obtain ⟨t, vs', h1, h2, h3, -⟩ := formatItems_written ho items (w.writeTag tg.name).beginSeqAfterTag true
      (markSeq w.stack)
      (by simp [Writer.beginSeqAfterTag, Writer.writeTag, Writer.emit, beforeValue_stack])
      (by simp [Writer.beginSeqAfterTag, Writer.writeTag, Writer.emit, beforeValue_options, hw]) hpend hp.2
    refine ⟨'@' :: tg.name ++ '(' :: t, .closed, .mk (some ⟨tg.name, none⟩) (some (.sequence vs' none)) none,
      ?_, ?_, ?_, ?_, .tagged (hp.1 tg rfl) (.sequence h2) ⟨'(', t, rfl, .inl rfl⟩, ?_, fun _ => .inl rfl, .inl rfl⟩
    · simpa [Writer.formatValue, Writer.beginSeqAfterTag, Writer.writeTag, Writer.emit] using h1.out
    · simpa [Writer.formatValue, Writer.beginSeqAfterTag, Writer.writeTag, Writer.emit] using h1.stack
    · simpa [Writer.formatValue, Writer.beginSeqAfterTag, Writer.writeTag, Writer.emit, beforeValue_options]
        using h1.options
    · simpa [Writer.formatValue, Writer.beginSeqAfterTag, Writer.writeTag, Writer.emit, beforeValue_panicked]
        using h1.panicked
    · simp [forget, h3]
  | .mk none (some (.object es sp)) sp', w, hw, hp, hn, hu => by
    have hpend := noPending_markSeq (hn rfl)
    have hlen := objectMultiline_false (es := es)
    obtain ⟨t, es', h1, h2, h3, h4, -⟩ := formatEntries_written ho (objectMultiline es && o.forceStyle != .inline) es
      (w.beginStruct false (objectMultiline es)) true (objectMultiline es) []
      (some (utf8Len (w.beforeValue.emit ['{']).out)) (markSeq w.stack)
      (by simp [Writer.beginStruct, Writer.emit, beforeValue_stack])
      (by simp [Writer.beginStruct, Writer.emit, beforeValue_options, hw]) hpend (fun h => (hlen h).2)
      (fun _ _ => rfl) (fun h => by simpa using (hlen h).1) (by simp) hp.2.2
    refine ⟨'{' :: t, .closed, .mk none (some (.object es' none)) none, ?_, ?_, ?_, ?_,
      .object h2 (by rw [DistinctKeys, h4]; exact hp.2.1), ?_, fun _ => .inl rfl, .inl rfl⟩
    · simpa [Writer.formatValue, Writer.beginStruct, Writer.emit] using h1.out
    · simpa [Writer.formatValue, Writer.beginStruct, Writer.emit] using h1.stack
    · simpa [Writer.formatValue, Writer.beginStruct, Writer.emit, beforeValue_options] using h1.options
    · simpa [Writer.formatValue, Writer.beginStruct, Writer.emit, beforeValue_panicked] using h1.panicked
    · simp [forget, h3]
  | .mk (some tg) (some (.object es sp)) sp', w, hw, hp, hn, hu => by
    have hpend := noPending_markSeq (hn rfl)
    have hlen := objectMultiline_false (es := es)
    obtain ⟨t, es', h1, h2, h3, h4, -⟩ := formatEntries_written ho (objectMultiline es && o.forceStyle != .inline) es
      ((w.writeTag tg.name).beginStructAfterTag (objectMultiline es)) true (objectMultiline es) []
      (some (utf8Len ((w.writeTag tg.name).emit ['{']).out)) (markSeq w.stack)
      (by simp [Writer.beginStructAfterTag, Writer.writeTag, Writer.emit, beforeValue_stack])
      (by simp [Writer.beginStructAfterTag, Writer.writeTag, Writer.emit, beforeValue_options, hw]) hpend
      (fun h => (hlen h).2)
      (fun _ _ => rfl) (fun h => by simpa using (hlen h).1) (by simp) hp.2.2
    refine ⟨'@' :: tg.name ++ '{' :: t, .closed, .mk (some ⟨tg.name, none⟩) (some (.object es' none)) none,
      ?_, ?_, ?_, ?_, .tagged (hp.1 tg rfl) (.object h2 (by rw [DistinctKeys, h4]; exact hp.2.1))
        ⟨'{', t, rfl, .inr (.inl rfl)⟩, ?_, fun _ => .inl rfl, .inl rfl⟩
    · simpa [Writer.formatValue, Writer.beginStructAfterTag, Writer.writeTag, Writer.emit] using h1.out
    · simpa [Writer.formatValue, Writer.beginStructAfterTag, Writer.writeTag, Writer.emit] using h1.stack
    · simpa [Writer.formatValue, Writer.beginStructAfterTag, Writer.writeTag, Writer.emit, beforeValue_options]
        using h1.options
    · simpa [Writer.formatValue, Writer.beginStructAfterTag, Writer.writeTag, Writer.emit, beforeValue_panicked]
        using h1.panicked
    · simp [forget, h3]

theorem formatItems_written {o : FormatOptions} (ho : ∀ c ∈ o.indent, Blank c) :
    ∀ (vs : List Value) (w : Writer) (first : Bool) (st : List Ctx), w.stack = .seq first true :: st →
      w.options = o → NoPending st → PrintableItems o vs →
      ItemsWritten first w (w.formatItems vs).endSeq.2 vs st
  | [], w, first, st, hs, hw, hp, hi => by
    refine ⟨[')'], [], ⟨?_, ?_, ?_, ?_⟩, .nil (g := []) .nil, rfl, fun _ _ => ⟨')', [], rfl, .inr rfl⟩⟩ <;>
      simp [Writer.formatItems, Writer.endSeq, hs, Writer.emit]
  | v :: vs, w, first, st, hs, hw, hp, hi => by
    rw [PrintableItems] at hi
    obtain ⟨hv, hu, hlast, hi⟩ := hi
    have hpw : NoPending w.stack := by
      rw [hs]
      intro c hc
      rcases List.mem_cons.1 hc with rfl | hc
      · rfl
      · exact hp c hc
    obtain ⟨s, e, v', h1, h2, h3, h4, h5, h6, h7, h8⟩ := formatValue_written ho false v w hw hv (fun _ => hpw)
      (fun ht hpl => absurd hpl (hu ht))
    obtain ⟨t, vs', g1, g2, g3, g4⟩ := formatItems_written ho vs (w.formatValue v) false st
      (by rw [h2, hs]; rfl) (h3.trans hw) hp hi
    rw [beforeValue_seq hs] at h1
    rw [Writer.formatItems]
    refine ⟨(if w.skip = false ∧ first = false then [' '] else []) ++ s ++ t, v' :: vs',
      ⟨?_, g1.stack, g1.options.trans h3, g1.panicked.trans h4⟩, .cons ?_ h5 g2 ?_, ?_, ?_⟩
    · rw [g1.out, h1]; simp
    · split
      · exact .blank (.inl rfl) .nil
      · exact .nil
    · rcases h8 with rfl | rfl | ⟨-, h⟩
      · trivial
      · have : (w.formatValue v).skip = false ∨ vs = [] := by
          by_cases hsk : (w.formatValue v).skip = true
          · right
            rcases h7 hsk with h | h
            · cases h
            · by_cases hvs : vs = []
              · exact hvs
              · exact absurd h (hlast hvs)
          · left; simpa using hsk
        obtain ⟨c, r, rfl, hc⟩ := g4 rfl this
        exact .inr ⟨c, r, rfl, by rcases hc with rfl | rfl <;> simp⟩
      · cases h
    · simp [forgetAll, h6, g3]
    · rintro rfl (h | h)
      · exact ⟨' ', s ++ t, by simp [h], .inl rfl⟩
      · cases h

theorem formatEntries_written {o : FormatOptions} (ho : ∀ c ∈ o.indent, Blank c) (line : Bool) :
    ∀ (es : List Entry) (w : Writer) (first force : Bool) (commas : List Nat) (op : Option Nat) (st : List Ctx),
      w.stack = .struct first false force true commas op :: st → w.options = o → NoPending st →
      (force = false → ∀ e ∈ es, e.val.nested = false) →
      (es ≠ [] → o.forceStyle ≠ .inline → commas = []) →
      (force = false → es.length ≤ if first then 2 else 1) →
      (line = true → force = true ∧ o.forceStyle ≠ .inline) →
      PrintableEntries o false line es → EntriesWritten first force w (w.formatEntries es).endStruct.2 es st
  | [], w, first, force, commas, op, st, hs, hw, hp, hnest, hcom, hlen, hline, hpr => by
    subst hw
    have hnl := newlineIndent_wrote { w with stack := st }
    have hb := indentText_blanks ho ({ w with stack := st } : Writer).indentDepth
    by_cases hc : first = false ∧ force = true
    · obtain ⟨rfl, rfl⟩ := hc
      refine ⟨'\n' :: indentText w.options ({ w with stack := st } : Writer).indentDepth ++ ['}'], [], ⟨?_, ?_, ?_, ?_⟩,
        .nil (gap_newline hb), rfl, rfl, fun _ => ⟨'\n', _, rfl, .inr (.inl rfl), fun _ _ => rfl⟩⟩
      · simp [Writer.formatEntries, Writer.endStruct, hs, Writer.emit, hnl.out]
      · simp [Writer.formatEntries, Writer.endStruct, hs, Writer.emit, hnl.stack]
      · simp [Writer.formatEntries, Writer.endStruct, hs, Writer.emit, hnl.options]
      · simp [Writer.formatEntries, Writer.endStruct, hs, Writer.emit, hnl.panicked]
    · have hc' : (!first && force) = false := by
        cases first <;> cases force <;> simp_all
      refine ⟨['}'], [], ⟨?_, ?_, ?_, ?_⟩, .nil (g := []) .nil, rfl, rfl,
        fun h => ⟨'}', [], rfl, .inr (.inr rfl), fun h' => absurd ⟨h, h'⟩ hc⟩⟩ <;>
        simp [Writer.formatEntries, Writer.endStruct, hs, Writer.emit, hc']
  | .mk k v doc :: es, w, first, force, commas, op, st, hs, hw, hp, hnest, hcom, hlen, hline, hpr => by
    rw [PrintableEntries] at hpr
    obtain ⟨hk, hv, hdoc, hes⟩ := hpr
    obtain ⟨kt, k', ke, hkf, hkt, hkforget, hkid, -, -⟩ := formatKey_ok hk
    rw [formatEntries_cons hkf]
    -- the key
    have hkey : ∃ w1, w.writeKey doc kt = w1 ∧
        ∃ g ls dt force' commas', Wrote w w1 (g ++ dt ++ kt ++ [' ']) (.struct false false force' true commas' op :: st) ∧
          Gap true g ∧ DocLines ls dt ∧ docOf ls = doc ∧ (force = true → force' = true) ∧
          (force' = false → es.length ≤ 1) ∧ (es ≠ [] → o.forceStyle ≠ .inline → commas' = []) ∧
          (first = false → ∃ c r, g ++ dt ++ kt ++ [' '] = c :: r ∧ (c = ',' ∨ c = '\n' ∨ c = '}') ∧
            (force = true → o.forceStyle ≠ .inline → c = '\n')) := by
      refine ⟨_, rfl, ?_⟩
      cases doc with
      | none =>
        obtain ⟨g, commas', h1, h2, h3, h4⟩ := fieldKeyRaw_wrote (by rw [hw]; exact ho) hs kt
        rw [hw] at h3 h4
        refine ⟨g, [], [], force, commas', by simpa [Writer.writeKey] using h1, h2, .nil, rfl, id, ?_, ?_, ?_⟩
        · intro hf
          have := hlen hf
          rw [List.length_cons] at this
          split at this <;> omega
        · intro hne hst
          have hc0 := hcom (by simp) hst
          rw [← hc0]
          apply h3 hst
          cases force with
          | true => exact .inl rfl
          | false =>
            right
            have := hlen rfl
            rw [List.length_cons] at this
            cases first
            · exfalso
              apply hne
              apply List.eq_nil_of_length_eq_zero
              simp only [Bool.false_eq_true, if_false] at this
              omega
            · rfl
        · intro hf
          obtain ⟨c, r, rfl, h5, h6⟩ := h4 hf
          exact ⟨c, r ++ (kt ++ [' ']), by simp, by rcases h5 with h5 | h5 <;> simp [h5], h6⟩
      | some d =>
        obtain ⟨hd1, hd2⟩ := hdoc d rfl
        obtain ⟨t1, t2, t3⟩ := textLines_spec hd1
        have hst := hd2 rfl
        have hc0 := hcom (by simp) hst
        subst hc0
        have h1 := docKeyRaw_wrote hs hp d kt t2
        simp only [Bool.false_eq_true, and_false, if_false, or_true, if_true, List.nil_append, hw] at h1
        have hb := indentText_blanks ho ((Ctx.struct false false true true [] op :: st).countP Ctx.indents)
        refine ⟨_, textLines d, _, true, [], ?_, gap_newline hb, docTail_lines rfl hb t2 t3, t1, fun _ => rfl, by simp,
          fun _ _ => rfl, fun _ => ⟨'\n', _, rfl, .inr (.inl rfl), fun _ _ => rfl⟩⟩
        simpa [Writer.writeKey] using h1
    obtain ⟨w1, hw1, g, ls, dt, force', commas', h1, hg, hls, hd, hff, hlen', hcom', hstart⟩ := hkey
    rw [hw1]
    -- the value
    have hforce : v.nested = true → force = true := by
      intro hv'
      cases force with
      | true => rfl
      | false =>
        have := hnest rfl (.mk k v doc) (by simp)
        simp only [Entry.val] at this
        rw [this] at hv'; cases hv'
    obtain ⟨s, e, v', v1, v2, v3, v4, v5, v6, -, v8⟩ := formatValue_written ho line v w1 (h1.options.trans hw) hv
      (by
        intro hv'
        rw [h1.stack, hff (hforce hv')]
        intro c hc
        rcases List.mem_cons.1 hc with rfl | hc
        · rfl
        · exact hp c hc)
      (by intro _ _ f i st'; rw [h1.stack]; simp)
    rw [beforeValue_struct h1.stack] at v1
    rw [h1.stack] at v2
    -- the rest
    obtain ⟨t, es', g1, g2, g3, g4, g5⟩ := formatEntries_written ho line es (w1.formatValue v) false force' commas' op st
      v2 (v3.trans (h1.options.trans hw)) hp
      (by
        intro hf e he
        apply hnest _ e (by simp [he])
        cases force
        · rfl
        · rw [hff rfl] at hf; cases hf)
      hcom' (by simpa using hlen') (fun hl => ⟨hff (hline hl).1, (hline hl).2⟩) hes
    obtain ⟨c, r, ht, hc1, hc2⟩ := g5 rfl
    rw [v3, h1.options, hw] at hc2
    refine ⟨g ++ dt ++ kt ++ [' '] ++ s ++ [] ++ t, .mk k' v' (docOf ls) :: es', ?_,
      .cons hg hls hkt (by simp [Blanks, Blank]) (by simp) v5 .none g2 ?_ ?_, ?_, ?_, ?_⟩
    · refine ⟨?_, g1.stack, ?_, ?_⟩
      · rw [g1.out, v1]; simp [h1.out]
      · rw [g1.options, v3, h1.options]
      · rw [g1.panicked, v4, h1.panicked]
    · rw [List.nil_append]
      rcases v8 with rfl | rfl | ⟨rfl, hl⟩
      · trivial
      · exact .inr ⟨c, r, ht, by rcases hc1 with rfl | rfl | rfl <;> simp⟩
      · have := hc2 (hff (hline hl).1) (hline hl).2
        subst this
        rw [ht]; exact atLineEnd_newline r
    · rw [EntryEnd, if_pos rfl]
      refine ⟨[], t, rfl, by simp [Blanks], ?_⟩
      rcases hc1 with rfl | rfl | rfl
      · exact .inr ⟨_, _, ht, .inl rfl⟩
      · left; rw [ht]; exact atLineEnd_newline r
      · exact .inr ⟨_, _, ht, .inr rfl⟩
    · simp [forgetEntries, hkforget, v6, g3, hd]
    · simpa [entryKey, hkid] using g4
    · intro hf
      obtain ⟨c, r, h, h', h''⟩ := hstart hf
      rw [hw]
      exact ⟨c, r ++ s ++ t, by rw [h]; simp, h', h''⟩

end

/-! ## Documents -/

theorem fieldKeyRaw_root {w : Writer} {first force : Bool} {commas : List Nat}
    (hs : w.stack = [.struct first true force false commas none]) (key : List Char) :
    Wrote w (w.fieldKeyRaw key).2 ((if first then [] else ['\n', '\n']) ++ (key ++ [' ']))
      [.struct false true force false commas none] := by
  have hd : ∀ w' : Writer, w'.stack = w.stack → indentText w'.options w'.indentDepth = [] := by
    intro w' h
    simp [Writer.indentDepth, h, hs, Ctx.indents, indentText]
  unfold Writer.fieldKeyRaw
  rw [hs]
  dsimp only
  generalize ((false && !force) || w.shouldInline) = inl
  cases first
  · cases inl <;>
    · simp only [newlineIndent_eq, hd (w.emit ['\n']) rfl]
      refine ⟨?_, ?_, ?_, ?_⟩ <;> simp [Writer.emit, hs]
  · cases inl <;> refine ⟨?_, ?_, ?_, ?_⟩ <;> simp [Writer.emit, hs]

/-- What formatting the entries of the root does. -/
theorem formatEntries_root {o : FormatOptions} (ho : ∀ c ∈ o.indent, Blank c) :
    ∀ (es : List Entry) (w : Writer) (first force : Bool),
      w.stack = [.struct first true force false [] none] → w.options = o →
      PrintableEntries o true true es →
      (∀ s k sp sp' v d, Entry.mk (.mk none (some (.scalar s k sp)) sp') v d ∈ es → canBeBare s = true → '.' ∉ s) →
      ∃ t es', Wrote w (w.formatEntries es).endStruct.2 t [] ∧ RootText es' t ∧
        forgetEntries (es'.map RootEntry.tree) = forgetEntries es ∧
        (es'.map (·.path)) = es.map (fun e => [keyName (entryKey e)]) ∧
        (first = false → ∃ r, t = '\n' :: r) ∧ (first = false ∨ es ≠ [] → t.getLast? = some '\n') ∧
        (first = true → es = [] → t = [])
  | [], w, first, force, hs, hw, hpr, hdot => by
    cases first
    · refine ⟨['\n'], [], ⟨?_, ?_, ?_, ?_⟩, .nil (gap_newline (by simp [Blanks])), rfl, rfl, fun _ => ⟨[], rfl⟩,
        fun _ => rfl, by simp⟩ <;> simp [Writer.formatEntries, Writer.endStruct, hs, Writer.emit]
    · refine ⟨[], [], ⟨?_, ?_, ?_, ?_⟩, .nil .nil, rfl, rfl, by simp, by simp, fun _ _ => rfl⟩ <;>
        simp [Writer.formatEntries, Writer.endStruct, hs]
  | .mk k v doc :: es, w, first, force, hs, hw, hpr, hdot => by
    rw [PrintableEntries] at hpr
    obtain ⟨hk, hv, hdoc, hes⟩ := hpr
    obtain ⟨kt, k', ke, hkf, hkt, hkforget, -, hkn, hkb⟩ := formatKey_ok hk
    have hroot : ∃ ke', RootKeyText [k'] [keyName k'] ke' kt := by
      rcases hkb with ⟨s, rfl, rfl, hb, hgt⟩ | hkb
      · have hb' := bareText_of_canBeBare hb hgt
        have hne : kt ≠ [] := by
          obtain ⟨c, r, rfl, -⟩ := hb'.2
          simp
        have hnd : '.' ∉ kt := by
          match k, hkforget with
          | .mk none (some (.scalar s k sp)) sp', h =>
            have : s = kt := by simp [forget, scalarValue] at h; exact h.symm
            subst this
            exact hdot s k sp sp' v doc (by simp) hb
          | .mk (some _) (some (.scalar s k sp)) sp', h => simp [forget, scalarValue] at h
          | .mk _ none sp', h => simp [forget, scalarValue] at h
          | .mk _ (some (.sequence ..)) sp', h => simp [forget, scalarValue] at h
          | .mk _ (some (.object ..)) sp', h => simp [forget, scalarValue] at h
        exact ⟨_, .path (segs := [kt]) (by simp) (by simpa using ⟨hne, hnd⟩) hb'⟩
      · exact ⟨_, .other hkt hkb⟩
    obtain ⟨ke', hroot⟩ := hroot
    rw [formatEntries_cons hkf]
    have hkey : ∃ w1, w.writeKey doc kt = w1 ∧
        ∃ g ls dt force', Wrote w w1 (g ++ dt ++ kt ++ [' ']) [.struct false true force' false [] none] ∧
          Gap true g ∧ DocLines ls dt ∧ docOf ls = doc ∧ (first = false → ∃ r, g = '\n' :: r) := by
      refine ⟨_, rfl, ?_⟩
      have hgap : Gap true ['\n', '\n'] := .newline (n := ['\n']) (.inl rfl) (gap_newline (by simp [Blanks]))
      cases doc with
      | none =>
        have h1 := fieldKeyRaw_root hs kt
        refine ⟨if first then [] else ['\n', '\n'], [], [], force, by simpa [Writer.writeKey] using h1, ?_, .nil, rfl, ?_⟩
        · split
          · exact .nil
          · exact hgap
        · rintro rfl; exact ⟨_, rfl⟩
      | some d =>
        obtain ⟨t1, t2, t3⟩ := textLines_spec (hdoc d rfl).1
        have h1 := docKeyRaw_wrote hs (by simp [NoPending]) d kt t2
        have hind : indentText w.options ([Ctx.struct false true true false [] none].countP Ctx.indents) = [] := by
          simp [Ctx.indents, indentText]
        simp only [hind] at h1
        refine ⟨if first then [] else ['\n', '\n'], textLines d, _, true, ?_, ?_,
          docTail_lines (nl := ['\n']) rfl (by simp [Blanks]) t2 t3, t1, ?_⟩
        · cases first <;> simpa [Writer.writeKey] using h1
        · split
          · exact .nil
          · exact hgap
        · rintro rfl; exact ⟨_, rfl⟩
    obtain ⟨w1, hw1, g, ls, dt, force', h1, hg, hls, hd, hstart⟩ := hkey
    rw [hw1]
    obtain ⟨s, e, v', v1, v2, v3, v4, v5, v6, -, v8⟩ := formatValue_written ho true v w1 (h1.options.trans hw) hv
      (by
        intro hv'
        rw [h1.stack]
        intro c hc
        simp only [List.mem_singleton] at hc
        subst hc; rfl)
      (by intro _ _ f i st'; rw [h1.stack]; simp)
    rw [beforeValue_struct h1.stack] at v1
    rw [h1.stack] at v2
    obtain ⟨t, es', g1, g2, g3, g4, g5, g6, g7⟩ := formatEntries_root ho es (w1.formatValue v) false force' v2
      (v3.trans (h1.options.trans hw)) hes (fun s k sp sp' v d h => hdot s k sp sp' v d (by simp [h]))
    obtain ⟨r, ht⟩ := g5 rfl
    refine ⟨g ++ dt ++ kt ++ [' '] ++ s ++ [] ++ t, ⟨[k'], [keyName k'], v', docOf ls⟩ :: es', ?_,
      .cons hg hls hroot (by simp [Blanks, Blank]) (by simp) v5 .none g2 ?_ ?_, ?_, ?_, ?_, ?_, by simp⟩
    · refine ⟨?_, g1.stack, ?_, ?_⟩
      · rw [g1.out, v1]; simp [h1.out]
      · rw [g1.options, v3, h1.options]
      · rw [g1.panicked, v4, h1.panicked]
    · rw [List.nil_append, ht]
      rcases v8 with rfl | rfl | ⟨rfl, -⟩
      · trivial
      · exact .inr ⟨_, _, rfl, by simp⟩
      · exact atLineEnd_newline r
    · rw [EntryEnd, if_pos rfl]
      exact ⟨[], t, rfl, by simp [Blanks], by left; rw [ht]; exact atLineEnd_newline r⟩
    · simp [forgetEntries, RootEntry.tree, nestKeys, hkforget, v6, g3, hd]
    · simp [g4, entryKey, hkn]
    · intro hf
      obtain ⟨r', rfl⟩ := hstart hf
      exact ⟨r' ++ dt ++ kt ++ [' '] ++ s ++ t, by simp⟩
    · intro _
      rw [List.getLast?_append, g6 (.inl rfl)]
      rfl

/-- Formatting a document gives a text of it. -/
theorem formatDocument_text {o : FormatOptions} {es : List Entry} (h : PrintableRoot o es) (sp sp' : Option Span) :
    ∃ t es', formatDocument o (.mk none (some (.object es sp)) sp') = some t ∧ RootText es' t ∧
      forgetEntries (es'.map RootEntry.tree) = forgetEntries es ∧
      (es'.map (·.path)) = es.map (fun e => [keyName (entryKey e)]) := by
  obtain ⟨ho, hpr, -, hdot⟩ := h
  obtain ⟨t, es', h1, h2, h3, h4, -, h5, h6⟩ := formatEntries_root ho es
    (({ options := o } : Writer).beginStruct true false) true false rfl rfl hpr hdot
  refine ⟨t, es', ?_, h2, h3, h4⟩
  unfold formatDocument Writer.formatRoot
  have hp : (({ options := o } : Writer).beginStruct true false |>.formatEntries es).endStruct.2.panicked = false :=
    h1.panicked
  have hout : (({ options := o } : Writer).beginStruct true false |>.formatEntries es).endStruct.2.out = t :=
    h1.out
  simp only [hp]
  simp only [Bool.false_eq_true, if_false, Option.some.injEq]
  unfold Writer.finishDocument
  rw [hout]
  by_cases hes : es = []
  · rw [h6 rfl hes]; simp
  · rw [if_neg (by simp [h5 (.inr hes)])]

end Styx
