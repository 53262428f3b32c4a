import Verif.FacetSer.Spec
import Verif.Format.Print

/-! # The facet serializer writes the texts of values -/

namespace Styx.FacetSer

open Styx.Spec

theorem calls_append (s : Ser) (a b : List Call) : s.calls (a ++ b) = (s.calls a).bind (Ser.calls · b) := by
  induction a generalizing s with
  | nil => rfl
  | cons c a ih =>
    rw [List.cons_append, Ser.calls, Ser.calls]
    cases s.call c with
    | none => rfl
    | some s' => exact ih s'

theorem calls_cons {s s' : Ser} {c : Call} (cs : List Call) (h : s.call c = some s') :
    s.calls (c :: cs) = s'.calls cs := by
  rw [Ser.calls, h]; rfl

theorem calls_append_of {s s' : Ser} {a : List Call} (b : List Call) (h : s.calls a = some s') :
    s.calls (a ++ b) = s'.calls b := by
  rw [calls_append, h]; rfl

theorem joinLines_eq (ls : List (List Char)) : joinLines ls = joined ls := by
  induction ls with
  | nil => rfl
  | cons l ls ih =>
    cases ls with
    | nil => rfl
    | cons l' ls => rw [joinLines, joined, ih] <;> simp

/-- The sequences on top of the stack are written on one line. -/
def InlineTop (w : Writer) : Prop := ∀ f i st, w.stack = .seq f i :: st → i = true

/-- What stands between a value and the text before it. -/
structure Sep (w : Writer) (sep : List Char) : Prop where
  any : sep = [] ∨ sep = [' ']
  outside : (∀ f i st, w.stack ≠ .seq f i :: st) → sep = []
  between : w.skip = false → (∃ i st, w.stack = .seq false i :: st) → sep = [' ']

theorem Sep.unclear {w : Writer} {sep : List Char} (h : Sep w.clearSkip sep) : Sep w sep :=
  ⟨h.any, h.outside, fun _ => h.between rfl⟩

theorem Sep.gap {w : Writer} {sep : List Char} (h : Sep w sep) : Gap false sep := by
  rcases h.any with rfl | rfl
  · exact .nil
  · exact .blank (.inl rfl) .nil

theorem beforeValue_sep {w : Writer} (h : InlineTop w) :
    ∃ sep, Wrote w w.beforeValue sep (markSeq w.stack) ∧ Sep w sep := by
  by_cases hs : ∃ f i st, w.stack = .seq f i :: st
  · obtain ⟨f, i, st, hs⟩ := hs
    cases h f i st hs
    refine ⟨_, ⟨beforeValue_seq hs, beforeValue_stack w, beforeValue_options w, beforeValue_panicked w⟩, ?_, ?_, ?_⟩
    · split <;> simp
    · intro h'; exact absurd hs (h' _ _ _)
    · rintro h1 ⟨i, st', h2⟩
      rw [hs] at h2; cases h2
      simp [h1]
  · have hs' : ∀ f i st, w.stack ≠ .seq f i :: st := fun f i st e => hs ⟨f, i, st, e⟩
    refine ⟨[], ⟨?_, beforeValue_stack w, beforeValue_options w, beforeValue_panicked w⟩, .inl rfl, fun _ => rfl, ?_⟩
    · unfold Writer.beforeValue
      split
      · simp
      · split
        · rename_i h; exact absurd h (hs' _ _ _)
        · simp
    · rintro - ⟨i, st, h⟩; exact absurd h (hs' _ _ _)

theorem clearSkip_wrote (w : Writer) : Wrote w w.clearSkip [] w.stack := ⟨by simp [Writer.clearSkip], rfl, rfl, rfl⟩

/-- What the calls for a value do. -/
def Put (line : Bool) (s s' : Ser) (v : Value) : Prop :=
  ∃ sep t e v', Wrote s.writer s'.writer (sep ++ t) (markSeq s.writer.stack) ∧ Sep s.writer sep ∧
    s'.atRoot = false ∧ s'.tag = false ∧ ValueText v' e t ∧ forget v' = forget v ∧
    (s'.writer.skip = true → e = .closed) ∧ (e = .closed ∨ e = .word ∨ (e = .line ∧ line = true))

/-- Ready for a value that is not at the root. -/
structure Open (s : Ser) : Prop where
  tag : s.tag = false
  root : s.atRoot = false
  top : InlineTop s.writer

/-- What the calls for items and the end of the sequence do. -/
def PutItems (first : Bool) (s s' : Ser) (vs : List Value) (st : List Ctx) : Prop :=
  ∃ t vs', Wrote s.writer s'.writer t st ∧ s'.atRoot = false ∧ s'.tag = false ∧ ItemsText vs' t ∧
    forgetAll vs' = forgetAll vs ∧
    (first = false → s.writer.skip = false ∨ vs = [] → ∃ c r, t = c :: r ∧ (c = ' ' ∨ c = ')'))

/-- What the calls for fields and the end of the struct do. -/
def PutFields (first : Bool) (s s' : Ser) (es : List Entry) (st : List Ctx) : Prop :=
  ∃ t es', Wrote s.writer s'.writer t st ∧ s'.atRoot = false ∧ s'.tag = false ∧ EntriesText es' t ∧
    forgetEntries es' = forgetEntries es ∧
    (es'.map fun e => keyId (entryKey e)) = es.map (fun e => keyId (entryKey e)) ∧
    (first = false → ∃ c r, t = c :: r ∧ (c = ',' ∨ c = '\n' ∨ c = '}'))

/-! ## Keys -/

theorem rawKey_quoted {n : List Char} (h1 : '"' ∉ n) (h2 : '\\' ∉ n) :
    ScalarText n .quoted .closed ('"' :: n ++ ['"']) := by
  have : QuotedBody n ∧ Escaped n n := by
    induction n with
    | nil => exact ⟨.nil, .nil⟩
    | cons c n ih =>
      simp only [List.mem_cons, not_or] at h1 h2
      obtain ⟨i1, i2⟩ := ih h1.2 h2.2
      exact ⟨.plain (Ne.symm h1.1) (Ne.symm h2.1) i1, .plain (Ne.symm h2.1) i2⟩
  exact .quoted this.1 this.2

theorem fieldKeyRaw_true {w : Writer} {f r m i : Bool} {c : List Nat} {op : Option Nat} {st : List Ctx}
    (h : w.stack = .struct f r m i c op :: st) (key : List Char) : (w.fieldKeyRaw key).1 = true := by
  unfold Writer.fieldKeyRaw
  rw [h]

/-- The text of a key, and the call that writes it. -/
theorem key_ok {k : Value} {doc : List (List Char)} {c : Call} (h : MakesKey k doc c) :
    ∃ kt k' e, KeyText k' e kt ∧ forget k' = forget k ∧ keyId k' = keyId k ∧ keyName k' = keyName k ∧
      ((∃ s, k' = scalarValue s .bare ∧ kt = s ∧ canBeBare s = true ∧ '>' ∉ s) ∨ ∀ s, k' ≠ scalarValue s .bare) ∧
      ∀ (s : Ser) f r m i cm op st, s.writer.stack = .struct f r m i cm op :: st → s.tag = false →
        if doc = [] then s.call c = some ⟨(s.writer.clearSkip.fieldKeyRaw kt).2, s.atRoot, false⟩
        else s.call c = some ⟨s.writer.clearSkip.docKeyRaw (joined doc) kt, s.atRoot, false⟩ ∨
          s.call c = some ⟨s.writer.docKeyRaw (joined doc) kt, s.atRoot, false⟩ := by
  have hname : ∀ {n : List Char} {kd : ScalarKind}, (canBeBare n = true → '>' ∉ n) → ∃ k' e, KeyText k' e (keyText n) ∧
      forget k' = forget (scalarValue n kd) ∧ keyId k' = keyId (scalarValue n kd) ∧
      keyName k' = keyName (scalarValue n kd) ∧
      ((∃ s, k' = scalarValue s .bare ∧ keyText n = s ∧ canBeBare s = true ∧ '>' ∉ s) ∨
        ∀ s, k' ≠ scalarValue s .bare) := by
    intro n kd hn
    obtain ⟨kt, k', e, h1, h2⟩ := formatKey_ok (k := scalarValue n kd) hn
    have : keyText n = kt := by simpa [formatKey, scalarValue] using h1
    subst this
    exact ⟨k', e, h2⟩
  have hraw : ∀ (s : Ser) f r m i cm op st, s.writer.stack = .struct f r m i cm op :: st → ∀ key,
      (s.writer.clearSkip.fieldKeyRaw key).1 = true := fun s f r m i cm op st h key =>
    fieldKeyRaw_true (w := s.writer.clearSkip) h key
  cases h with
  | field hn =>
    obtain ⟨k', e, h1, h2, h3, h4, h5⟩ := hname hn
    refine ⟨_, k', e, h1, h2, h3, h4, h5, ?_⟩
    intro s f r m i cm op st hs ht
    simp [Ser.call, Writer.fieldKey, hraw s _ _ _ _ _ _ _ hs]
  | name hn =>
    obtain ⟨k', e, h1, h2, h3, h4, h5⟩ := hname hn
    refine ⟨_, k', e, h1, h2, h3, h4, h5, ?_⟩
    intro s f r m i cm op st hs ht
    cases doc with
    | nil => simp [Ser.call, Writer.fieldKey, hraw s _ _ _ _ _ _ _ hs]
    | cons l ls =>
      rw [if_neg (by simp)]
      simp [Ser.call, Writer.docKey, joinLines_eq]
  | doc hn hd =>
    obtain ⟨k', e, h1, h2, h3, h4, h5⟩ := hname hn
    refine ⟨_, k', e, h1, h2, h3, h4, h5, ?_⟩
    intro s f r m i cm op st hs ht
    rw [if_neg hd]
    right
    simp [Ser.call, Writer.docKey, joinLines_eq, ht]
  | unit htag =>
    refine ⟨_, _, _, .unit, rfl, rfl, rfl, .inr (by simp [scalarValue]), ?_⟩
    intro s f r m i cm op st hs ht
    rcases htag with rfl | rfl <;> cases doc <;>
      simp [Ser.call, joinLines_eq, rawKey, hraw s _ _ _ _ _ _ _ hs]
  | tag hn =>
    refine ⟨_, _, _, .tag hn, rfl, rfl, rfl, .inr (by simp [scalarValue]), ?_⟩
    intro s f r m i cm op st hs ht
    cases doc <;> simp [Ser.call, joinLines_eq, rawKey, hraw s _ _ _ _ _ _ _ hs]
  | tagged hn hr hq hb =>
    refine ⟨_, _, _, .tagged hn (rawKey_quoted hq hb) ⟨'"', _, rfl, .inr (.inr (.inl ⟨rfl, hr⟩))⟩ (fun _ => hb), rfl, rfl,
      rfl, .inr (by simp [scalarValue]), ?_⟩
    intro s f r m i cm op st hs ht
    cases doc <;> simp [Ser.call, joinLines_eq, rawKey, hraw s _ _ _ _ _ _ _ hs]

/-! ## Values -/

theorem hex_plain {b : UInt8} {c : Char} (h : c ∈ [hexDigit (b.toNat / 16), hexDigit (b.toNat % 16)]) :
    c ≠ '"' ∧ c ≠ '\\' := by
  have key : ∀ n, n < 16 → hexDigit n ≠ '"' ∧ hexDigit n ≠ '\\' := by decide
  have h1 : b.toNat / 16 < 16 := by have := b.toNat_lt; omega
  have h2 : b.toNat % 16 < 16 := Nat.mod_lt _ (by decide)
  rcases List.mem_cons.1 h with rfl | h
  · exact key _ h1
  · rcases List.mem_cons.1 h with rfl | h
    · exact key _ h2
    · cases h

theorem bytesText_scalar (bs : List UInt8) : ScalarText (hexText bs) .quoted .closed ('"' :: hexText bs ++ ['"']) := by
  apply rawKey_quoted
  all_goals
    intro h
    obtain ⟨b, -, hc⟩ := List.mem_flatMap.1 h
    have := hex_plain hc
    simp at this

theorem open_writeText {s : Ser} (h : InlineTop s.writer) (t : List Char) :
    ∃ sep, Wrote s.writer (s.writer.writeText t) (sep ++ t) (markSeq s.writer.stack) ∧ Sep s.writer sep := by
  obtain ⟨sep, h1, h2⟩ := beforeValue_sep h
  refine ⟨sep, ?_, h2⟩
  have := h1.trans (emit_wrote s.writer.beforeValue t)
  rw [h1.stack] at this
  exact this

/-- The text of a tag. -/
theorem writeTag_wrote {w : Writer} (h : InlineTop w) (n : List Char) :
    ∃ sep, Wrote w (w.writeTag n) (sep ++ '@' :: n) (markSeq w.stack) ∧ Sep w sep := by
  obtain ⟨sep, h1, h2⟩ := beforeValue_sep h
  refine ⟨sep, ⟨?_, h1.stack, h1.options, h1.panicked⟩, h2⟩
  show w.beforeValue.out ++ '@' :: n = _
  rw [h1.out]; simp

theorem inlineTop_markSeq {w w' : Writer} (h : InlineTop w) (hs : w'.stack = markSeq w.stack) : InlineTop w' := by
  intro f i st e
  rw [hs] at e
  cases hw : w.stack with
  | nil => rw [hw] at e; cases e
  | cons c cs =>
    rw [hw] at e
    cases c with
    | seq f' i' =>
      simp only [markSeq] at e
      cases e
      exact h _ _ _ hw
    | struct => cases e

theorem markSeq_idem (st : List Ctx) : markSeq (markSeq st) = markSeq st := by
  cases st with
  | nil => rfl
  | cons c st => cases c <;> rfl

theorem notSeq_markSeq {st : List Ctx} (h : ∀ f i r, st ≠ .seq f i :: r) : ∀ f i r, markSeq st ≠ .seq f i :: r := by
  intro f i r
  unfold markSeq
  split
  · exact absurd rfl (h _ _ _)
  · exact h f i r

theorem beforeValue_tag (w : Writer) (n : List Char) : (w.writeTag n).beforeValue =
    { w.writeTag n with skip := false, stack := markSeq (w.writeTag n).stack } := by
  unfold Writer.beforeValue
  have : (w.writeTag n).skip = true := rfl
  simp only [this, if_true]

theorem beginStruct_wrote {w : Writer} {sep : List Char} {st : List Ctx} (h : Wrote w w.beforeValue sep st) :
    Wrote w (w.beginStruct false false) (sep ++ ['{'])
      (.struct true false false true [] (some (utf8Len (w.beforeValue.emit ['{']).out)) :: st) := by
  refine ⟨?_, ?_, h.options, h.panicked⟩
  · show w.beforeValue.out ++ ['{'] = _
    rw [h.out, List.append_assoc]
  · show _ :: w.beforeValue.stack = _
    rw [h.stack]

/-- A string after a tag. -/
theorem tagged_string {o : FormatOptions} {n s : List Char} (h : TaggedString o n s) :
    ∃ k, ScalarText s k .closed (scalarText o true s) ∧ PayloadStart n (scalarText o true s) := by
  unfold scalarText
  rw [if_neg (by simp), if_neg (by have := h.1; omega)]
  split
  · rename_i hr
    refine ⟨_, rawText_scalar (by simpa using hr.2), ?_⟩
    simp only [rawText]
    refine ⟨'r', _, rfl, .inr (.inr (.inr ⟨rfl, ?_⟩))⟩
    cases rawHashes s (s.length + 1) 0 with
    | zero => right; rfl
    | succ m => left; rfl
  · exact ⟨_, quotedText_scalar s, '"', _, rfl, .inr (.inr (.inl ⟨rfl, h.2⟩))⟩

mutual

theorem makes_put {o : FormatOptions} (ho : ∀ c ∈ o.indent, Blank c) {line q : Bool} {v : Value} {cs : List Call}
    (h : Makes o line q v cs) (s : Ser) (hs : Open s) (hw : s.writer.options = o)
    (hq : q = false → ∀ f i st, s.writer.stack ≠ .seq f i :: st) :
    ∃ s', s.calls cs = some s' ∧ Put line s s' v := by
  cases h with
  | unit hc =>
    obtain ⟨sep, h1, h2⟩ := open_writeText hs.top ['@']
    have hcall : ∀ c, c = .scalar .unit ∨ c = .none → s.call c = some ⟨s.writer.writeText ['@'], false, false⟩ := by
      rintro c (rfl | rfl) <;> simp [Ser.call, hs.tag, writeScalar]
    refine ⟨_, by rw [calls_cons _ (hcall _ hc)]; rfl, sep, ['@'], .word, _, h1, h2, rfl, rfl, .unit, rfl, ?_, .inr (.inl rfl)⟩
    intro hsk
    have := beforeValue_skip s.writer
    simp [Writer.writeText, Writer.emit, this] at hsk
  | text hb =>
    obtain ⟨sep, h1, h2⟩ := open_writeText hs.top _
    refine ⟨_, by simp [Ser.calls, Ser.call, hs.tag, writeScalar]; rfl, sep, _, .word, _, h1, h2, rfl, rfl,
      .scalar (.bare hb), rfl, ?_, .inr (.inl rfl)⟩
    intro hsk
    have := beforeValue_skip s.writer
    simp [Writer.writeText, Writer.emit, this] at hsk
  | str hp =>
    rename_i str k
    obtain ⟨k', e, g1, g2⟩ := scalarText_ok hp s.writer.beforeValue.forceQuote
    obtain ⟨sep, h1, h2⟩ := open_writeText hs.top (scalarText o s.writer.beforeValue.forceQuote str)
    have hop := beforeValue_options s.writer
    refine ⟨_, by simp [Ser.calls, Ser.call, hs.tag, writeScalar]; rfl, sep, _, e, _, ?_, h2, rfl, rfl,
      .scalar g1, rfl, ?_, g2⟩
    · refine ⟨?_, h1.stack, h1.options, h1.panicked⟩
      rw [← h1.out]
      simp [Writer.writeString, Writer.writeScalarString, Writer.writeText, Writer.emit, hop, hw]
    · intro hsk
      have := beforeValue_skip s.writer
      simp [Writer.writeString, Writer.writeScalarString, Writer.emit, this] at hsk
  | bytes =>
    rename_i bs k
    obtain ⟨sep, h1, h2⟩ := open_writeText hs.top ('"' :: hexText bs ++ ['"'])
    exact ⟨_, by simp [Ser.calls, Ser.call, hs.tag, writeScalar]; rfl, sep, _, .closed, _, h1, h2, rfl, rfl,
      .scalar (bytesText_scalar bs), rfl, fun _ => rfl, .inl rfl⟩
  | seq hi =>
    have htop : InlineTop s.writer.clearSkip := hs.top
    obtain ⟨sep, h1, h2⟩ := beforeValue_sep htop
    have hb : Wrote s.writer s.writer.clearSkip.beginSeq (sep ++ ['(']) (.seq true true :: markSeq s.writer.stack) :=
      ⟨by simp [Writer.beginSeq, Writer.emit, h1.out]; rfl, by simp [Writer.beginSeq, Writer.emit, h1.stack]; rfl,
        h1.options, h1.panicked⟩
    obtain ⟨s', e1, t, vs', i1, i2, i3, i4, i5, -⟩ := items_put ho hi ⟨s.writer.clearSkip.beginSeq, false, false⟩ true
      (markSeq s.writer.stack) rfl rfl hb.stack (hb.options.trans hw)
    refine ⟨s', by rw [calls_cons _ (by rfl)]; exact e1, sep, '(' :: t, .closed, _, ?_, h2.unclear, i2, i3, .sequence i4,
      by simp [forget, i5], fun _ => rfl, .inl rfl⟩
    simpa using hb.trans i1
  | struct hf hd =>
    have htop : InlineTop s.writer.clearSkip := hs.top
    obtain ⟨sep, h1, h2⟩ := beforeValue_sep htop
    have hb : ∃ op, Wrote s.writer (s.writer.clearSkip.beginStruct false false) (sep ++ ['{'])
        (.struct true false false true [] op :: markSeq s.writer.stack) :=
      ⟨_, (clearSkip_wrote s.writer).trans (beginStruct_wrote h1)⟩
    obtain ⟨op, hb⟩ := hb
    obtain ⟨s', e1, t, es', i1, i2, i3, i4, i5, i6, -⟩ := fields_put ho hf
      ⟨s.writer.clearSkip.beginStruct false false, false, false⟩ true [] op
      (markSeq s.writer.stack) rfl rfl hb.stack (hb.options.trans hw)
    refine ⟨s', by rw [calls_cons (s' := ⟨s.writer.clearSkip.beginStruct false false, false, false⟩) _
        (by simp [Ser.call, hs.root])]; exact e1, sep, '{' :: t, .closed, _, ?_, h2.unclear, i2, i3,
      .object i4 (by rw [DistinctKeys, i6]; exact hd), by simp [forget, i5], fun _ => rfl, .inl rfl⟩
    simpa using hb.trans i1
  | tag hn hc =>
    rename_i n c
    obtain ⟨sep, h1, h2⟩ := writeTag_wrote hs.top n
    have h3 : s.call (.variantTag n) = some ⟨s.writer.writeTag n, false, true⟩ := by simp [Ser.call, hs.tag]
    have h4 : (⟨s.writer.writeTag n, false, true⟩ : Ser).call c = some ⟨(s.writer.writeTag n).clearSkip, false, false⟩ := by
      rcases hc with rfl | rfl | rfl <;> simp [Ser.call]
    refine ⟨_, by rw [calls_cons _ h3, calls_cons _ h4]; rfl, sep, _, .word, _, ?_, h2, rfl, rfl, .tag hn, rfl, ?_,
      .inr (.inl rfl)⟩
    · exact ⟨h1.out, h1.stack, h1.options, h1.panicked⟩
    · intro h; cases h
  | tagStr hn ht =>
    rename_i n str k
    obtain ⟨sep, h1, h2⟩ := writeTag_wrote hs.top n
    obtain ⟨k', g1, g2⟩ := tagged_string ht
    have h3 : s.call (.variantTag n) = some ⟨s.writer.writeTag n, false, true⟩ := by simp [Ser.call, hs.tag]
    have h4 : (⟨s.writer.writeTag n, false, true⟩ : Ser).call (.scalar (.str str)) =
        some ⟨(s.writer.writeTag n).writeString str, false, false⟩ := by
      simp [Ser.call, writeScalar]
    refine ⟨_, by rw [calls_cons _ h3, calls_cons _ h4]; rfl, sep, _, .closed, _, ?_, h2, rfl, rfl,
      .tagged hn (.scalar g1) g2, rfl, fun _ => rfl, .inl rfl⟩
    have hbv := beforeValue_tag s.writer n
    refine ⟨?_, ?_, ?_, ?_⟩
    · have ho1 := h1.out
      have ho2 := h1.options
      simp only [Writer.writeString, Writer.writeScalarString, Writer.emit, hbv, ho1, ho2, hw]
      simp [Writer.writeTag, Writer.emit]
    · simp only [Writer.writeString, Writer.writeScalarString, Writer.emit, hbv, h1.stack, markSeq_idem]
    · simp only [Writer.writeString, Writer.writeScalarString, Writer.emit, hbv, h1.options]
    · simp only [Writer.writeString, Writer.writeScalarString, Writer.emit, hbv, h1.panicked]
  | tagBytes hn hr =>
    rename_i n bs k
    obtain ⟨sep, h1, h2⟩ := writeTag_wrote hs.top n
    have h3 : s.call (.variantTag n) = some ⟨s.writer.writeTag n, false, true⟩ := by simp [Ser.call, hs.tag]
    have h4 : (⟨s.writer.writeTag n, false, true⟩ : Ser).call (.scalar (.bytes bs)) =
        some ⟨(s.writer.writeTag n).writeBytes bs, false, false⟩ := by
      simp [Ser.call, writeScalar]
    refine ⟨_, by rw [calls_cons _ h3, calls_cons _ h4]; rfl, sep, _, .closed, _, ?_, h2, rfl, rfl,
      .tagged hn (.scalar (bytesText_scalar bs)) ⟨'"', _, rfl, .inr (.inr (.inl ⟨rfl, hr⟩))⟩, rfl, fun _ => rfl, .inl rfl⟩
    have hbv := beforeValue_tag s.writer n
    refine ⟨?_, ?_, ?_, ?_⟩
    · have ho1 := h1.out
      simp only [Writer.writeBytes, Writer.emit, hbv, ho1]
      simp [hexText]
    · simp only [Writer.writeBytes, Writer.emit, hbv, h1.stack, markSeq_idem]
    · simp only [Writer.writeBytes, Writer.emit, hbv, h1.options]
    · simp only [Writer.writeBytes, Writer.emit, hbv, h1.panicked]
  | tagSeq hn hi hc =>
    rename_i n vs cs c
    obtain ⟨sep, h1, h2⟩ := writeTag_wrote hs.top n
    have h3 : s.call (.variantTag n) = some ⟨s.writer.writeTag n, false, true⟩ := by simp [Ser.call, hs.tag]
    have h4 : ∃ s1, (⟨s.writer.writeTag n, false, true⟩ : Ser).call c = some s1 ∧ s1.atRoot = false ∧ s1.tag = false ∧
        Wrote (s.writer.writeTag n) s1.writer ['('] (.seq true true :: markSeq s.writer.stack) := by
      rcases hc with rfl | ⟨hqf, rfl⟩
      · exact ⟨_, rfl, rfl, rfl, by simp [Writer.beginSeqAfterTag, Writer.emit],
          by simp [Writer.beginSeqAfterTag, Writer.emit, h1.stack], rfl, rfl⟩
      · have hns := notSeq_markSeq (hq hqf)
        rw [← h1.stack] at hns
        obtain ⟨sep', b1, b2⟩ := beforeValue_sep (w := (s.writer.writeTag n).clearSkip)
          (inlineTop_markSeq hs.top h1.stack)
        cases b2.outside hns
        refine ⟨_, rfl, rfl, rfl, ?_, ?_, b1.options, b1.panicked⟩
        · simp [Writer.beginSeq, Writer.emit, b1.out]; rfl
        · simp only [Writer.beginSeq, Writer.emit, b1.stack]
          show _ :: markSeq (s.writer.writeTag n).stack = _
          rw [h1.stack, markSeq_idem]
    obtain ⟨s1, h4, r1, r2, w1⟩ := h4
    obtain ⟨s', e1, t, vs', i1, i2, i3, i4, i5, -⟩ := items_put ho hi s1 true (markSeq s.writer.stack) r1 r2 w1.stack
      (w1.options.trans (h1.options.trans hw))
    refine ⟨s', by rw [calls_cons _ h3, calls_cons _ h4]; exact e1, sep, '@' :: n ++ '(' :: t, .closed, _, ?_, h2, i2, i3,
      .tagged hn (.sequence i4) ⟨'(', t, rfl, .inl rfl⟩, by simp [forget, i5], fun _ => rfl, .inl rfl⟩
    simpa using (h1.trans w1).trans i1
  | tagStruct hn hf hd hc =>
    rename_i n es cs c
    obtain ⟨sep, h1, h2⟩ := writeTag_wrote hs.top n
    have h3 : s.call (.variantTag n) = some ⟨s.writer.writeTag n, false, true⟩ := by simp [Ser.call, hs.tag]
    have h4 : ∃ s1 op, (⟨s.writer.writeTag n, false, true⟩ : Ser).call c = some s1 ∧ s1.atRoot = false ∧ s1.tag = false ∧
        Wrote (s.writer.writeTag n) s1.writer ['{'] (.struct true false false true [] op :: markSeq s.writer.stack) := by
      rcases hc with rfl | ⟨hqf, rfl⟩
      · refine ⟨_, some (utf8Len ((s.writer.writeTag n).emit ['{']).out), rfl, rfl, rfl, rfl, ?_, rfl, rfl⟩
        rw [← h1.stack]
        rfl
      · have hns := notSeq_markSeq (hq hqf)
        rw [← h1.stack] at hns
        obtain ⟨sep', b1, b2⟩ := beforeValue_sep (w := (s.writer.writeTag n).clearSkip)
          (inlineTop_markSeq hs.top h1.stack)
        cases b2.outside hns
        have hb := (clearSkip_wrote (s.writer.writeTag n)).trans (beginStruct_wrote b1)
        have hst : (s.writer.writeTag n).clearSkip.stack = markSeq s.writer.stack := h1.stack
        rw [hst, markSeq_idem] at hb
        exact ⟨_, _, rfl, rfl, rfl, hb⟩
    obtain ⟨s1, op, h4, r1, r2, w1⟩ := h4
    obtain ⟨s', e1, t, es', i1, i2, i3, i4, i5, i6, -⟩ := fields_put ho hf s1 true [] op (markSeq s.writer.stack) r1 r2
      w1.stack (w1.options.trans (h1.options.trans hw))
    refine ⟨s', by rw [calls_cons _ h3, calls_cons _ h4]; exact e1, sep, '@' :: n ++ '{' :: t, .closed, _, ?_, h2, i2, i3,
      .tagged hn (.object i4 (by rw [DistinctKeys, i6]; exact hd)) ⟨'{', t, rfl, .inr (.inl rfl)⟩, by simp [forget, i5],
      fun _ => rfl, .inl rfl⟩
    simpa using (h1.trans w1).trans i1

theorem items_put {o : FormatOptions} (ho : ∀ c ∈ o.indent, Blank c) {vs : List Value} {cs : List Call}
    (h : MakesItems o vs cs) (s : Ser) (first : Bool) (st : List Ctx) (hr : s.atRoot = false) (ht : s.tag = false)
    (hs : s.writer.stack = .seq first true :: st) (hw : s.writer.options = o) :
    ∃ s', s.calls (cs ++ [.endSeq]) = some s' ∧ PutItems first s s' vs st := by
  cases h with
  | nil =>
    refine ⟨⟨s.writer.endSeq.2, s.atRoot, s.tag⟩, by simp [Ser.calls, Ser.call, Writer.endSeq, hs], [')'], [],
      ⟨?_, ?_, ?_, ?_⟩, hr, ht, .nil (g := []) .nil, rfl, fun _ _ => ⟨')', [], rfl, .inr rfl⟩⟩ <;>
      simp [Writer.endSeq, hs, Writer.emit]
  | cons hv hi =>
    rename_i v vs cs cs'
    have hop : Open s := ⟨ht, hr, fun f i st' e => by rw [hs] at e; cases e; rfl⟩
    obtain ⟨s1, e1, sep, t1, e, v', p1, p2, p3, p4, p5, p6, p7, p8⟩ := makes_put ho hv s hop hw (by simp)
    obtain ⟨s2, e2, t2, vs', i1, i2, i3, i4, i5, i6⟩ := items_put ho hi s1 false st p3 p4 (by rw [p1.stack, hs]; rfl)
      (p1.options.trans hw)
    refine ⟨s2, by rw [List.append_assoc, calls_append_of _ e1]; exact e2, sep ++ t1 ++ t2, v' :: vs', p1.trans i1, i2, i3,
      .cons p2.gap p5 i4 ?_, by simp [forgetAll, p6, i5], ?_⟩
    · rcases p8 with rfl | rfl | ⟨-, h⟩
      · trivial
      · have hsk : s1.writer.skip = false := by
          cases hsk : s1.writer.skip with
          | false => rfl
          | true => cases p7 hsk
        obtain ⟨c, r, rfl, hc⟩ := i6 rfl (.inl hsk)
        exact .inr ⟨c, r, rfl, by rcases hc with rfl | rfl <;> simp⟩
      · cases h
    · rintro rfl (h | h)
      · rw [p2.between h ⟨_, _, hs⟩]
        exact ⟨' ', t1 ++ t2, by simp, .inl rfl⟩
      · cases h

theorem fields_put {o : FormatOptions} (ho : ∀ c ∈ o.indent, Blank c) {es : List Entry} {cs : List Call}
    (h : MakesFields o es cs) (s : Ser) (first : Bool) (commas : List Nat) (op : Option Nat) (st : List Ctx)
    (hr : s.atRoot = false) (ht : s.tag = false)
    (hs : s.writer.stack = .struct first false false true commas op :: st) (hw : s.writer.options = o) :
    ∃ s', s.calls (cs ++ [.endStruct]) = some s' ∧ PutFields first s s' es st := by
  cases h with
  | nil =>
    refine ⟨⟨s.writer.endStruct.2, s.atRoot, s.tag⟩, by simp [Ser.calls, Ser.call, Writer.endStruct, hs], ['}'], [],
      ⟨?_, ?_, ?_, ?_⟩, hr, ht, .nil (g := []) .nil, rfl, rfl, fun _ => ⟨'}', [], rfl, .inr (.inr rfl)⟩⟩ <;>
      simp [Writer.endStruct, hs, Writer.emit]
  | cons hk hv hf =>
    rename_i k v es c cs cs'
    obtain ⟨kt, k', ke, k1, k2, k3, -, -, k5⟩ := key_ok hk
    have k6 := k5 s _ _ _ _ _ _ _ hs ht
    rw [if_pos rfl] at k6
    obtain ⟨g, commas', g1, g2, -, g3⟩ := fieldKeyRaw_wrote (w := s.writer.clearSkip) (by rw [← hw] at ho; exact ho) hs kt
    obtain ⟨s1, e1, sep, t1, e, v', p1, p2, p3, p4, p5, p6, p7, p8⟩ := makes_put ho hv
      ⟨(s.writer.clearSkip.fieldKeyRaw kt).2, s.atRoot, false⟩
      ⟨rfl, hr, fun f i st' e => by rw [g1.stack] at e; cases e⟩ (g1.options.trans hw)
      (fun _ f i st' e => by rw [g1.stack] at e; cases e)
    have hsep := p2.outside (fun f i st' e => by rw [g1.stack] at e; cases e)
    subst hsep
    have p1s := p1.stack
    simp only [g1.stack, markSeq] at p1s
    obtain ⟨s2, e2, t2, es', i1, i2, i3, i4, i5, i6, i7⟩ := fields_put ho hf s1 false commas' op st p3 p4 p1s
      (p1.options.trans (g1.options.trans hw))
    obtain ⟨c', r', ht2, hc'⟩ := i7 rfl
    refine ⟨s2, by rw [List.cons_append, calls_cons _ k6, List.append_assoc, calls_append_of _ e1]; exact e2,
      g ++ [] ++ kt ++ [' '] ++ t1 ++ [] ++ t2, .mk k' v' (docOf []) :: es', ?_, i2, i3,
      .cons g2 .nil k1 (by simp [Blanks, Blank]) (by simp) p5 .none i4 ?_ ?_, ?_, ?_, ?_⟩
    · have := ((clearSkip_wrote s.writer).trans g1).trans (p1.trans i1)
      simpa using this
    · rw [List.nil_append]
      rcases p8 with rfl | rfl | ⟨rfl, hl⟩
      · trivial
      · exact .inr ⟨c', r', ht2, by rcases hc' with rfl | rfl | rfl <;> simp⟩
      · cases hl
    · rw [EntryEnd, if_pos rfl]
      refine ⟨[], t2, rfl, by simp [Blanks], ?_⟩
      rcases hc' with rfl | rfl | rfl
      · exact .inr ⟨_, _, ht2, .inl rfl⟩
      · left; rw [ht2]; exact atLineEnd_newline r'
      · exact .inr ⟨_, _, ht2, .inr rfl⟩
    · simp [forgetEntries, k2, p6, i5, docOf]
    · simpa [entryKey, k3] using i6
    · intro hf
      obtain ⟨c, r, rfl, h, -⟩ := g3 hf
      exact ⟨c, r ++ kt ++ [' '] ++ t1 ++ t2, by simp, by rcases h with h | h <;> simp [h]⟩

end

/-! ## Documents -/

theorem root_put {o : FormatOptions} (ho : ∀ c ∈ o.indent, Blank c) {es : List Entry} {cs : List Call}
    (h : MakesRoot o es cs) : ∀ (s : Ser) (first force : Bool), s.atRoot = false → s.tag = false →
      s.writer.stack = [.struct first true force false [] none] → s.writer.options = o →
      (∀ s k sp sp' v d, Entry.mk (.mk none (some (.scalar s k sp)) sp') v d ∈ es → canBeBare s = true → '.' ∉ s) →
      ∃ s' t es', s.calls (cs ++ [.endStruct]) = some s' ∧ Wrote s.writer s'.writer t [] ∧ RootText es' t ∧
        forgetEntries (es'.map RootEntry.tree) = forgetEntries es ∧
        (es'.map (·.path)) = es.map (fun e => [keyName (entryKey e)]) ∧
        (first = false → ∃ r, t = '\n' :: r) ∧ (first = false ∨ es ≠ [] → t.getLast? = some '\n') ∧
        (first = true → es = [] → t = []) := by
  induction h with
  | nil =>
    intro s first force hr ht hs hw hdot
    refine ⟨⟨s.writer.endStruct.2, s.atRoot, s.tag⟩, if first then [] else ['\n'], [],
      by simp [Ser.calls, Ser.call, Writer.endStruct, hs], ⟨?_, ?_, ?_, ?_⟩, ?_, rfl, rfl, ?_, ?_, ?_⟩ <;>
      cases first <;> first
        | simp [Writer.endStruct, hs, Writer.emit]; done
        | exact .nil (gap_newline (by simp [Blanks]))
        | exact .nil .nil
  | @cons k v doc es c cs cs' hk hdoc hv hes ih =>
    intro s first force hr ht hs hw hdot
    obtain ⟨kt, k', ke, hkt, hkforget, -, hkn, hkb, hcall⟩ := key_ok hk
    have hcall := hcall s _ _ _ _ _ _ _ hs ht
    have hroot : ∃ ke', RootKeyText [k'] [keyName k'] ke' kt := by
      rcases hkb with ⟨s, rfl, rfl, hb, hgt⟩ | hkb
      · have hb' := bareText_of_canBeBare hb hgt
        have hne : kt ≠ [] := by
          obtain ⟨c, r, rfl, -⟩ := hb'.2
          simp
        have hnd : '.' ∉ kt := by
          match k, hkforget with
          | .mk none (some (.scalar s k sp)) sp', h =>
            have : s = kt := by simp [forget, scalarValue] at h; exact h.symm
            subst this
            exact hdot s k sp sp' v (docOf doc) (by simp) hb
          | .mk (some _) (some (.scalar s k sp)) sp', h => simp [forget, scalarValue] at h
          | .mk _ none sp', h => simp [forget, scalarValue] at h
          | .mk _ (some (.sequence ..)) sp', h => simp [forget, scalarValue] at h
          | .mk _ (some (.object ..)) sp', h => simp [forget, scalarValue] at h
        exact ⟨_, .path (segs := [kt]) (by simp) (by simpa using ⟨hne, hnd⟩) hb'⟩
      · exact ⟨_, .other hkt hkb⟩
    obtain ⟨ke', hroot⟩ := hroot
    have hkey : ∃ s1 : Ser, s.call c = some s1 ∧ s1.atRoot = false ∧ s1.tag = false ∧
        ∃ g ls dt force', Wrote s.writer s1.writer (g ++ dt ++ kt ++ [' ']) [.struct false true force' false [] none] ∧
          Gap true g ∧ DocLines ls dt ∧ docOf ls = docOf doc ∧ (first = false → ∃ r, g = '\n' :: r) := by
      have hgap : Gap true ['\n', '\n'] := .newline (n := ['\n']) (.inl rfl) (gap_newline (by simp [Blanks]))
      cases doc with
      | nil =>
        rw [if_pos rfl] at hcall
        have h1 := (clearSkip_wrote s.writer).trans (fieldKeyRaw_root (w := s.writer.clearSkip) hs kt)
        refine ⟨_, hcall, hr, rfl, if first then [] else ['\n', '\n'], [], [], force, by simpa using h1, ?_, .nil, rfl, ?_⟩
        · split
          · exact .nil
          · exact hgap
        · rintro rfl; exact ⟨_, rfl⟩
      | cons l ls =>
        rw [if_neg (by simp)] at hcall
        obtain ⟨t1, t2, t3⟩ := textLines_spec (hdoc (by simp))
        have hind : indentText s.writer.options ([Ctx.struct false true true false [] none].countP Ctx.indents) = [] := by
          simp [Ctx.indents, indentText]
        have hind' : indentText s.writer.clearSkip.options ([Ctx.struct false true true false [] none].countP Ctx.indents)
            = [] := hind
        have hw1 : ∃ s1 : Ser, s.call c = some s1 ∧ s1.atRoot = false ∧ s1.tag = false ∧
            Wrote s.writer s1.writer ((if first then [] else ['\n', '\n']) ++
              (docTail ['\n'] (textLines (joined (l :: ls))) ++ ['\n']) ++ kt ++ [' '])
              [.struct false true true false [] none] := by
          rcases hcall with hcall | hcall
          · refine ⟨_, hcall, hr, rfl, ?_⟩
            have h1 := (clearSkip_wrote s.writer).trans (docKeyRaw_wrote (w := s.writer.clearSkip) hs (by simp [NoPending])
              (joined (l :: ls)) kt t2)
            simp only [hind'] at h1
            cases first <;> simpa using h1
          · refine ⟨_, hcall, hr, rfl, ?_⟩
            have h1 := docKeyRaw_wrote hs (by simp [NoPending]) (joined (l :: ls)) kt t2
            simp only [hind] at h1
            cases first <;> simpa using h1
        obtain ⟨s1, c1, c2, c3, c4⟩ := hw1
        refine ⟨s1, c1, c2, c3, _, _, _, true, c4, ?_, docTail_lines (nl := ['\n']) rfl (by simp [Blanks]) t2 t3, t1, ?_⟩
        · split
          · exact .nil
          · exact hgap
        · rintro rfl; exact ⟨_, rfl⟩
    obtain ⟨s1, hc1, hc2, hc3, g, ls, dt, force', h1, hg, hls, hd, hstart⟩ := hkey
    obtain ⟨s2, e2, sep, t1, e, v', p1, p2, p3, p4, p5, p6, p7, p8⟩ := makes_put ho hv s1
      ⟨hc3, hc2, fun f i st' e => by rw [h1.stack] at e; cases e⟩ (h1.options.trans hw)
      (fun _ f i st' e => by rw [h1.stack] at e; cases e)
    have hsep := p2.outside (fun f i st' e => by rw [h1.stack] at e; cases e)
    subst hsep
    have p1s := p1.stack
    simp only [h1.stack, markSeq] at p1s
    obtain ⟨s3, t, es', g0, g1, g2, g3, g4, g5, g6, g7⟩ := ih s2 false force' p3 p4 p1s
      (p1.options.trans (h1.options.trans hw)) (fun s k sp sp' v d h => hdot s k sp sp' v d (by simp [h]))
    obtain ⟨r, ht⟩ := g5 rfl
    refine ⟨s3, g ++ dt ++ kt ++ [' '] ++ t1 ++ [] ++ t, ⟨[k'], [keyName k'], v', docOf ls⟩ :: es',
      by rw [List.cons_append, calls_cons _ hc1, List.append_assoc, calls_append_of _ e2]; exact g0, ?_,
      .cons hg hls hroot (by simp [Blanks, Blank]) (by simp) p5 .none g2 ?_ ?_, ?_, ?_, ?_, ?_, by simp⟩
    · have := h1.trans (p1.trans g1)
      simpa using this
    · rw [List.nil_append, ht]
      rcases p8 with rfl | rfl | ⟨rfl, -⟩
      · trivial
      · exact .inr ⟨_, _, rfl, by simp⟩
      · exact atLineEnd_newline r
    · rw [EntryEnd, if_pos rfl]
      exact ⟨[], t, rfl, by simp [Blanks], by left; rw [ht]; exact atLineEnd_newline r⟩
    · simp [forgetEntries, RootEntry.tree, nestKeys, hkforget, p6, g3, hd]
    · simp [g4, entryKey, hkn]
    · intro hf
      obtain ⟨r', rfl⟩ := hstart hf
      exact ⟨r' ++ dt ++ kt ++ [' '] ++ t1 ++ t, by simp⟩
    · intro _
      rw [List.getLast?_append, g6 (.inl rfl)]
      rfl

/-- Serializing a document gives a text of it. -/
theorem document_text {o : FormatOptions} {es : List Entry} {cs : List Call} (h : MakesDocument o es cs) :
    ∃ t es', toString o cs = some t ∧ RootText es' t ∧
      forgetEntries (es'.map RootEntry.tree) = forgetEntries es ∧
      (es'.map (·.path)) = es.map (fun e => [keyName (entryKey e)]) := by
  obtain ⟨ho, ⟨cs, hm, rfl⟩, -, hdot⟩ := h
  obtain ⟨s', t, es', g0, g1, g2, g3, g4, -, g5, g6⟩ := root_put ho hm
    ⟨({ options := o } : Writer).clearSkip.beginStruct true false, false, false⟩ true false rfl rfl rfl rfl hdot
  refine ⟨t, es', ?_, g2, g3, g4⟩
  unfold toString
  rw [calls_cons (s' := ⟨({ options := o } : Writer).clearSkip.beginStruct true false, false, false⟩) _ rfl, g0]
  have hp : s'.writer.panicked = false := g1.panicked
  have hout : s'.writer.out = t := g1.out
  simp only [hp, Bool.false_eq_true, if_false, Option.some.injEq]
  unfold Writer.finishDocument
  rw [hout]
  by_cases hes : es = []
  · rw [g6 rfl hes]; simp
  · rw [if_neg (by simp [g5 (.inr hes)])]

/-- Serializing a value on one line gives a text of it. -/
theorem compact_text {v : Value} {cs : List Call} (h : Makes { forceStyle := .inline } false false v cs) :
    ∃ t e v', toCompact cs = some t ∧ ValueText v' e t ∧ forget v' = forget v ∧ Follows e [] := by
  obtain ⟨s', e0, sep, t, e, v', p1, p2, p3, p4, p5, p6, p7, p8⟩ := makes_put (o := { forceStyle := .inline })
    (by intro c hc; simp at hc; exact .inl hc) h (Ser.new { forceStyle := .inline } true)
    ⟨rfl, rfl, fun f i st e => by cases e⟩ rfl (fun _ f i st e => by cases e)
  have hsep := p2.outside (fun f i st e => by cases e)
  subst hsep
  refine ⟨t, e, v', ?_, p5, p6, ?_⟩
  · unfold toCompact
    rw [e0]
    have hp : s'.writer.panicked = false := p1.panicked
    have hout : s'.writer.out = t := p1.out
    simp [hp, hout]
  · rcases p8 with rfl | rfl | ⟨-, h⟩
    · trivial
    · exact .inl rfl
    · cases h

end Styx.FacetSer
