import Verif.Format.WriterSpec
import Verif.Format.Print

/-! # Lemmas about the writer over all histories of calls -/

namespace Styx

open Styx.Spec

/-- What a context is. -/
def Ctx.kind : Ctx → Open
  | .struct .. => .struct
  | .seq .. => .seq

theorem kinds_markSeq (st : List Ctx) : (markSeq st).map Ctx.kind = st.map Ctx.kind := by
  unfold markSeq; split <;> rfl

theorem kinds_markDoc (st : List Ctx) : (markDoc st).map Ctx.kind = st.map Ctx.kind := by
  unfold markDoc; split <;> rfl

theorem kinds_fixCommas (w : Writer) : w.fixCommas.stack.map Ctx.kind = w.stack.map Ctx.kind := by
  unfold Writer.fixCommas
  split
  · rename_i h; rw [h]; rfl
  · rfl

theorem kinds_clearPending (st : List Ctx) : (st.map Ctx.clearPending).map Ctx.kind = st.map Ctx.kind := by
  rw [List.map_map]
  apply List.map_congr_left
  intro c _
  cases c with
  | seq => rfl
  | struct => simp only [Function.comp_apply, Ctx.clearPending]; split <;> rfl

theorem kinds_shift (p n : Nat) (st : List Ctx) : (st.map (Ctx.shift p n)).map Ctx.kind = st.map Ctx.kind := by
  rw [List.map_map]
  apply List.map_congr_left
  intro c _
  cases c with
  | seq => rfl
  | struct f r m i c o => cases o <;> rfl

theorem kinds_collectFixes (d : Nat) (st : List Ctx) : (collectFixes d st).2.map Ctx.kind = st.map Ctx.kind := by
  fun_induction collectFixes d st with
  | case1 => rfl
  | case2 d f m i c p st fs st' h ih => simp only [h] at ih; simp [ih, Ctx.kind]
  | case3 d f r m i c p st hr fs st' h hi ih => simp only [h] at ih; simp [ih, Ctx.kind]
  | case4 d f r m i c p st hr fs st' h hi ih => simp only [h] at ih; simp [ih, Ctx.kind]
  | case5 d c st hc fs st' h ih => simp only [h] at ih; simp [ih]

theorem kinds_insertBreak (w : Writer) (f : Nat × Nat) :
    (w.insertBreak f).stack.map Ctx.kind = w.stack.map Ctx.kind := by
  unfold Writer.insertBreak
  dsimp only
  split
  · exact kinds_shift _ _ _
  · rfl

theorem kinds_propagate (w : Writer) : w.propagate.stack.map Ctx.kind = w.stack.map Ctx.kind := by
  unfold Writer.propagate
  dsimp only
  have hfold : ∀ (fs : List (Nat × Nat)) (w : Writer),
      (fs.foldl Writer.insertBreak w).stack.map Ctx.kind = w.stack.map Ctx.kind := by
    intro fs
    induction fs with
    | nil => intro w; rfl
    | cons f fs ih => intro w; rw [List.foldl_cons, ih, kinds_insertBreak]
  rw [hfold]
  rw [List.map_reverse, kinds_collectFixes, kinds_clearPending]
  simp

theorem docLines_stack (w : Writer) (need : Bool) (ls : List (List Char)) :
    (w.docLines need ls).stack = w.stack := by
  induction ls generalizing w need with
  | nil => rfl
  | cons l ls ih =>
    rw [Writer.docLines, ih]
    cases need
    · rfl
    · simp [newlineIndent_eq, Writer.emit]

theorem kinds_docKeyRaw (w : Writer) (d k : List Char) :
    (w.docKeyRaw d k).stack.map Ctx.kind = w.stack.map Ctx.kind := by
  unfold Writer.docKeyRaw
  dsimp only
  generalize hw1 : (Writer.propagate (Writer.fixCommas { w with stack := markDoc w.stack })) = w1
  have h1 : w1.stack.map Ctx.kind = w.stack.map Ctx.kind := by
    rw [← hw1, kinds_propagate, kinds_fixCommas]; exact kinds_markDoc _
  rw [← h1]
  split
  · rename_i f r _ _ _ _ _ _
    cases f <;> cases r <;> simp [Writer.emit, newlineIndent_eq, docLines_stack]
  · simp [Writer.emit, newlineIndent_eq, docLines_stack]

theorem kinds_fieldKeyRaw (w : Writer) (k : List Char) :
    (w.fieldKeyRaw k).2.stack.map Ctx.kind = w.stack.map Ctx.kind := by
  unfold Writer.fieldKeyRaw
  split
  · rename_i f r m i c o st h
    dsimp only
    have hgen : ∀ w' : Writer, w'.stack.map Ctx.kind = w.stack.map Ctx.kind →
        ((match w'.stack with
          | .struct _ r f i c o :: st => { w' with stack := .struct false r f i c o :: st }
          | _ => w').emit (k ++ [' '])).stack.map Ctx.kind = w.stack.map Ctx.kind := by
      intro w' hw'
      rw [← hw']
      split
      · rename_i h; simp [Writer.emit, h, Ctx.kind]
      · rfl
    apply hgen
    split
    · split
      · rw [h]; rfl
      · split <;> simp [newlineIndent_eq, Writer.emit]
    · split <;> simp [newlineIndent_eq, Writer.emit]
  · rfl

theorem kinds_endStruct (w : Writer) : w.endStruct.2.stack.map Ctx.kind = (w.stack.map Ctx.kind).tail := by
  unfold Writer.endStruct
  dsimp only
  split
  · rename_i h
    rw [h]
    split
    · split <;> simp [Writer.emit]
    · split <;> simp [newlineIndent_eq, Writer.emit]
  · rename_i h; rw [h]; rfl
  · rename_i h; rw [h]; rfl

theorem kinds_endSeq (w : Writer) : w.endSeq.2.stack.map Ctx.kind = (w.stack.map Ctx.kind).tail := by
  unfold Writer.endSeq
  dsimp only
  split
  · rename_i h
    rw [h]
    split <;> simp [newlineIndent_eq, Writer.emit]
  · rename_i h; rw [h]; rfl
  · rename_i h; rw [h]; rfl

/-- A call opens and closes what the specification says. -/
theorem call_kinds (w : Writer) (c : Call) :
    (w.call c).2.stack.map Ctx.kind = openedStep (w.stack.map Ctx.kind) c := by
  have hb : w.beforeValue.stack.map Ctx.kind = w.stack.map Ctx.kind := by
    rw [beforeValue_stack, kinds_markSeq]
  cases c with
  | beginStruct r f =>
    simp only [Writer.call, Writer.beginStruct, openedStep]
    split <;> simp [Writer.emit, hb, Ctx.kind]
  | beginStructAfterTag f => simp [Writer.call, Writer.beginStructAfterTag, openedStep, Writer.emit, Ctx.kind]
  | endStruct => exact kinds_endStruct w
  | beginSeq => simp [Writer.call, Writer.beginSeq, openedStep, Writer.emit, Ctx.kind, hb]
  | beginSeqAfterTag => simp [Writer.call, Writer.beginSeqAfterTag, openedStep, Writer.emit, Ctx.kind]
  | endSeq => exact kinds_endSeq w
  | fieldKey k => exact kinds_fieldKeyRaw w _
  | fieldKeyRaw k => exact kinds_fieldKeyRaw w _
  | docKey d k => exact kinds_docKeyRaw w _ _
  | docKeyRaw d k => exact kinds_docKeyRaw w _ _
  | string s => simpa [Writer.call, Writer.writeString, Writer.writeScalarString, Writer.emit, openedStep] using hb
  | text s => simpa [Writer.call, Writer.writeText, Writer.emit, openedStep] using hb
  | bytes b => simpa [Writer.call, Writer.writeBytes, Writer.emit, openedStep] using hb
  | tag n => simpa [Writer.call, Writer.writeTag, Writer.emit, openedStep] using hb
  | tagChain n => simp [Writer.call, Writer.writeTagChain, Writer.emit, openedStep]
  | clearSkip => simp [Writer.call, Writer.clearSkip, openedStep]

theorem calls_kinds (cs : List Call) (w : Writer) :
    (w.calls cs).stack.map Ctx.kind = cs.foldl openedStep (w.stack.map Ctx.kind) := by
  induction cs generalizing w with
  | nil => rfl
  | cons c cs ih =>
    rw [Writer.calls, List.foldl_cons, List.foldl_cons, ← call_kinds]
    exact ih _

theorem fieldKeyRaw_fails (w : Writer) (k : List Char) :
    (w.fieldKeyRaw k).1 = false ↔ (w.stack.map Ctx.kind).head? ≠ some .struct := by
  unfold Writer.fieldKeyRaw
  split
  · rename_i h; rw [h]; simp [Ctx.kind]
  · rename_i h
    simp only [true_iff]
    intro hc
    cases hs : w.stack with
    | nil => rw [hs] at hc; simp at hc
    | cons c st =>
      rw [hs] at hc
      cases c with
      | seq => simp [Ctx.kind] at hc
      | struct => exact h _ _ _ _ _ _ _ hs

theorem endStruct_fails (w : Writer) : w.endStruct.1 = false ↔ (w.stack.map Ctx.kind).head? ≠ some .struct := by
  unfold Writer.endStruct
  dsimp only
  split
  · rename_i h; rw [h]; split <;> simp [Ctx.kind]
  · rename_i c st hn h
    rw [h]
    cases c with
    | seq => simp [Ctx.kind]
    | struct => exact absurd rfl (hn _ _ _ _ _ _)
  · rename_i h; rw [h]; simp

theorem endSeq_fails (w : Writer) : w.endSeq.1 = false ↔ (w.stack.map Ctx.kind).head? ≠ some .seq := by
  unfold Writer.endSeq
  dsimp only
  split
  · rename_i h; rw [h]; simp [Ctx.kind]
  · rename_i c st hn h
    rw [h]
    cases c with
    | seq => exact absurd rfl (hn _ _)
    | struct => simp [Ctx.kind]
  · rename_i h; rw [h]; simp

end Styx

namespace Styx

open Styx.Spec

/-! ## Text already written -/

/-- `w'` has the text of `w` and possibly more, and has not panicked unless `w` had. -/
def Appends (w w' : Writer) : Prop := w.out <+: w'.out ∧ w'.panicked = w.panicked

theorem Appends.refl (w : Writer) : Appends w w := ⟨List.prefix_refl _, rfl⟩

theorem Appends.trans {w w' w'' : Writer} (h : Appends w w') (h' : Appends w' w'') : Appends w w'' :=
  ⟨h.1.trans h'.1, h'.2.trans h.2⟩

theorem emit_appends (w : Writer) (s : List Char) : Appends w (w.emit s) := ⟨⟨s, rfl⟩, rfl⟩

theorem newlineIndent_appends (w : Writer) : Appends w w.newlineIndent := by
  rw [newlineIndent_eq]; exact emit_appends _ _

theorem beforeValue_appends (w : Writer) : Appends w w.beforeValue := by
  unfold Writer.beforeValue
  split
  · exact .refl w
  · split
    · split
      · exact emit_appends w _
      · exact newlineIndent_appends w
    · exact .refl w

theorem docLines_appends (w : Writer) (need : Bool) (ls : List (List Char)) : Appends w (w.docLines need ls) := by
  induction ls generalizing w need with
  | nil => exact .refl w
  | cons l ls ih =>
    rw [Writer.docLines]
    refine .trans ?_ (ih _ _)
    refine .trans ?_ (emit_appends _ _)
    split
    · exact newlineIndent_appends w
    · exact .refl w

theorem fieldKeyRaw_appends (w : Writer) (k : List Char) : Appends w (w.fieldKeyRaw k).2 := by
  unfold Writer.fieldKeyRaw
  split
  · rename_i f r m i c o st h
    dsimp only
    have hgen : ∀ w' : Writer, Appends w w' → Appends w ((match w'.stack with
          | .struct _ r f i c o :: st => { w' with stack := .struct false r f i c o :: st }
          | _ => w').emit (k ++ [' '])) := by
      intro w' hw'
      refine .trans ?_ (emit_appends _ _)
      split <;> exact hw'
    apply hgen
    split
    · split
      · exact emit_appends w _
      · split
        · exact .trans (emit_appends w _) (newlineIndent_appends _)
        · exact newlineIndent_appends w
    · split
      · exact newlineIndent_appends w
      · exact .refl w
  · exact .refl w

theorem endStruct_appends (w : Writer) : Appends w w.endStruct.2 := by
  unfold Writer.endStruct
  dsimp only
  split
  · rename_i st _
    split
    · split
      · exact .refl w
      · exact emit_appends w _
    · refine .trans ?_ (emit_appends _ _)
      split
      · exact newlineIndent_appends { w with stack := st }
      · exact .refl w
  · exact .refl w
  · exact .refl w

theorem endSeq_appends (w : Writer) : Appends w w.endSeq.2 := by
  unfold Writer.endSeq
  dsimp only
  split
  · rename_i st _
    refine .trans ?_ (emit_appends _ _)
    split
    · exact newlineIndent_appends { w with stack := st }
    · exact .refl w
  · exact .refl w
  · exact .refl w

/-- Every call but those with a doc comment only adds text. -/
theorem call_appends (w : Writer) (c : Call) (h : c.doc = false) : Appends w (w.call c).2 := by
  have hb := beforeValue_appends w
  cases c with
  | beginStruct r f =>
    simp only [Writer.call, Writer.beginStruct]
    split
    · exact hb
    · exact hb.trans (emit_appends _ _)
  | beginStructAfterTag f => exact emit_appends w _
  | endStruct => exact endStruct_appends w
  | beginSeq => exact hb.trans (emit_appends _ _)
  | beginSeqAfterTag => exact emit_appends w _
  | endSeq => exact endSeq_appends w
  | fieldKey k => exact fieldKeyRaw_appends w _
  | fieldKeyRaw k => exact fieldKeyRaw_appends w _
  | docKey d k => cases h
  | docKeyRaw d k => cases h
  | string s => exact hb.trans (emit_appends _ _)
  | text s => exact hb.trans (emit_appends _ _)
  | bytes b => exact hb.trans (emit_appends _ _)
  | tag n => exact hb.trans (emit_appends _ _)
  | tagChain n => exact emit_appends w _
  | clearSkip => exact .refl w

/-- The context is the root or multi-line, and has no commas. -/
def Ctx.calm : Ctx → Prop
  | .struct _ r m _ c _ => (r = true ∨ m = true) ∧ c = []
  | .seq .. => True

theorem Ctx.calm.noPending {c : Ctx} (h : c.calm) : c.pending = false := by
  cases c with
  | seq => rfl
  | struct f r m i c o =>
    obtain ⟨rfl | rfl, -⟩ := h
    · rfl
    · cases r <;> rfl

theorem markDoc_calm {st : List Ctx} (h : ∀ c ∈ st, c.calm) : ∀ c ∈ markDoc st, c.calm := by
  unfold markDoc
  split
  · rename_i f r m i c o st
    have := h (.struct f r m i c o) (by simp)
    intro x hx
    rcases List.mem_cons.1 hx with rfl | hx
    · exact ⟨.inr rfl, this.2⟩
    · exact h x (by simp [hx])
  · exact h

theorem fixCommas_calm {w : Writer} (h : ∀ c ∈ w.stack, c.calm) : w.fixCommas = w := by
  unfold Writer.fixCommas
  split
  · rename_i f r m i c o st hs
    have : c = [] := (h (.struct f r m i c o) (by simp [hs])).2
    subst this
    simp [← hs]
  · rfl

theorem docKeyRaw_calm {w : Writer} (h : ∀ c ∈ w.stack, c.calm) (d k : List Char) :
    Appends w (w.docKeyRaw d k) ∧ (∀ c ∈ (w.docKeyRaw d k).stack, c.calm) ∧
      (w.docKeyRaw d k).options = w.options := by
  unfold Writer.docKeyRaw
  dsimp only
  have hm := markDoc_calm h
  rw [fixCommas_calm (w := { w with stack := markDoc w.stack }) hm,
    propagate_id { w with stack := markDoc w.stack } (fun c hc => (hm c hc).noPending)]
  have h1 : Appends w { w with stack := markDoc w.stack } := .refl w
  have hs : ({ w with stack := markDoc w.stack } : Writer).stack = markDoc w.stack ∧
    ({ w with stack := markDoc w.stack } : Writer).options = w.options := ⟨rfl, rfl⟩
  generalize ({ w with stack := markDoc w.stack } : Writer) = w1 at h1 hs
  generalize markDoc w.stack = st at hm hs
  have hdo : ∀ (ls : List (List Char)) (w : Writer) (need : Bool), (w.docLines need ls).options = w.options := by
    intro ls
    induction ls with
    | nil => intros; rfl
    | cons l ls ih =>
      intro w need
      rw [Writer.docLines, ih]
      cases need <;> simp [newlineIndent_eq, Writer.emit]
  have hgen : ∀ f r : Bool,
      let w2 := if (!f && r) = true then w1.emit ['\n'] else w1
      let w3 := w2.docLines (!f || !r) (textLines d)
      let w4 := if (f && r) = true then w3.emit ['\n'] else w3.newlineIndent
      Appends w (w4.emit (k ++ [' '])) ∧ (w4.emit (k ++ [' '])).stack = st ∧
        (w4.emit (k ++ [' '])).options = w.options := by
    intro f r w2 w3 w4
    have a2 : Appends w1 w2 ∧ w2.stack = st ∧ w2.options = w.options := by
      by_cases h : (!f && r) = true
      · simp only [w2, h, if_true]; exact ⟨emit_appends _ _, hs⟩
      · simp only [w2, h]; exact ⟨.refl _, hs⟩
    have a3 : Appends w2 w3 ∧ w3.stack = st ∧ w3.options = w.options :=
      ⟨docLines_appends _ _ _, (docLines_stack _ _ _).trans a2.2.1, (hdo _ _ _).trans a2.2.2⟩
    have a4 : Appends w3 w4 ∧ w4.stack = st ∧ w4.options = w.options := by
      by_cases h : (f && r) = true
      · simp only [w4, h, if_true]; exact ⟨emit_appends _ _, a3.2⟩
      · simp only [w4, h]
        exact ⟨newlineIndent_appends _, by rw [newlineIndent_eq]; exact a3.2⟩
    exact ⟨h1.trans (a2.1.trans (a3.1.trans (a4.1.trans (emit_appends _ _)))), a4.2⟩
  split
  · rename_i f r _ _ _ _ _ _
    obtain ⟨g1, g2, g3⟩ := hgen f r
    exact ⟨g1, by rw [g2]; exact hm, g3⟩
  · obtain ⟨g1, g2, g3⟩ := hgen true false
    exact ⟨g1, by rw [g2]; exact hm, g3⟩

theorem fieldKeyRaw_calm {w : Writer} (h : ∀ c ∈ w.stack, c.calm) (ho : w.options.forceStyle ≠ .inline)
    (k : List Char) : (∀ c ∈ (w.fieldKeyRaw k).2.stack, c.calm) ∧ (w.fieldKeyRaw k).2.options = w.options := by
  unfold Writer.fieldKeyRaw
  split
  · rename_i f r m i c o st hs
    dsimp only
    have hcalm : (Ctx.struct f r m i c o).calm := h _ (by simp [hs])
    have hst : ∀ x ∈ st, x.calm := fun x hx => h x (by simp [hs, hx])
    have hgen : ∀ w' : Writer, w'.stack = w.stack → w'.options = w.options → (∀ x ∈ ((match w'.stack with
          | .struct _ r f i c o :: st => { w' with stack := .struct false r f i c o :: st }
          | _ => w').emit (k ++ [' '])).stack, x.calm) ∧ ((match w'.stack with
          | .struct _ r f i c o :: st => { w' with stack := .struct false r f i c o :: st }
          | _ => w').emit (k ++ [' '])).options = w.options := by
      intro w' hw' ho'
      rw [hw', hs]
      refine ⟨?_, ho'⟩
      intro x hx
      simp only [Writer.emit] at hx
      rcases List.mem_cons.1 hx with rfl | hx
      · exact hcalm
      · exact hst x hx
    have hinl : ((((i && !m) || w.shouldInline) && !r) = true) → False := by
      intro hi
      obtain ⟨rfl | rfl, -⟩ := hcalm
      · simp at hi
      · cases r
        · rw [shouldInline_force hs] at hi
          simp [ho] at hi
        · simp at hi
    rw [if_neg hinl]
    apply hgen
    · split
      · split <;> simp [newlineIndent_eq, Writer.emit]
      · split <;> simp [newlineIndent_eq, Writer.emit]
    · split
      · split <;> simp [newlineIndent_eq, Writer.emit]
      · split <;> simp [newlineIndent_eq, Writer.emit]
  · exact ⟨h, rfl⟩

theorem tail_calm {st : List Ctx} (h : ∀ c ∈ st, c.calm) : ∀ c ∈ st.tail, c.calm :=
  fun c hc => h c (List.mem_of_mem_tail hc)

theorem markSeq_calm {st : List Ctx} (h : ∀ c ∈ st, c.calm) : ∀ c ∈ markSeq st, c.calm := by
  unfold markSeq
  split
  · intro x hx
    rcases List.mem_cons.1 hx with rfl | hx
    · trivial
    · exact h x (by simp [hx])
  · exact h

theorem endStruct_stack (w : Writer) : w.endStruct.2.stack = w.stack.tail ∧ w.endStruct.2.options = w.options := by
  unfold Writer.endStruct
  dsimp only
  split
  · rename_i h
    rw [h]
    split
    · split <;> simp [Writer.emit]
    · split <;> simp [newlineIndent_eq, Writer.emit]
  · rename_i h; rw [h]; exact ⟨rfl, rfl⟩
  · rename_i h; rw [h]; exact ⟨rfl, rfl⟩

theorem endSeq_stack (w : Writer) : w.endSeq.2.stack = w.stack.tail ∧ w.endSeq.2.options = w.options := by
  unfold Writer.endSeq
  dsimp only
  split
  · rename_i h
    rw [h]
    split <;> simp [newlineIndent_eq, Writer.emit]
  · rename_i h; rw [h]; exact ⟨rfl, rfl⟩
  · rename_i h; rw [h]; exact ⟨rfl, rfl⟩

/-- With multi-line structs only, every call only adds text. -/
theorem call_calm {w : Writer} (h : ∀ c ∈ w.stack, c.calm) (ho : w.options.forceStyle ≠ .inline) (c : Call)
    (hc : c.inlineStruct = false) :
    Appends w (w.call c).2 ∧ (∀ x ∈ (w.call c).2.stack, x.calm) ∧ (w.call c).2.options = w.options := by
  have hb : ∀ c ∈ w.beforeValue.stack, c.calm := by rw [beforeValue_stack]; exact markSeq_calm h
  have hbo := beforeValue_options w
  by_cases hd : c.doc = true
  · cases c with
    | docKey d k => exact docKeyRaw_calm h _ _
    | docKeyRaw d k => exact docKeyRaw_calm h _ _
    | _ => cases hd
  · refine ⟨call_appends w c (by simpa using hd), ?_⟩
    have hcons : ∀ {x : Ctx} {st : List Ctx}, x.calm → (∀ c ∈ st, c.calm) → ∀ c ∈ x :: st, c.calm := by
      intro x st h1 h2 c hc
      rcases List.mem_cons.1 hc with rfl | hc
      · exact h1
      · exact h2 c hc
    cases c with
    | beginStruct r f =>
      simp only [Writer.call, Writer.beginStruct]
      split
      · exact ⟨hcons (x := .struct true true f false [] none) ⟨.inl rfl, rfl⟩ hb, hbo⟩
      · rename_i hr
        have hf : f = true := by cases r <;> cases f <;> simp_all [Call.inlineStruct]
        subst hf
        exact ⟨hcons (x := .struct true false true true [] _) ⟨.inr rfl, rfl⟩ hb, hbo⟩
    | beginStructAfterTag f =>
      have hf : f = true := by simpa [Call.inlineStruct] using hc
      subst hf
      exact ⟨hcons (x := .struct true false true true [] _) ⟨.inr rfl, rfl⟩ h, rfl⟩
    | endStruct => exact ⟨(endStruct_stack w).1 ▸ tail_calm h, (endStruct_stack w).2⟩
    | beginSeq => exact ⟨hcons (x := .seq true true) trivial hb, hbo⟩
    | beginSeqAfterTag => exact ⟨hcons (x := .seq true true) trivial h, rfl⟩
    | endSeq => exact ⟨(endSeq_stack w).1 ▸ tail_calm h, (endSeq_stack w).2⟩
    | fieldKey k => exact fieldKeyRaw_calm h ho _
    | fieldKeyRaw k => exact fieldKeyRaw_calm h ho _
    | docKey d k => simp [Call.doc] at hd
    | docKeyRaw d k => simp [Call.doc] at hd
    | string s => exact ⟨hb, hbo⟩
    | text s => exact ⟨hb, hbo⟩
    | bytes b => exact ⟨hb, hbo⟩
    | tag n => exact ⟨hb, hbo⟩
    | tagChain n => exact ⟨h, rfl⟩
    | clearSkip => exact ⟨h, rfl⟩

end Styx
