import Verif.Serde.Spec
import Verif.Format.Print

/-! # The text that the serializer writes -/

namespace Styx.Serde

open Styx.Spec

mutual
/-- The text of a value that is not at the root. -/
def dataText (o : FormatOptions) : Data → List Char
  | .unit => ['@']
  | .bool b => if b then chars! "true" else chars! "false"
  | .int n => intText n
  | .char c => scalarText o false [c]
  | .str s => scalarText o false s
  | .bytes bs => '"' :: bs.flatMap (fun b => [hexDigit (b.toNat / 16), hexDigit (b.toNat % 16)]) ++ ['"']
  | .none => ['@']
  | .some d => dataText o d
  | .seq ds => '(' :: itemsText o true ds
  | .fields fs => '{' :: fieldsText o true fs
  | _ => []
/-- The text of the elements of a sequence, with the closing parenthesis. -/
def itemsText (o : FormatOptions) (first : Bool) : List Data → List Char
  | [] => [')']
  | d :: ds => (if first then [] else [' ']) ++ (dataText o d ++ itemsText o false ds)
/-- The text of fields, with the closing brace. -/
def fieldsText (o : FormatOptions) (first : Bool) : List Field → List Char
  | [] => ['}']
  | .mk k d :: fs => (if first then [] else [',', ' ']) ++
      (keyText k ++ ' ' :: (dataText o d ++ fieldsText o false fs))
end

/-- The text of the fields at the root. -/
def rootFieldsText (o : FormatOptions) (first : Bool) : List Field → List Char
  | [] => if first then [] else ['\n']
  | .mk k d :: fs => (if first then [] else ['\n', '\n']) ++
      (keyText k ++ ' ' :: (dataText o d ++ rootFieldsText o false fs))

/-- The text of a value at the root. -/
def rootText (o : FormatOptions) : Data → List Char
  | .some d => rootText o d
  | .fields fs => rootFieldsText o true fs
  | d => dataText o d

/-- The separator that the next value needs. -/
def sepText : List Ctx → List Char
  | .seq false _ :: _ => [' ']
  | _ => []

/-- The writer is in a state in which the serializer calls it. -/
structure Ready (w : Writer) : Prop where
  skip : w.skip = false
  quote : w.forceQuote = false
  top : ∀ f i st, w.stack = .seq f i :: st → i = true

/-- `w'` is `w` after the text `s`, with the stack `st`. -/
structure Did (w w' : Writer) (s : List Char) (st : List Ctx) : Prop where
  out : w'.out = w.out ++ s
  stack : w'.stack = st
  options : w'.options = w.options
  skip : w'.skip = false
  quote : w'.forceQuote = false

theorem beforeValue_did {w : Writer} (h : Ready w) : Did w w.beforeValue (sepText w.stack) (markSeq w.stack) := by
  unfold Writer.beforeValue
  rw [h.skip]
  simp only [Bool.false_eq_true, if_false]
  split
  · rename_i i st hs
    cases h.top _ _ _ hs
    simp only [Bool.true_or, if_true]
    refine ⟨?_, rfl, rfl, h.skip, h.quote⟩
    simp [Writer.emit, hs, sepText]
  · rename_i hs
    refine ⟨?_, rfl, rfl, h.skip, h.quote⟩
    unfold sepText
    split
    · rename_i hs'
      exact absurd hs' (hs _ _)
    · simp

theorem markSeq_ready {w w' : Writer} {s : List Char} (h : Ready w) (d : Did w w' s (markSeq w.stack)) : Ready w' := by
  refine ⟨d.skip, d.quote, ?_⟩
  intro f i st e
  rw [d.stack] at e
  cases hs : w.stack with
  | nil => rw [hs] at e; cases e
  | cons c cs =>
    rw [hs] at e
    cases c with
    | seq f' i' =>
      simp only [markSeq] at e
      cases e
      exact h.top _ _ _ hs
    | struct => cases e

theorem writeText_did {w : Writer} (h : Ready w) (s : List Char) :
    Did w (w.writeText s) (sepText w.stack ++ s) (markSeq w.stack) := by
  have d := beforeValue_did h
  exact ⟨by simp [Writer.writeText, Writer.emit, d.out], d.stack, d.options, d.skip, d.quote⟩

theorem writeString_did {w : Writer} (h : Ready w) (s : List Char) :
    Did w (w.writeString s) (sepText w.stack ++ scalarText w.options false s) (markSeq w.stack) := by
  have d := beforeValue_did h
  exact ⟨by simp [Writer.writeString, Writer.writeScalarString, Writer.emit, d.out, d.options, d.quote], d.stack,
    d.options, d.skip, rfl⟩

theorem writeBytes_did {w : Writer} (h : Ready w) (bs : List UInt8) :
    Did w (w.writeBytes bs) (sepText w.stack ++ dataText w.options (.bytes bs)) (markSeq w.stack) := by
  have d := beforeValue_did h
  exact ⟨by simp [Writer.writeBytes, Writer.emit, d.out, dataText], d.stack, d.options, d.skip, d.quote⟩

theorem beginSeq_did {w : Writer} (h : Ready w) :
    Did w w.beginSeq (sepText w.stack ++ ['(']) (.seq true true :: markSeq w.stack) := by
  have d := beforeValue_did h
  exact ⟨by simp [Writer.beginSeq, Writer.emit, d.out], by simp [Writer.beginSeq, Writer.emit, d.stack], d.options,
    d.skip, d.quote⟩

theorem endSeq_did {w : Writer} {first : Bool} {st : List Ctx} (h : Ready w) (hs : w.stack = .seq first true :: st) :
    w.endSeq.1 = true ∧ Did w w.endSeq.2 [')'] st := by
  unfold Writer.endSeq
  rw [hs]
  simp only [Bool.not_true, Bool.and_false, Bool.false_and, Bool.false_eq_true, if_false]
  exact ⟨trivial, ⟨by simp [Writer.emit], rfl, rfl, h.skip, h.quote⟩⟩

theorem beginStruct_did {w : Writer} (h : Ready w) :
    ∃ op, Did w (w.beginStruct false false) (sepText w.stack ++ ['{'])
      (.struct true false false true [] op :: markSeq w.stack) := by
  have d := beforeValue_did h
  exact ⟨_, by simp [Writer.beginStruct, Writer.emit, d.out], by simp [Writer.beginStruct, Writer.emit, d.stack]; rfl,
    d.options, d.skip, d.quote⟩

theorem endStruct_did {w : Writer} {first : Bool} {c : List Nat} {op : Option Nat} {st : List Ctx} (h : Ready w)
    (hs : w.stack = .struct first false false true c op :: st) :
    w.endStruct.1 = true ∧ Did w w.endStruct.2 ['}'] st := by
  unfold Writer.endStruct
  rw [hs]
  simp only [Bool.not_true, Bool.and_false, Bool.false_and, Bool.false_eq_true, if_false, Bool.or_self]
  exact ⟨trivial, ⟨by simp [Writer.emit], rfl, rfl, h.skip, h.quote⟩⟩

theorem fieldKey_did {w : Writer} {first : Bool} {c : List Nat} {op : Option Nat} {st : List Ctx} (h : Ready w)
    (hs : w.stack = .struct first false false true c op :: st) (k : List Char) :
    (w.fieldKey k).1 = true ∧ ∃ c', Did w (w.fieldKey k).2 ((if first then [] else [',', ' ']) ++ (keyText k ++ [' ']))
      (.struct false false false true c' op :: st) := by
  unfold Writer.fieldKey Writer.fieldKeyRaw
  rw [hs]
  cases first
  · exact ⟨rfl, _, by simp [Writer.emit], rfl, rfl, h.skip, h.quote⟩
  · simp only [Bool.not_true, Bool.false_eq_true, if_false, Bool.not_false, Bool.true_and, Bool.and_self, Bool.true_or]
    refine ⟨trivial, c, ?_, ?_, ?_, ?_, ?_⟩ <;> simp [Writer.emit, hs, h.skip, h.quote]

theorem fieldKey_root {w : Writer} {first : Bool} {c : List Nat} {op : Option Nat} (h : Ready w)
    (hs : w.stack = [.struct first true false false c op]) (k : List Char) :
    (w.fieldKey k).1 = true ∧ Did w (w.fieldKey k).2 ((if first then [] else ['\n', '\n']) ++ (keyText k ++ [' ']))
      [.struct false true false false c op] := by
  unfold Writer.fieldKey Writer.fieldKeyRaw
  rw [hs]
  cases first
  · simp only [Bool.not_false, if_true, Bool.not_true, Bool.and_false, Bool.false_eq_true, if_false,
      newlineIndent_eq, Writer.emit, Writer.indentDepth, hs]
    refine ⟨trivial, ?_, ?_, ?_, ?_, ?_⟩ <;> simp [indentText, h.skip, h.quote, Ctx.indents]
  · simp only [Bool.not_true, Bool.false_eq_true, if_false, Bool.false_and]
    refine ⟨trivial, ?_, ?_, ?_, ?_, ?_⟩ <;> simp [Writer.emit, hs, h.skip, h.quote]

theorem endStruct_root {w : Writer} {first : Bool} {c : List Nat} {op : Option Nat} (h : Ready w)
    (hs : w.stack = [.struct first true false false c op]) :
    w.endStruct.1 = true ∧ Did w w.endStruct.2 (if first then [] else ['\n']) [] := by
  unfold Writer.endStruct
  rw [hs]
  cases first <;> exact ⟨rfl, by simp [Writer.emit], rfl, rfl, h.skip, h.quote⟩

theorem ready_struct {w : Writer} {s : List Char} {w' : Writer} {f r m i : Bool} {c : List Nat} {op : Option Nat}
    {st : List Ctx} (d : Did w w' s (.struct f r m i c op :: st)) : Ready w' :=
  ⟨d.skip, d.quote, fun _ _ _ e => by rw [d.stack] at e; cases e⟩

mutual
theorem ser_did (o : FormatOptions) : ∀ (d : Data) (w : Writer), Survives o d → Ready w → w.options = o →
    ∃ w', ser false d w = some w' ∧ Did w w' (sepText w.stack ++ dataText o d) (markSeq w.stack)
  | .unit, w, _, h, ho => ⟨_, rfl, writeText_did h _⟩
  | .bool b, w, _, h, ho => ⟨_, rfl, writeText_did h _⟩
  | .int n, w, _, h, ho => ⟨_, rfl, writeText_did h _⟩
  | .char c, w, _, h, ho => ⟨_, rfl, by subst ho; exact writeString_did h _⟩
  | .str s, w, _, h, ho => ⟨_, rfl, by subst ho; exact writeString_did h _⟩
  | .bytes bs, w, _, h, ho => ⟨_, rfl, by subst ho; exact writeBytes_did h _⟩
  | .none, w, _, h, ho => ⟨_, rfl, writeText_did h _⟩
  | .some d, w, hd, h, ho => by
    rw [ser, dataText]
    exact ser_did o d w hd.1 h ho
  | .seq ds, w, hd, h, ho => by
    have d1 := beginSeq_did h
    obtain ⟨w', e, d2⟩ := serItems_did o ds w.beginSeq true (markSeq w.stack) hd
      ⟨d1.skip, d1.quote, fun _ _ _ e => by rw [d1.stack] at e; cases e; rfl⟩ d1.stack (d1.options.trans ho)
    exact ⟨w', e, by rw [d2.out, d1.out]; simp [dataText], d2.stack, d2.options.trans d1.options, d2.skip, d2.quote⟩
  | .fields fs, w, hd, h, ho => by
    obtain ⟨op, d1⟩ := beginStruct_did h
    obtain ⟨w', e, d2⟩ := serFields_did o fs (w.beginStruct false false) true [] op (markSeq w.stack) hd
      (ready_struct d1) d1.stack (d1.options.trans ho)
    exact ⟨w', e, by rw [d2.out, d1.out]; simp [dataText], d2.stack, d2.options.trans d1.options, d2.skip, d2.quote⟩
  | .unitVariant _, w, hd, _, _ => hd.elim
  | .newtypeVariant _ _, w, hd, _, _ => hd.elim
  | .tupleVariant _ _, w, hd, _, _ => hd.elim
  | .structVariant _ _, w, hd, _, _ => hd.elim
theorem serItems_did (o : FormatOptions) : ∀ (ds : List Data) (w : Writer) (first : Bool) (st : List Ctx),
    SurviveAll o ds → Ready w → w.stack = .seq first true :: st → w.options = o →
    ∃ w', serItems ds w = some w' ∧ Did w w' (itemsText o first ds) st
  | [], w, first, st, _, h, hs, _ => by
    obtain ⟨h1, h2⟩ := endSeq_did h hs
    exact ⟨_, by rw [serItems, if_pos h1], h2⟩
  | d :: ds, w, first, st, hd, h, hs, ho => by
    obtain ⟨w1, e1, d1⟩ := ser_did o d w hd.1 h ho
    have hs1 : w1.stack = .seq false true :: st := by rw [d1.stack, hs]; rfl
    obtain ⟨w2, e2, d2⟩ := serItems_did o ds w1 false st hd.2 (markSeq_ready h d1) hs1 (d1.options.trans ho)
    refine ⟨w2, by rw [serItems, e1]; exact e2, ?_, d2.stack, d2.options.trans d1.options, d2.skip, d2.quote⟩
    rw [d2.out, d1.out, itemsText, hs]
    cases first <;> simp [sepText]
theorem serFields_did (o : FormatOptions) : ∀ (fs : List Field) (w : Writer) (first : Bool) (c : List Nat)
    (op : Option Nat) (st : List Ctx),
    SurviveFields o fs → Ready w → w.stack = .struct first false false true c op :: st → w.options = o →
    ∃ w', serFields fs w = some w' ∧ Did w w' (fieldsText o first fs) st
  | [], w, first, c, op, st, _, h, hs, _ => by
    obtain ⟨h1, h2⟩ := endStruct_did h hs
    exact ⟨_, by rw [serFields, if_pos h1], h2⟩
  | .mk k d :: fs, w, first, c, op, st, hd, h, hs, ho => by
    obtain ⟨h1, c', d0⟩ := fieldKey_did h hs k
    obtain ⟨w1, e1, d1⟩ := ser_did o d _ hd.2.1 (ready_struct d0) (d0.options.trans ho)
    have hs1 : w1.stack = .struct false false false true c' op :: st := by rw [d1.stack, d0.stack]; rfl
    obtain ⟨w2, e2, d2⟩ := serFields_did o fs w1 false c' op st hd.2.2
      (markSeq_ready (ready_struct d0) d1) hs1 (d1.options.trans (d0.options.trans ho))
    refine ⟨w2, by rw [serFields, if_pos h1, e1]; exact e2, ?_, d2.stack,
      d2.options.trans (d1.options.trans d0.options), d2.skip, d2.quote⟩
    rw [d2.out, d1.out, d0.out, d0.stack, fieldsText]
    cases first <;> simp [sepText]
end

theorem serFields_root (o : FormatOptions) : ∀ (fs : List Field) (w : Writer) (first : Bool) (c : List Nat)
    (op : Option Nat),
    SurviveFields o fs → Ready w → w.stack = [.struct first true false false c op] → w.options = o →
    ∃ w', serFields fs w = some w' ∧ w'.out = w.out ++ rootFieldsText o first fs
  | [], w, first, c, op, _, h, hs, _ => by
    obtain ⟨h1, h2⟩ := endStruct_root h hs
    exact ⟨_, by rw [serFields, if_pos h1], h2.out⟩
  | .mk k d :: fs, w, first, c, op, hd, h, hs, ho => by
    obtain ⟨h1, d0⟩ := fieldKey_root h hs k
    obtain ⟨w1, e1, d1⟩ := ser_did o d _ hd.2.1 (ready_struct d0) (d0.options.trans ho)
    have hs1 : w1.stack = [.struct false true false false c op] := by rw [d1.stack, d0.stack]; rfl
    obtain ⟨w2, e2, d2⟩ := serFields_root o fs w1 false c op hd.2.2
      (markSeq_ready (ready_struct d0) d1) hs1 (d1.options.trans (d0.options.trans ho))
    refine ⟨w2, by rw [serFields, if_pos h1, e1]; exact e2, ?_⟩
    rw [d2, d1.out, d0.out, d0.stack, rootFieldsText]
    cases first <;> simp [sepText]

theorem ser_root (o : FormatOptions) : ∀ (d : Data), Survives o d → toStyx o d = some (rootText o d)
  | .some d, h => by
    have := ser_root o d h.1
    simpa [toStyx, ser, rootText] using this
  | .fields fs, h => by
    obtain ⟨w', e, d⟩ := serFields_root o fs ((Writer.mk [] [] o false false false).beginStruct true false) true [] none h
      ⟨rfl, rfl, fun _ _ _ e => by cases e⟩ rfl rfl
    rw [toStyx, ser, e]
    simp [d, rootText, Writer.beginStruct, Writer.beforeValue]
  | .unit, h | .bool _, h | .int _, h | .char _, h | .str _, h | .bytes _, h | .none, h | .seq _, h => by
    obtain ⟨w', e, d⟩ := ser_did o _ (Writer.mk [] [] o false false false) h ⟨rfl, rfl, fun _ _ _ e => by cases e⟩ rfl
    simp only [toStyx, ser] at e ⊢
    rw [e]
    simp [d.out, rootText, sepText]
  | .unitVariant _, h | .newtypeVariant _ _, h | .tupleVariant _ _, h | .structVariant _ _, h => h.elim

theorem ser_compact (d : Data) (h : Survives { forceStyle := .inline } d) :
    toCompact d = some (dataText { forceStyle := .inline } d) := by
  obtain ⟨w', e, d⟩ := ser_did _ d (Writer.mk [] [] _ false false false) h ⟨rfl, rfl, fun _ _ _ e => by cases e⟩ rfl
  rw [toCompact, e]
  simp [d.out, sepText]

end Styx.Serde
