import Verif.Serde.Skip

/-! # Property theorems C42, C54, C55, C56: the serde serializer and deserializer -/

namespace Styx.Props

open Styx Styx.Spec Styx.Serde

/-! ## C42 -/

/-- **C42**, for values that survive (see `Survives`): whatever the options of the serializer, what it writes is
read back as the value. -/
theorem C42_partial (o : FormatOptions) {t : Ty} {d : Data} (hw : WfTy t) (hb : BasicTy t) (h : HasTy t d)
    (hs : Survives o d) : ∃ s, toStyx o d = some s ∧ fromStyx t s = .ok d :=
  toStyx_fromStyx hw hb h hs

/-- **C42**, for the compact serializer. -/
theorem C42_compact_partial {t : Ty} {d : Data} (hw : WfTy t) (hb : BasicTy t) (h : HasTy t d)
    (hs : Survives { forceStyle := .inline } d) : ∃ s, toCompact d = some s ∧ fromStyx t s = .ok d :=
  toCompact_fromStyx hw hb h hs

/-- **C42** is false of a string with a `>`: it is written bare and read back without its end. -/
theorem C42_false_gt : ∃ d s, HasTy .str d ∧ toStyx {} d = some s ∧ ∃ d', fromStyx .str s = .ok d' ∧ d' ≠ d :=
  ⟨.str (chars! "a>b"), chars! "a>b", trivial, rfl, .str (chars! "a"), rfl, by simp⟩

/-- **C42** is false of a string of three lines: it is written as a heredoc, of which only the first line is read
back. -/
theorem C42_false_lines : ∃ d s, HasTy .str d ∧ toStyx {} d = some s ∧ ∃ d', fromStyx .str s = .ok d' ∧ d' ≠ d :=
  ⟨.str (chars! "a\nb\nc"), chars! "<<TEXT\na\nb\nc\nTEXT", trivial, rfl, .str (chars! "<<TEXT\n"), rfl, by simp⟩

/-- **C42** is false of nested options: `Some(None)` is read back as `None`. -/
theorem C42_false_option : ∃ t d s, WfTy t ∧ BasicTy t ∧ HasTy t d ∧ toStyx {} d = some s ∧
    ∃ d', fromStyx t s = .ok d' ∧ d' ≠ d :=
  ⟨.option (.option .bool), .some .none, chars! "@", by simp [WfTy], by simp [BasicTy], by simp [HasTy], rfl,
    .none, rfl, by simp⟩

/-- **C42** is false of 128-bit integers: none is read back. -/
theorem C42_false_wide (signed : Bool) (s : List Char) : fromStyx (.int signed 128) s = .err := rfl

/-- A configuration with everything in it meets the hypotheses. -/
def exampleTy : Ty :=
  .struct (.cons (chars! "name") .str (.cons (chars! "port") (.int false 16) (.cons (chars! "debug") (.option .bool)
    (.cons (chars! "tags") (.seq .str) (.cons (chars! "limits")
      (.map (.struct (.cons (chars! "low") (.int true 64) (.cons (chars! "key") .bytes .nil)))) .nil)))))

/-- A value of it. -/
def exampleData : Data :=
  .fields [.mk (chars! "name") (.str (chars! "say \"hi\"\n{é}")), .mk (chars! "port") (.int 8080),
    .mk (chars! "debug") .none, .mk (chars! "tags") (.seq [.str (chars! "a"), .str (chars! "")]),
    .mk (chars! "limits") (.fields [.mk (chars! "max size") (.fields [.mk (chars! "low") (.int (-9223372036854775808)),
      .mk (chars! "key") (.bytes [0, 255])]), .mk (chars! "b") (.fields [.mk (chars! "low") (.int 7),
      .mk (chars! "key") (.bytes [])])])]

example : WfTy exampleTy ∧ BasicTy exampleTy ∧ HasTy exampleTy exampleData ∧ Survives {} exampleData := by
  refine ⟨?_, ?_, ?_, ?_⟩
  · simp [exampleTy, WfTy, WfFields, fieldNames]
  · simp [exampleTy, BasicTy, BasicFields]
  · simp [exampleTy, exampleData, HasTy, HasFields, Field.key, Field.data]
  · simp only [exampleData, Survives, SurviveFields, SurviveAll, PlainKey, PlainString, Bool.false_eq_true, false_and, or_false]
    and_intros <;> decide +kernel

example : toStyx {} exampleData = some (chars! "name \"say \\\"hi\\\"\\n{é}\"\n\nport 8080\n\ndebug @\n\ntags (a \"\")\n\nlimits {\"max size\" {low -9223372036854775808, key \"00ff\"}, b {low 7, key \"\"}}\n") := by
  decide +kernel

/-! ## C54 -/

/-- **C54**: reading any text as any type ends, with a value or an error: it does not panic. -/
theorem C54 (t : Ty) (s : List Char) : (∃ d, fromStyx t s = .ok d) ∨ fromStyx t s = .err := fromStyx_ends t s

example : fromStyx exampleTy (chars! "name \"unclosed") = .err ∧ fromStyx (.seq .str) (chars! "(a \"b\" r\"c\"") = .err ∧
    fromStyx .bytes (chars! "zz") = .err ∧ fromStyx .str (chars! "r#\"a\"b\"#") = .ok (.str (chars! "a\"b")) :=
  ⟨rfl, rfl, rfl, rfl⟩

/-! ## C55 -/

/-- **C55**, for a tuple on its own: it is read back. -/
theorem C55_partial (o : FormatOptions) {T : Tys} {d : Data} (hw : WfTy (.tuple T)) (hb : BasicTys T)
    (h : HasTy (.tuple T) d) (hs : Survives o d) : ∃ s, toStyx o d = some s ∧ fromStyx (.tuple T) s = .ok d :=
  toStyx_tuple hw hb h hs

/-- **C55** is false of every variant without a payload, of every enum: the text that is written cannot be read. -/
theorem C55_false_unit (o : FormatOptions) {vs : Variants} {name : List Char} (h : TagName name) :
    ∃ s, toStyx o (.unitVariant name) = some s ∧ fromStyx (.enum vs) s = .err := enum_unit_fails o h

/-- **C55** is false of variants with payloads. -/
theorem C55_false_payload : ∃ (vs : Variants) (ds : List Data), ds.length = 3 ∧ ∀ d ∈ ds, HasTy (.enum vs) d ∧
    ∃ s, toStyx {} d = some s ∧ fromStyx (.enum vs) s = .err := by
  refine ⟨.cons (chars! "A") (.newtype .bool) (.cons (chars! "B") (.tuple (.cons .bool (.cons .bool .nil)))
      (.cons (chars! "C") (.struct (.cons (chars! "x") .bool .nil)) .nil)),
    [.newtypeVariant (chars! "A") (.bool true), .tupleVariant (chars! "B") [.bool true, .bool false],
      .structVariant (chars! "C") [.mk (chars! "x") (.bool true)]], rfl, ?_⟩
  simp only [List.mem_cons, List.not_mem_nil, or_false, forall_eq_or_imp, forall_eq]
  refine ⟨⟨?_, chars! "@A true", rfl, rfl⟩, ⟨?_, chars! "@B(true false)", rfl, rfl⟩, ⟨?_, chars! "@C{x true}", rfl, rfl⟩⟩ <;>
    simp [HasTy, HasVariant, HasShape, HasTys, HasFields]

/-- **C55** is false of sequences of tuples: all but the first are lost, without an error. -/
theorem C55_false_seq : ∃ t d s, WfTy t ∧ HasTy t d ∧ toStyx {} d = some s ∧ ∃ d', fromStyx t s = .ok d' ∧ d' ≠ d :=
  ⟨.seq (.tuple (.cons .bool (.cons .bool .nil))),
    .seq [.seq [.bool true, .bool false], .seq [.bool false, .bool true]], chars! "((true false) (false true))",
    by simp [WfTy, WfTys], by simp [HasTy, HasTys], rfl, .seq [.seq [.bool true, .bool false]], rfl, by simp⟩

/-- **C55** is false of a tuple in a struct: what is written cannot be read. -/
theorem C55_false_field : ∃ t d s, WfTy t ∧ HasTy t d ∧ toStyx {} d = some s ∧ fromStyx t s = .err :=
  ⟨.struct (.cons (chars! "p") (.tuple (.cons .bool (.cons .bool .nil))) .nil),
    .fields [.mk (chars! "p") (.seq [.bool true, .bool false])], chars! "p (true false)\n",
    by simp [WfTy, WfTys, WfFields, fieldNames], by simp [HasTy, HasTys, HasFields], rfl, rfl⟩

example : WfTy (.tuple (.cons .str (.cons (.seq .bool) .nil))) ∧ BasicTys (.cons .str (.cons (.seq .bool) .nil)) ∧
    HasTy (.tuple (.cons .str (.cons (.seq .bool) .nil))) (.seq [.str (chars! "a b"), .seq [.bool true]]) ∧
    Survives {} (.seq [.str (chars! "a b"), .seq [.bool true]]) := by
  refine ⟨by simp [WfTy, WfTys], by simp [BasicTys, BasicTy], by simp [HasTy, HasTys], ?_⟩
  simp only [Survives, SurviveAll, PlainString, Bool.false_eq_true, false_and, or_false]
  decide +kernel

/-! ## C56 -/

/-- **C56**, when no unknown field is written `@`: a struct is read from its fields in any order, whatever other
fields there are between them, and whether or not optional fields that are `None` are listed. -/
theorem C56_partial (o : FormatOptions) {T : Fields} {fs gs : List Field} (hw : WfTy (.struct T))
    (hb : BasicTy (.struct T)) (h : HasTy (.struct T) (.fields fs)) (hl : Listed T fs gs) (hs : SurviveFields o gs) :
    ∃ s, toStyx o (.fields gs) = some s ∧ fromStyx (.struct T) s = .ok (.fields fs) :=
  toStyx_listed hw hb h hl hs

/-- **C56**, between braces. -/
theorem C56_compact_partial {T : Fields} {fs gs : List Field} (hw : WfTy (.struct T)) (hb : BasicTy (.struct T))
    (h : HasTy (.struct T) (.fields fs)) (hl : Listed T fs gs) (hs : SurviveFields { forceStyle := .inline } gs) :
    ∃ s, toCompact (.fields gs) = some s ∧ fromStyx (.struct T) s = .ok (.fields fs) :=
  toCompact_listed hw hb h hl hs

/-- **C56** is false of an unknown field that is `None`: the field after it is skipped too, without an error. -/
theorem C56_false : ∃ T fs gs s, WfTy (.struct T) ∧ HasTy (.struct T) (.fields fs) ∧
    (gs.map Field.key).Nodup ∧ (∀ f ∈ fs, f ∈ gs) ∧ (∀ g ∈ gs, g ∈ fs ∨ g.key ∉ fieldNames T) ∧
    toStyx {} (.fields gs) = some s ∧ ∃ d, fromStyx (.struct T) s = .ok d ∧ d ≠ .fields fs := by
  refine ⟨.cons (chars! "name") (.option .str) .nil, [.mk (chars! "name") (.some (.str (chars! "hello")))],
    [.mk (chars! "extra") .none, .mk (chars! "name") (.some (.str (chars! "hello")))],
    chars! "extra @\n\nname hello\n", by simp [WfTy, WfFields, fieldNames], by simp [HasTy, HasFields],
    by simp [Field.key], by simp, by simp [fieldNames, Field.key], rfl, .fields [.mk (chars! "name") .none], rfl, by simp⟩

example : Listed (.cons (chars! "a") .bool (.cons (chars! "b") (.option .bool) (.cons (chars! "c") .bool .nil)))
    [.mk (chars! "a") (.bool true), .mk (chars! "b") .none, .mk (chars! "c") (.bool false)]
    [.mk (chars! "c") (.bool false), .mk (chars! "x") (.fields [.mk (chars! "y") (.seq [.str (chars! "}")])]),
      .mk (chars! "a") (.bool true)] := by
  simp [Listed, fieldNames, Field.key, Field.data, notUnit]

end Styx.Props
