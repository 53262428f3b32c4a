import Verif.FacetSer.Lemmas
import Verif.Props.Expr
import Verif.Props.Format

/-! # Property theorems C67

What `facet_styx::to_string` and `to_string_compact` write is read back as the value that was serialized. -/

namespace Styx.Props

open Styx Styx.Spec Styx.Facet Styx.FacetSer

/-- **C67** for documents.  Full statement: for every value, serializing it and parsing the text gives the tree of the
value.  That is false (`C67_false`, `C67_false_number`, …).  Proved: for all options with blank indentation and all
calls of `MakesDocument` serialization succeeds without panic, and the text is parsed to the tree of the value, up to
spans and the forms of scalars, with the doc comments. -/
theorem C67_document_partial {o : FormatOptions} {es : List Entry} {cs : List FacetSer.Call} (h : MakesDocument o es cs) :
    ∃ text t, FacetSer.toString o cs = some text ∧ parseTree text = some (.ok t) ∧
      forget t = forget (.mk none (some (.object es none)) none) := by
  obtain ⟨text, es', h1, h2, h3, h4⟩ := document_text h
  have hc : Consistent (callsOf es') := by
    refine consistent_names (ns := es.map fun e => keyName (entryKey e)) ?_ h.2.2.1
    rw [List.map_map, callsOf, List.map_map]
    exact h4
  obtain ⟨t, h5, h6⟩ := C47_document h2 hc
  refine ⟨text, t, h1, h5, ?_⟩
  rw [← forget_erase_mutual.1 t, h6]
  simp [forget, h3]

theorem isSchema_forget {k v : Value} {d : Option (List Char)} :
    isSchema (.mk (forget k) (forget v) d) = isSchema (.mk k v d) := by
  obtain ⟨t, p, s⟩ := k
  cases t <;> rcases p with _ | (_ | _ | _) <;> rfl

theorem forgetEntries_filter (es : List Entry) :
    forgetEntries (es.filter fun e => !isSchema e) = (forgetEntries es).filter fun e => !isSchema e := by
  induction es with
  | nil => rfl
  | cons e es ih =>
    obtain ⟨k, v, d⟩ := e
    simp only [forgetEntries, List.filter_cons, isSchema_forget]
    split
    · simp [forgetEntries, ih]
    · exact ih

theorem forgetEntries_nil {es : List Entry} (h : forgetEntries es = []) : es = [] := by
  cases es with
  | nil => rfl
  | cons e es => cases e; simp [forgetEntries] at h

/-- **C67** for documents that are read back with `facet_styx::from_str`: the parser gives no error, and its events
describe the object that was serialized, without `@schema` entries; or the object was empty and there are no events. -/
theorem C67_facet_partial {o : FormatOptions} {es : List Entry} {cs : List FacetSer.Call} (h : MakesDocument o es cs)
    (floatOk : List Char → Bool) :
    ∃ text fs, FacetSer.toString o cs = some text ∧ facetEvents ⟨text, floatOk⟩ = some (.ok fs) ∧
      ((∃ es', Describes (fkinds fs) (.mk none (some (.object es' none)) none) ∧
          forgetEntries es' = forgetEntries (es.filter fun e => !isSchema e)) ∨
        fs = [] ∧ es = []) := by
  obtain ⟨text, t, h1, h2, h3⟩ := C67_document_partial h
  obtain ⟨es0, sp, sp', rfl, h4⟩ : ∃ es0 sp sp', t = .mk none (some (.object es0 sp)) sp' ∧
      forgetEntries es0 = forgetEntries es := by
    obtain ⟨tag, p, sp'⟩ := t
    rcases p with _ | ⟨_ | _ | ⟨es0, sp⟩⟩ <;> simp only [forget, Value.mk.injEq, Option.some.injEq, reduceCtorEq,
      Payload.object.injEq, and_false, and_true] at h3
    cases tag with
    | some _ => simp at h3
    | none => exact ⟨es0, sp, sp', rfl, h3.2⟩
  obtain ⟨fs, g1, g2⟩ := C57_tree_partial ⟨text, floatOk⟩ es0 sp sp' h2
  refine ⟨text, fs, h1, g1, ?_⟩
  rcases g2 with g2 | ⟨g2, g3⟩
  · refine .inl ⟨_, g2, ?_⟩
    rw [forgetEntries_filter, forget_erase_mutual.2.2, h4, forgetEntries_filter]
  · refine .inr ⟨g2, forgetEntries_nil ?_⟩
    rw [← h4, g3]; rfl

/-- **C67** for `to_string_compact` and `from_str_expr`: with the calls of `Makes` (without `emit_field_key`, which the
compact serializer does not override) serialization succeeds without panic, and reading the text as an expression
gives events that describe the value. -/
theorem C67_compact_partial {v : Value} {cs : List FacetSer.Call} (h : Makes { forceStyle := .inline } false false v cs)
    (_ : ∀ t n d, FacetSer.Call.emitKey t n d ∉ cs)
    (floatOk : List Char → Bool) :
    ∃ text fs v', FacetSer.toCompact cs = some text ∧ facetExprEvents ⟨text, floatOk⟩ = some (.ok fs) ∧
      Describes (fkinds fs) v' ∧ forget v' = forget v := by
  obtain ⟨t, e, v', h1, h2, h3, h4⟩ := compact_text h
  obtain ⟨fs, h5, h6⟩ := C57_expression ⟨t, floatOk⟩ (g := []) (rest := []) .nil h2 h4 (by simp)
  exact ⟨t, fs, v', h1, h5, h6, h3⟩

/-! ## Examples -/

/-- A document with doc comments, all kinds of scalars, nested structs, sequences and tags. -/
def sampleFields : List Entry :=
  [.mk (scalarValue (chars! "name") .bare) (scalarValue (chars! "a b") .bare) (some (chars! "The name.\nTwo lines.")),
   .mk (scalarValue (chars! "o") .bare) (.mk none (some (.object
      [.mk (scalarValue (chars! "x.y") .bare) (scalarValue (chars! "1") .bare) none,
       .mk (.mk (some ⟨chars! "t", none⟩) none none) (.mk none (some (.sequence
          [scalarValue (chars! "00ff") .bare,
            .mk (some ⟨chars! "tag", none⟩) (some (.scalar (chars! "z") .bare none)) none] none)) none) none] none))
      none) none,
   .mk (scalarValue (chars! "text") .bare) (scalarValue (chars! "l1\nl2\nl3\n") .bare) none,
   .mk (.mk (some ⟨chars! "u", none⟩) none none) (.mk (some ⟨chars! "u", none⟩) none none) none]

/-- The calls for the inner struct. -/
def sampleInner : List FacetSer.Call :=
  [.beginStruct, .fieldKey (chars! "x.y"), .scalar (.text (chars! "1")), .emitKey (some (chars! "t")) none [], .beginSeq,
    .scalar (.bytes [0, 255]), .variantTag (chars! "tag"), .scalar (.str (chars! "z")), .endSeq, .endStruct]

/-- The calls for the document. -/
def sampleCalls : List FacetSer.Call :=
  [.beginStruct, .docKey [chars! "The name.", chars! "Two lines."] (chars! "name"), .scalar (.str (chars! "a b")),
    .fieldKey (chars! "o")] ++ sampleInner ++
  [.fieldKey (chars! "text"), .scalar (.str (chars! "l1\nl2\nl3\n")), .emitKey (some (chars! "u")) none [],
    .variantTag (chars! "u"), .finishTag, .endStruct]

/-- The hypotheses of `C67_document_partial` are met. -/
theorem sample_makes : MakesDocument {} sampleFields sampleCalls := by
  have hd : ∃ d ∈ heredocDelimiters, ¬ d <:+: (chars! "l1\nl2\nl3\n") := by
    refine ⟨chars! "TEXT", by simp [heredocDelimiters], ?_⟩
    rw [← contains_iff]; decide
  refine ⟨by decide, ⟨sampleCalls.tail.dropLast, ?_, rfl⟩, by decide, ?_⟩
  · refine .cons (doc := [chars! "The name.", chars! "Two lines."]) (cs := [_]) (.doc (by decide) (by decide))
      (fun _ => ⟨by decide, by decide, by decide⟩) (.str ⟨by decide, .inl (by decide)⟩) ?_
    refine .cons (doc := []) (cs := sampleInner) (.field (by decide)) (by simp) ?_ ?_
    · refine .struct (cs := _ :: ([_] ++ (_ :: ((.beginSeq :: ([_] ++ ([_, _] ++ []) ++ [.endSeq])) ++ [])))) ?_ ?_
      · refine .cons (.field (by decide)) (.text (bareText_of_ok rfl)) (.cons (.tag tagName_t) (.seq ?_) .nil)
        exact .cons (.bytes (bs := [0, 255])) (.cons (.tagStr tagName_tag ⟨by decide, by decide⟩) .nil)
      · simp [DistinctKeys, keyId, entryKey, scalarValue]
    · refine .cons (doc := []) (cs := [_]) (.field (by decide)) (by simp) (.str ⟨by decide, .inr ⟨rfl, by decide, hd⟩⟩) ?_
      exact .cons (doc := []) (cs := [_, _]) (.tag tagName_u) (by simp) (.tag tagName_u (.inl rfl)) .nil
  · intro s k sp sp' v d h hb
    simp only [sampleFields, scalarValue, List.mem_cons, Entry.mk.injEq, Value.mk.injEq, List.not_mem_nil, or_false] at h
    rcases h with ⟨⟨-, h, -⟩, -⟩ | ⟨⟨-, h, -⟩, -⟩ | ⟨⟨-, h, -⟩, -⟩ | ⟨⟨-, h, -⟩, -⟩ <;> cases h <;> decide

/-- The text of the document. -/
example : FacetSer.toString {} sampleCalls = some (chars!
    "/// The name.\n/// Two lines.\nname \"a b\"\n\no {x.y 1, @t (\"00ff\" @tag\"z\")}\n\ntext <<TEXT\nl1\nl2\nl3\nTEXT\n\n@u @u\n") := by
  decide +kernel

/-- The hypotheses of `C67_compact_partial` are met. -/
example : ∃ text fs v', FacetSer.toCompact (sampleInner.map fun c => if c = .emitKey (some (chars! "t")) none [] then
      .fieldKey (chars! "t u") else c) = some text ∧ facetExprEvents ⟨text, fun _ => false⟩ = some (.ok fs) ∧
      Describes (fkinds fs) v' ∧ forget v' = forget (.mk none (some (.object
      [.mk (scalarValue (chars! "x.y") .bare) (scalarValue (chars! "1") .bare) none,
       .mk (scalarValue (chars! "t u") .bare) (.mk none (some (.sequence
          [scalarValue (chars! "00ff") .bare,
            .mk (some ⟨chars! "tag", none⟩) (some (.scalar (chars! "z") .bare none)) none] none)) none) none] none))
      none) := by
  refine C67_compact_partial ?_ (by simp [sampleInner]) _
  refine .struct (cs := _ :: ([_] ++ (_ :: ((.beginSeq :: ([_] ++ ([_, _] ++ []) ++ [.endSeq])) ++ [])))) ?_ ?_
  · refine .cons (.field (by decide)) (.text (bareText_of_ok rfl)) (.cons (.field (by decide)) (.seq ?_) .nil)
    exact .cons (.bytes (bs := [0, 255])) (.cons (.tagStr tagName_tag ⟨by decide, by decide⟩) .nil)
  · simp [DistinctKeys, keyId, entryKey, scalarValue]

/-! ## What is not read back -/

/-- What is written for the struct `{k …}` with the calls for the value of `k`. -/
def fieldText (cs : List FacetSer.Call) : Option (List Char) :=
  FacetSer.toString {} ([.beginStruct, .fieldKey ['k']] ++ cs ++ [.endStruct])

/-- What `facet_styx` reads: the events, or `none` for an error. -/
def facetReads (s : List Char) : Option (List FKind) :=
  match facetEvents ⟨s, fun _ => false⟩ with
  | some (.ok fs) => some (fkinds fs)
  | _ => none

/-- **C67** is false: the variant `error` with the string `boom` is written as `@error"boom"` and read back as the
variant `erro` with that string. -/
theorem C67_false :
    fieldText [.variantTag (chars! "error"), .scalar (.str (chars! "boom"))] = some (chars! "k @error\"boom\"\n") ∧
    facetReads (chars! "k @error\"boom\"\n") = some [.structStart, .key none (some ['k']) [],
      .variantTag (some (chars! "erro")), .scalar (.str (chars! "boom")), .structEnd] := by
  decide +kernel

/-- **C67** is false: the variant `size` with the number 5 is written as `@size5` and read back as the variant `size5`
with a unit. -/
theorem C67_false_number :
    fieldText [.variantTag (chars! "size"), .scalar (.text (chars! "5"))] = some (chars! "k @size5\n") ∧
    facetReads (chars! "k @size5\n") = some [.structStart, .key none (some ['k']) [],
      .variantTag (some (chars! "size5")), .scalar .unit, .structEnd] := by
  decide +kernel

/-- **C67** is false: a variant whose payload begins with `begin_struct` is read back as two items of the sequence. -/
theorem C67_false_items :
    fieldText [.beginSeq, .variantTag (chars! "t"), .beginStruct, .endStruct, .endSeq] = some (chars! "k (@t {})\n") ∧
    facetReads (chars! "k (@t {})\n") = some [.structStart, .key none (some ['k']) [], .seqStart,
      .variantTag (some (chars! "t")), .scalar .unit, .structStart, .structEnd, .seqEnd, .structEnd] := by
  decide +kernel

/-- **C67** is false: the string `a>b` is read back as a struct. -/
theorem C67_false_string :
    fieldText [.scalar (.str (chars! "a>b"))] = some (chars! "k a>b\n") ∧
    facetReads (chars! "k a>b\n") = some [.structStart, .key none (some ['k']) [], .structStart,
      .key none (some ['a']) [], .scalar (.str ['b']), .structEnd, .structEnd] := by
  decide +kernel

/-- **C67** is false: a string of several lines gets a line break at its end. -/
theorem C67_false_line :
    fieldText [.scalar (.str (chars! "a\nb\nc"))] = some (chars! "k <<TEXT\na\nb\nc\nTEXT\n") ∧
    facetReads (chars! "k <<TEXT\na\nb\nc\nTEXT\n") = some [.structStart, .key none (some ['k']) [],
      .scalar (.str (chars! "a\nb\nc\n")), .structEnd] := by
  decide +kernel

/-- **C67** is false: with a string of several lines in a sequence the text cannot be read back. -/
theorem C67_false_heredoc :
    fieldText [.beginSeq, .scalar (.str (chars! "a\nb\nc\n")), .endSeq] =
      some (chars! "k (<<TEXT\na\nb\nc\nTEXT)\n") ∧
    facetReads (chars! "k (<<TEXT\na\nb\nc\nTEXT)\n") = none := by
  decide +kernel

/-- **C67** is false: a key of a map with a dot is read back as two keys. -/
theorem C67_false_dotted :
    FacetSer.toString {} [.beginStruct, .fieldKey (chars! "a.b"), .scalar (.text ['1']), .endStruct] =
      some (chars! "a.b 1\n") ∧
    facetReads (chars! "a.b 1\n") = some [.structStart, .key none (some ['a']) [], .structStart,
      .key none (some ['b']) [], .scalar (.str ['1']), .structEnd, .structEnd] := by
  decide +kernel

/-- **C67** is false: the name of a key with a tag is not escaped. -/
theorem C67_false_key :
    FacetSer.toString {} [.beginStruct, .emitKey (some ['t']) (some (chars! "a\"b")) [], .scalar (.text ['1']),
      .endStruct] = some (chars! "@t\"a\"b\" 1\n") ∧
    facetReads (chars! "@t\"a\"b\" 1\n") = none := by
  decide +kernel

/-- **C67** is false: a value that is not a struct is read back as a struct, or not at all. -/
theorem C67_false_root :
    FacetSer.toString {} [.scalar (.str (chars! "hello"))] = some (chars! "hello\n") ∧
    facetReads (chars! "hello\n") = some [.structStart, .key none (some (chars! "hello")) [], .scalar .unit,
      .structEnd] ∧
    FacetSer.toString {} [.beginSeq, .scalar (.text ['1']), .endSeq] = some (chars! "(1)\n") ∧
    facetReads (chars! "(1)\n") = none := by
  decide +kernel

end Styx.Props
