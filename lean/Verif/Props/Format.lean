import Verif.Format.WriterLemmas
import Verif.Props.Text

/-! # Property theorems C24, C25 and C48: writing

`Verif.Format.PrintSpec` (which trees are written faithfully) and `Verif.Format.WriterSpec` (which calls fail)
are the specifications. -/

namespace Styx.Props

open Styx Styx.Spec

/-! ## C24 -/

theorem forget_erase_mutual :
    (∀ v : Value, forget (erase v) = forget v) ∧ (∀ vs : List Value, forgetAll (eraseAll vs) = forgetAll vs) ∧
    ∀ es : List Entry, forgetEntries (eraseEntries es) = forgetEntries es := by
  refine ⟨fun v => hv v, fun vs => hvs vs, fun es => hes es⟩
where
  hv : ∀ v : Value, forget (erase v) = forget v
    | .mk t none s => by cases t <;> rfl
    | .mk t (some (.scalar x k sp)) s => by cases t <;> rfl
    | .mk t (some (.sequence vs sp)) s => by
      have := hvs vs
      cases t <;> simp [erase, erasePayload, forget, this]
    | .mk t (some (.object es sp)) s => by
      have := hes es
      cases t <;> simp [erase, erasePayload, forget, this]
  hvs : ∀ vs : List Value, forgetAll (eraseAll vs) = forgetAll vs
    | [] => rfl
    | v :: vs => by rw [eraseAll, forgetAll, forgetAll, hv v, hvs vs]
  hes : ∀ es : List Entry, forgetEntries (eraseEntries es) = forgetEntries es
    | [] => rfl
    | .mk k v d :: es => by rw [eraseEntries, forgetEntries, forgetEntries, hv k, hv v, hes es]

/-- Paths of one segment that differ are consistent. -/
theorem consistent_names {h : History} {ns : List (List Char)} (hp : h.map (·.1) = ns.map fun n => [n])
    (hd : ns.Pairwise (· ≠ ·)) : Consistent h := by
  rintro h1 p k h2 rfl ⟨h0, last, kind, rfl, hc⟩
  simp only [List.map_append, List.map_cons, List.append_assoc, List.cons_append,
    List.nil_append] at hp
  have hp' := hp.symm
  rw [List.map_eq_append_iff] at hp'
  obtain ⟨a, b, rfl, ha, hb⟩ := hp'
  rw [List.map_eq_cons_iff] at hb
  obtain ⟨x, b', rfl, hx, hb⟩ := hb
  rw [List.map_eq_cons_iff] at hb
  obtain ⟨y, b'', rfl, hy, hb⟩ := hb
  have hxy : x ≠ y := by
    rw [List.pairwise_append] at hd
    have := List.pairwise_cons.1 hd.2.1
    exact this.1 y (by simp)
  rw [← hx, ← hy] at hc
  rcases hc with h | ⟨h, -⟩ | ⟨pre, k', hne, h, -⟩
  · simp only [List.cons.injEq, and_true] at h; exact hxy h.symm
  · obtain ⟨r, hr⟩ := h
    simp only [List.cons_append, List.nil_append, List.cons.injEq] at hr
    exact hxy hr.1
  · have := h.length_le
    simp only [List.length_append, List.length_cons, List.length_nil] at this
    have : pre = [] := List.eq_nil_of_length_eq_zero (by omega)
    exact hne this

/-- **C24** for the trees of `PrintableRoot`: with all options whose indentation is blank, formatting as a
document does not panic, and parsing the result gives the same tree up to spans and the forms of scalars. -/
theorem C24_document_partial {o : FormatOptions} {es : List Entry} (h : PrintableRoot o es)
    (sp sp' : Option Span) :
    ∃ text t, formatDocument o (.mk none (some (.object es sp)) sp') = some text ∧
      parseTree text = some (.ok t) ∧ forget t = forget (.mk none (some (.object es sp)) sp') := by
  obtain ⟨text, es', h1, h2, h3, h4⟩ := formatDocument_text h sp sp'
  have hc : Consistent (callsOf es') := by
    refine consistent_names (ns := es.map fun e => keyName (entryKey e)) ?_ h.2.2.1
    rw [List.map_map, callsOf, List.map_map]
    exact h4
  obtain ⟨t, h5, h6⟩ := C47_document h2 hc
  refine ⟨text, t, h1, h5, ?_⟩
  rw [← forget_erase_mutual.1 t, h6]
  simp [forget, h3]

/-- **C24** for one value: with braces around it a value is written as a text of itself, at every
indentation; such a text is read back wherever it stands (C47). -/
theorem C24_braced_partial {o : FormatOptions} {es : List Entry} (ho : ∀ c ∈ o.indent, Blank c)
    (h : Printable o false (.mk none (some (.object es none)) none)) :
    ∃ text v e, formatObjectBraced o es = some text ∧ ValueText v e text ∧
      forget v = forget (.mk none (some (.object es none)) none) := by
  obtain ⟨s, e, v', h1, -, -, h4, h5, h6, -, -⟩ := formatValue_written ho false _ ({ options := o } : Writer) rfl h
    (fun _ => by simp [NoPending]) (by simp)
  have hb : ({ options := o } : Writer).beforeValue.out = [] := rfl
  rw [hb, List.nil_append] at h1
  refine ⟨s, v', e, ?_, h5, h6⟩
  unfold formatObjectBraced
  simp only [h4, h1]
  rfl

/-- A document with nested objects, sequences, tags, doc comments, a heredoc and strings that need quotes. -/
def sampleTree : List Entry :=
  [.mk (scalarValue (chars! "name") .bare) (scalarValue (chars! "a b") .bare) (some (chars! "The name.\nTwo lines.")),
   .mk (scalarValue (chars! "o") .bare) (.mk none (some (.object
      [.mk (scalarValue (chars! "x.y") .bare) (scalarValue (chars! "1") .bare) none,
       .mk (.mk (some ⟨chars! "t", none⟩) none none) (.mk none (some (.sequence
          [scalarValue (chars! "p") .bare, .mk none (some (.sequence [] none)) none,
            .mk (some ⟨chars! "tag", none⟩) (some (.object
              [.mk (.mk none none none) (scalarValue [] .quoted) none] none)) none] none)) none)
        (some (chars! "inner"))] none)) none) none,
   .mk (scalarValue (chars! "text") .bare) (scalarValue (chars! "l1\nl2\nl3\n") .heredoc) none,
   .mk (.mk none none none) (.mk (some ⟨chars! "u", none⟩) none none) none]

theorem tagName_t : TagName (chars! "t") := ⟨'t', [], rfl, by decide, by decide⟩
theorem tagName_u : TagName (chars! "u") := ⟨'u', [], rfl, by decide, by decide⟩
theorem tagName_tag : TagName (chars! "tag") := ⟨'t', _, rfl, by decide, by decide⟩

/-- The hypotheses of C24 are met by that document. -/
example : PrintableRoot {} sampleTree := by
  have hd : ∃ d ∈ heredocDelimiters, ¬ d <:+: (chars! "l1\nl2\nl3\n") := by
    refine ⟨chars! "TEXT", by simp [heredocDelimiters], ?_⟩
    rw [← contains_iff]; decide
  refine ⟨by decide, ?_, by decide, ?_⟩
  · have hlast : (chars! "l1\nl2\nl3\n").getLast? = some '\n' := by decide
    simp only [sampleTree, PrintableEntries, Printable, PrintableKey, PrintableItems, scalarValue, PlainString,
      PlainDoc, DistinctKeys]
    refine ⟨by decide, by decide, ?_, by decide, ⟨by simp, by decide, by decide, by decide, by simp, tagName_t, ?_, ?_,
      trivial⟩, by simp, by decide, ⟨by decide, .inr ⟨trivial, hlast, hd⟩⟩, by simp, trivial, tagName_u, by simp, trivial⟩
    · rintro d' h; cases h; exact ⟨⟨by decide, by decide, by decide⟩, by simp⟩
    · refine ⟨by simp, by decide, by simp [Value.payload], by simp [Value.payload], by simp, by simp [Value.payload],
        by simp [Value.payload], ?_, by simp [Value.tag], by simp, trivial⟩
      refine ⟨?_, by simp, trivial, by decide, by simp, trivial⟩
      rintro t' h; cases h; exact tagName_tag
    · rintro d' h; cases h; exact ⟨⟨by decide, by decide, by decide⟩, by decide⟩
  · intro s k sp sp' v d h hb
    simp only [sampleTree, scalarValue, List.mem_cons, Entry.mk.injEq, Value.mk.injEq, List.not_mem_nil, or_false] at h
    rcases h with ⟨⟨-, h, -⟩, -⟩ | ⟨⟨-, h, -⟩, -⟩ | ⟨⟨-, h, -⟩, -⟩ | ⟨⟨-, h, -⟩, -⟩ <;> cases h <;> decide

/-- What comes back when a tree is formatted and parsed, up to spans and the forms of scalars. -/
def roundTrip (v : Value) : Option Value :=
  (formatDocument {} v).bind fun text =>
    match parseTree text with
    | some (.ok t) => some (forget t)
    | _ => none

/-- A document with one entry. -/
def entryDoc (k v : Value) (d : Option (List Char)) : Value := .mk none (some (.object [.mk k v d] none)) none

/-- The round trip gives a tree, but another one. -/
def comesBackDifferent (v : Value) : Bool :=
  match roundTrip v with
  | some t => !sameValue t (forget v)
  | none => false

/-- A tree for which `comesBackDifferent` holds comes back as another tree. -/
theorem comesBackDifferent_spec {v : Value} (h : comesBackDifferent v = true) :
    ∃ t, roundTrip v = some t ∧ t ≠ forget v := by
  unfold comesBackDifferent at h
  split at h
  · rename_i t ht
    exact ⟨t, ht, ne_of_sameValue (by simpa using h)⟩
  · cases h

/-- **C24** is false: two tags without payload in a sequence are joined, and the second one is lost. -/
theorem C24_false_tags :
    let seq2 := Value.mk none (some (.sequence [.mk (some ⟨['a'], none⟩) none none,
      .mk (some ⟨['b'], none⟩) none none] none)) none
    let seq1 := Value.mk none (some (.sequence [.mk (some ⟨['a'], none⟩) none none] none)) none
    formatDocument {} (entryDoc (scalarValue ['k'] .bare) seq2 none) = some (chars! "k (@a@b)\n") ∧
    comesBackDifferent (entryDoc (scalarValue ['k'] .bare) seq2 none) = true ∧
    (roundTrip (entryDoc (scalarValue ['k'] .bare) seq2 none)).map
      (sameValue (forget (entryDoc (scalarValue ['k'] .bare) seq1 none))) = some true := by
  decide +kernel

/-- **C24** is false: a unit in a sequence is joined with the word before it. -/
theorem C24_false_unit :
    comesBackDifferent (entryDoc (scalarValue ['k'] .bare)
      (.mk none (some (.sequence [scalarValue ['a'] .bare, .mk none none none] none)) none) none) = true := by
  decide +kernel

/-- **C24** is false: a scalar after a tag comes back as a sequence. -/
theorem C24_false_tagged_scalar :
    comesBackDifferent (entryDoc (scalarValue ['k'] .bare)
      (.mk (some ⟨['t'], none⟩) (some (.scalar ['x'] .bare none)) none) none) = true := by
  decide +kernel

/-- **C24** is false: a key with tag and bare scalar comes back as another tag. -/
theorem C24_false_tagged_key :
    comesBackDifferent (entryDoc (.mk (some ⟨['t'], none⟩) (some (.scalar ['x'] .bare none)) none)
      (scalarValue ['v'] .bare) none) = true := by
  decide +kernel

/-- **C24** is false: a key with a dot comes back as nested objects. -/
theorem C24_false_dotted :
    comesBackDifferent (entryDoc (scalarValue (chars! "a.b") .quoted) (scalarValue ['v'] .bare) none) = true := by
  decide +kernel

/-- **C24** is false: a string with `>` comes back as an object. -/
theorem C24_false_gt :
    comesBackDifferent (entryDoc (scalarValue ['k'] .bare) (scalarValue (chars! "a>b") .quoted) none) = true := by
  decide +kernel

/-- **C24** is false: a string of three lines gets a line break at its end. -/
theorem C24_false_heredoc :
    comesBackDifferent (entryDoc (scalarValue ['k'] .bare) (scalarValue (chars! "a\nb\nc") .quoted) none) = true := by
  decide +kernel

/-- **C24** is false: an empty doc comment is lost, and a line break at the end of one. -/
theorem C24_false_doc :
    comesBackDifferent (entryDoc (scalarValue ['k'] .bare) (scalarValue ['v'] .bare) (some [])) = true ∧
    comesBackDifferent (entryDoc (scalarValue ['k'] .bare) (scalarValue ['v'] .bare) (some (chars! "d\n"))) = true := by
  decide +kernel

/-- **C24** is false: a heredoc in a sequence gives a text that does not parse. -/
theorem C24_false_error :
    formatDocument {} (entryDoc (scalarValue ['k'] .bare)
      (.mk none (some (.sequence [scalarValue (chars! "a\nb\n") .quoted] none)) none) none)
        = some (chars! "k (<<TEXT\na\nb\nTEXT)\n") ∧
    (roundTrip (entryDoc (scalarValue ['k'] .bare)
      (.mk none (some (.sequence [scalarValue (chars! "a\nb\n") .quoted] none)) none) none)).isNone := by
  decide +kernel

/-- **C24** is false: a key that is an object makes the formatter panic. -/
theorem C24_false_panic :
    formatDocument {} (entryDoc (.mk none (some (.object [] none)) none) (scalarValue ['v'] .bare) none) = none := by
  decide +kernel

/-! ## C25 -/

/-- **C25** for all calls but keys with doc comments: after every history of calls, with or without errors, a
call returns an error exactly when it ends a struct or sequence that is not the innermost open one, or gives a
key outside a struct. -/
theorem C25_errors_partial (o : FormatOptions) (cs : List Call) (c : Call) (hc : c.doc = false) :
    ((({ options := o } : Writer).calls cs).call c).1 = false ↔ MustFail (opened cs) c := by
  have hk : (({ options := o } : Writer).calls cs).stack.map Ctx.kind = opened cs := calls_kinds cs _
  rw [← hk]
  cases c with
  | endStruct => exact endStruct_fails _
  | endSeq => exact endSeq_fails _
  | fieldKey k => exact fieldKeyRaw_fails _ _
  | fieldKeyRaw k => exact fieldKeyRaw_fails _ _
  | docKey d k => cases hc
  | docKeyRaw d k => cases hc
  | _ => simp [Writer.call, MustFail]

/-- **C25** is false for keys with doc comments: they return no error, wherever they are given; the text is
written all the same. -/
theorem C25_false (o : FormatOptions) :
    ∃ cs d k, MustFail (opened cs) (.docKey d k) ∧
      ((({ options := o } : Writer).calls cs).call (.docKey d k)).1 = true :=
  ⟨[], [], [], by simp [opened, MustFail], rfl⟩

/-- Histories after which the calls fail, and after which they do not. -/
example : MustFail (opened [.beginStruct false false, .fieldKey ['a'], .beginSeq]) .endStruct ∧
    MustFail (opened [.beginStruct false false, .fieldKey ['a'], .beginSeq]) (.fieldKey ['b']) ∧
    ¬ MustFail (opened [.beginStruct false false, .fieldKey ['a'], .beginSeq]) .endSeq ∧
    ¬ MustFail (opened [.beginStruct false false, .fieldKey ['a'], .beginSeq, .endSeq]) .endStruct := by
  simp [opened, openedStep, MustFail]

/-! ## C48 -/

/-- **C48** for calls without doc comment: in every state a call only adds text, and does not panic. -/
theorem C48_plain_partial (w : Writer) (c : Call) (hc : c.doc = false) :
    w.out <+: (w.call c).2.out ∧ (w.call c).2.panicked = w.panicked :=
  call_appends w c hc

/-- **C48** for histories whose structs are all multi-line or the root, unless the inline style is forced: every
further call, with a doc comment or not, only adds text and does not panic. -/
theorem C48_multiline_partial (o : FormatOptions) (ho : o.forceStyle ≠ .inline) (cs : List Call) (c : Call)
    (hcs : ∀ x ∈ cs, x.inlineStruct = false) (hc : c.inlineStruct = false) :
    (({ options := o } : Writer).calls cs).out <+: ((({ options := o } : Writer).calls cs).call c).2.out ∧
    ((({ options := o } : Writer).calls cs).call c).2.panicked = false := by
  have key : ∀ (cs : List Call) (w : Writer), (∀ x ∈ cs, x.inlineStruct = false) → (∀ c ∈ w.stack, c.calm) →
      w.options.forceStyle ≠ .inline → w.panicked = false →
      (∀ c ∈ (w.calls cs).stack, c.calm) ∧ (w.calls cs).options = w.options ∧ (w.calls cs).panicked = false := by
    intro cs
    induction cs with
    | nil => intro w _ h _ hp; exact ⟨h, rfl, hp⟩
    | cons c cs ih =>
      intro w hcs h ho hp
      obtain ⟨h1, h2, h3⟩ := call_calm h ho c (hcs c (by simp))
      have := ih (w.call c).2 (fun x hx => hcs x (by simp [hx])) h2 (by rw [h3]; exact ho) (h1.2.trans hp)
      exact ⟨this.1, this.2.1.trans h3, this.2.2⟩
  obtain ⟨h1, h2, h3⟩ := key cs { options := o } hcs (by simp) ho rfl
  obtain ⟨g1, -, -⟩ := call_calm h1 (by rw [h2]; exact ho) c hc
  exact ⟨g1.1, g1.2.trans h3⟩

/-- A history with a doc comment in a nested multi-line struct. -/
example : ∀ x ∈ [Call.beginStruct true false, .fieldKey ['a'], .beginStruct false true, .docKey ['d'] ['b'], .string ['1'],
    .endStruct, .endStruct], x.inlineStruct = false := by
  decide

/-- The calls for `a {x 1, long_name {key {k 2}}}` with a doc comment at `k`. -/
def nestedDocCalls : List Call :=
  [.beginStruct true false, .fieldKey ['a'], .beginStruct false false, .fieldKey ['x'], .string ['1'],
   .fieldKey (chars! "long_name"), .beginStruct false false, .fieldKey (chars! "key"), .beginStruct false false,
   .docKey (chars! "doc") ['k'], .string ['2'], .endStruct, .endStruct, .endStruct, .endStruct]

/-- **C48** is false: a doc comment in a struct inside a struct that is not the first field of its parent
breaks the key written before. -/
theorem C48_false :
    (({} : Writer).calls (nestedDocCalls.take 9)).out = chars! "a {x 1, long_name {key {" ∧
    (({} : Writer).calls nestedDocCalls).out = chars! "a {
    x 1
    long_nam
        e {key {
            /// doc
            k 2
        }
    }
}
" := by
  decide +kernel

/-- **C48** is false: without indentation such a doc comment can even panic. -/
theorem C48_false_panic : ∃ cs : List Call,
    (({ options := { indent := [] } } : Writer).calls cs).panicked = true :=
  ⟨[.beginStruct true false, .fieldKey ['a'], .beginStruct false false] ++
    (List.replicate 7 [Call.fieldKey ['x'], .string ['1']]).flatten ++
    [.fieldKey ['c'], .beginStruct false false, .fieldKey ['d'], .beginStruct false false,
     .docKey (chars! "doc") ['k']], by decide +kernel⟩

end Styx.Props
