import Verif.Lsp.SourceFieldsLemmas

/-!
# Properties: completion with a schema that cannot be read (C137)
-/

namespace Styx.Props

open Styx Styx.Spec Styx.Lsp Styx.Lsp.Spec

/-- C137, for paths through fields with types that are not modified, or only by `@optional(…)`: if the text of the
schema is a document, `v` is the value of its entry `schema` and the path leads from `v` to the type `w`, the fields
looked up are those that `w` writes, each with the text at the place the tree notes for its type (which does not
include a tag with a payload, see `C137_false_text`). -/
theorem C137_partial (source : List Char) (tree v w : Value) (path : List (List Char))
    (hp : parseTree source = some (.ok tree)) (hs : SchemaEntry tree v) (hl : Leads BelowOptional path v w) :
    ∃ fields, fieldsFromSource source path = some fields ∧
      ∀ name text, (name, text) ∈ fields ↔
        ∃ x sp raw, Writes name x w ∧ x.span = some sp ∧ Covers source sp raw ∧ text = trim raw := by
  obtain ⟨es, e, h1, h2, rfl⟩ := schemaEntry_find hs
  have hnode := node_trans (leads_node hl) (schemaEntry_node hs)
  obtain ⟨fs, h3, h4⟩ := collectWritten_spec (source := source) w (fun x sp hx hsp =>
    C72_in_source source tree sp hp ⟨x, node_trans hx hnode, .inl hsp⟩)
  exact ⟨fs, by simp only [fieldsFromSource, hp, h1, h2, followPath_leads hl, h3], h4⟩

/-- Every field that is written is found: it has a text. -/
theorem C137_names (source : List Char) (tree v w : Value) (path : List (List Char))
    (hp : parseTree source = some (.ok tree)) (hs : SchemaEntry tree v) (hl : Leads BelowOptional path v w)
    (name : List Char) :
    (∃ fields text, fieldsFromSource source path = some fields ∧ (name, text) ∈ fields) ↔ ∃ x, Writes name x w := by
  obtain ⟨fs, h1, h2⟩ := C137_partial source tree v w path hp hs hl
  constructor
  · rintro ⟨fs', text, h3, h4⟩
    rw [h1] at h3
    cases h3
    obtain ⟨x, _, _, hx, _⟩ := (h2 name text).mp h4
    exact ⟨x, hx⟩
  · rintro ⟨x, hx⟩
    have hnode := node_trans (writes_node hx) (node_trans (leads_node hl) (schemaEntry_node hs))
    have hne : x ≠ tree := by
      rintro rfl
      have hlt : ∀ {a b : Value}, Child a b → sizeOf a < sizeOf b := by
        intro a b h
        cases h with
        | item hm => have := List.sizeOf_lt_of_mem hm; simp; omega
        | key hm => have := List.sizeOf_lt_of_mem hm; simp at this ⊢; omega
        | value hm => have := List.sizeOf_lt_of_mem hm; simp at this ⊢; omega
      have hle : ∀ {a b : Value}, Node a b → sizeOf a ≤ sizeOf b := by
        intro a b h
        induction h with
        | self => exact Nat.le_refl _
        | inside hc _ ih => have := hlt hc; omega
      have h3 := hle (node_trans (writes_node hx) (leads_node hl))
      obtain ⟨t, a, k, d, b, psp, sp, rfl, _, _⟩ := hs
      have := hlt (Child.value (t := t) (psp := psp) (sp := sp) (k := k) (d := d) (x := v)
        (es := a ++ Entry.mk k v d :: b) (by simp))
      omega
    obtain ⟨⟨sp, hsp, _⟩, _⟩ := C72_noted source tree x hp hnode hne
    obtain ⟨raw, hr⟩ := C72_in_source source tree sp hp ⟨x, hnode, .inl hsp⟩
    exact ⟨fs, _, h1, (h2 name _).mpr ⟨x, sp, raw, hx, hsp, hr, rfl⟩⟩

/-- For every text and every path: if the parser does not panic, neither does the lookup, and each field that is offered is
written by some object below the entry `schema`, with the text at its place. -/
theorem C137_sound (source : List Char) (path : List (List Char)) (hp : parseTree source ≠ none) :
    ∃ fields, fieldsFromSource source path = some fields ∧ ∀ name text, (name, text) ∈ fields →
      ∃ tree k v d w x sp raw, parseTree source = some (.ok tree) ∧ (∃ es, tree.asObject = some es ∧ Entry.mk k v d ∈ es) ∧
        k.asStr = some (chars! "schema") ∧ Node w v ∧ Writes name x w ∧ x.span = some sp ∧ Covers source sp raw ∧
        text = trim raw := by
  unfold fieldsFromSource
  cases ht : parseTree source with
  | none => exact absurd ht hp
  | some r =>
    cases r with
    | error e => exact ⟨[], rfl, (nofun)⟩
    | ok tree =>
      simp only
      cases ho : tree.asObject with
      | none => exact ⟨[], rfl, (nofun)⟩
      | some es =>
        simp only
        cases hf : es.find? fun e => e.key.asStr = some (chars! "schema") with
        | none => exact ⟨[], rfl, (nofun)⟩
        | some e =>
          simp only
          obtain ⟨k, v, d⟩ := e
          have hm := List.mem_of_find?_eq_some hf
          have hk : k.asStr = some (chars! "schema") := by
            have := List.find?_some hf
            exact of_decide_eq_true this
          cases hw : followPath path v with
          | none => exact ⟨[], by simp only [Entry.value, hw], (nofun)⟩
          | some w =>
            have hn := followPath_node path v w hw
            have hv : Node v tree := by
              obtain ⟨t, p, sp⟩ := tree
              cases p with
              | none => simp [Value.asObject] at ho
              | some p =>
                cases p with
                | object es' psp =>
                  have : es' = es := by simpa [Value.asObject] using ho
                  subst this
                  exact .inside (.value hm) .self
                | _ => simp [Value.asObject] at ho
            obtain ⟨fs, h1, h2⟩ := collectWritten_spec (source := source) w (fun x sp hx hsp =>
              C72_in_source source tree sp ht ⟨x, node_trans hx (node_trans hn hv), .inl hsp⟩)
            refine ⟨fs, by simp only [Entry.value, hw, h1], fun name text hx => ?_⟩
            obtain ⟨x, sp, raw, g1, g2, g3, g4⟩ := (h2 name text).mp hx
            exact ⟨tree, k, v, d, w, x, sp, raw, rfl, ⟨es, ho, hm⟩, hk, hn, g1, g2, g3, g4⟩

/-- `b @int` as it is at byte `n` of a text. -/
def fieldB (n : Nat) : Entry :=
  .mk (.mk none (some (.scalar ['b'] .bare (some ⟨n, n + 1⟩))) (some ⟨n, n + 1⟩))
    (.mk (some ⟨chars! "int", some ⟨n + 2, n + 6⟩⟩) none (some ⟨n + 2, n + 6⟩)) none

/-- A schema with an optional object. -/
def optionalSource : List Char := chars! "schema {@ @object{a @optional(@object{b @int}), c @string}}"

/-- The object below `@optional`. -/
def optionalInner : Value := .mk (some ⟨chars! "object", some ⟨30, 45⟩⟩) (some (.object [fieldB 38] (some ⟨37, 45⟩))) (some ⟨37, 45⟩)

/-- The type of `a`. -/
def optionalType : Value :=
  .mk (some ⟨chars! "optional", some ⟨20, 46⟩⟩) (some (.sequence [optionalInner] (some ⟨29, 46⟩))) (some ⟨29, 46⟩)

/-- The value of `schema`. -/
def optionalSchema : Value :=
  .mk none (some (.object [.mk (.mk none none (some ⟨8, 9⟩)) (.mk (some ⟨chars! "object", some ⟨10, 58⟩⟩) (some (.object
    [.mk (.mk none (some (.scalar ['a'] .bare (some ⟨18, 19⟩))) (some ⟨18, 19⟩)) optionalType none,
     .mk (.mk none (some (.scalar ['c'] .bare (some ⟨48, 49⟩))) (some ⟨48, 49⟩))
       (.mk (some ⟨chars! "string", some ⟨50, 57⟩⟩) none (some ⟨50, 57⟩)) none]
    (some ⟨17, 58⟩))) (some ⟨17, 58⟩)) none] (some ⟨7, 59⟩))) (some ⟨7, 59⟩)

/-- A document with one entry, `schema`. -/
def fileOfSchema (v : Value) : Value :=
  .mk none (some (.object [.mk (.mk none (some (.scalar (chars! "schema") .bare (some ⟨0, 6⟩))) (some ⟨0, 6⟩)) v none] none)) none

theorem fileOfSchema_entry (v : Value) : SchemaEntry (fileOfSchema v) v :=
  ⟨_, [], _, _, [], _, _, rfl, rfl, (nofun)⟩

theorem optional_parse : parseTree optionalSource = some (.ok (fileOfSchema optionalSchema)) := by rfl

theorem optional_writes : Writes ['a'] optionalType optionalSchema :=
  .inner (List.mem_cons_self ..) rfl (.field (List.mem_cons_self ..) rfl)

theorem optional_leads : Leads BelowOptional [['a']] optionalSchema optionalInner := by
  refine .step optional_writes ?_ (.optional rfl (.plain ?_)) .here
  · intro y hy
    cases hy with
    | field hm hk => cases List.mem_singleton.mp hm; simp [Value.asStr] at hk
    | inner hm hk hw =>
      cases List.mem_singleton.mp hm
      cases hw with
      | field hm hk =>
        simp only [List.mem_cons, List.not_mem_nil, or_false] at hm
        rcases hm with hm | hm
        · cases hm; rfl
        · cases hm; simp [Value.asStr] at hk
      | inner hm hk hw =>
        simp only [List.mem_cons, List.not_mem_nil, or_false] at hm
        rcases hm with hm | hm
        · cases hm; simp [Value.isUnit, Value.payload] at hk
        · cases hm; simp [Value.isUnit, Value.payload] at hk
  · intro n hn
    simp only [optionalInner, Value.tagName, Value.tag, Option.map_some, Option.some.injEq] at hn
    subst hn
    decide

example : fieldsFromSource optionalSource [['a']] = some [(['b'], chars! "@int")] := by rfl

/-- C137 is false of the code: the detail of an optional field lacks the tag, since the place of a type with a tag and
a payload is that of the payload; so it is also sorted with the required fields. -/
theorem C137_false_text : ∃ (source : List Char) (tree v x : Value) (fields : List (List Char × List Char))
    (name text : List Char), parseTree source = some (.ok tree) ∧ SchemaEntry tree v ∧ Writes name x v ∧
    fieldsFromSource source [] = some fields ∧ (name, text) ∈ fields ∧ x.tagName = some (chars! "optional") ∧
    text = chars! "(@object{b @int})" ∧ looksOptional text = false :=
  ⟨optionalSource, _, optionalSchema, optionalType, [(['a'], chars! "(@object{b @int})"), (['c'], chars! "@string")], ['a'], _,
    optional_parse, fileOfSchema_entry _, optional_writes, by rfl, List.mem_cons_self .., rfl, rfl, by decide⟩

/-- A schema with a default for an object. -/
def defaultSource : List Char := chars! "schema {@ @object{a @default({} @object{b @int})}}"

/-- The object below `@default`. -/
def defaultInner : Value := .mk (some ⟨chars! "object", some ⟨32, 47⟩⟩) (some (.object [fieldB 40] (some ⟨39, 47⟩))) (some ⟨39, 47⟩)

/-- The value of `schema`. -/
def defaultSchema : Value :=
  .mk none (some (.object [.mk (.mk none none (some ⟨8, 9⟩)) (.mk (some ⟨chars! "object", some ⟨10, 49⟩⟩) (some (.object
    [.mk (.mk none (some (.scalar ['a'] .bare (some ⟨18, 19⟩))) (some ⟨18, 19⟩))
      (.mk (some ⟨chars! "default", some ⟨20, 48⟩⟩) (some (.sequence
        [.mk none (some (.object [] (some ⟨29, 31⟩))) (some ⟨29, 31⟩), defaultInner] (some ⟨28, 48⟩))) (some ⟨28, 48⟩)) none]
    (some ⟨17, 49⟩))) (some ⟨17, 49⟩)) none] (some ⟨7, 50⟩))) (some ⟨7, 50⟩)

/-- C137 is false of the code: in an object with a default no fields are found, since the default is taken for the
type. -/
theorem C137_false_default : ∃ (source : List Char) (tree v w : Value) (path : List (List Char)),
    parseTree source = some (.ok tree) ∧ SchemaEntry tree v ∧ Leads Below path v w ∧
    (∃ x, Writes ['b'] x w) ∧ fieldsFromSource source path = some [] := by
  refine ⟨defaultSource, fileOfSchema defaultSchema, defaultSchema, defaultInner, [['a']], by rfl, fileOfSchema_entry _, ?_,
    ⟨_, .field (List.mem_cons_self ..) rfl⟩, by rfl⟩
  refine .step (.inner (List.mem_cons_self ..) rfl (.field (List.mem_cons_self ..) rfl)) ?_ (.default rfl (.plain ?_)) .here
  · intro y hy
    cases hy with
    | field hm hk => cases List.mem_singleton.mp hm; simp [Value.asStr] at hk
    | inner hm hk hw =>
      cases List.mem_singleton.mp hm
      cases hw with
      | field hm hk => cases List.mem_singleton.mp hm; rfl
      | inner hm hk hw =>
        cases List.mem_singleton.mp hm
        simp [Value.isUnit, Value.payload] at hk
  · intro n hn
    simp only [defaultInner, Value.tagName, Value.tag, Option.map_some, Option.some.injEq] at hn
    subst hn
    decide

end Styx.Props
