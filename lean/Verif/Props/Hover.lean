import Verif.Lsp.HoverFollow
import Verif.Lsp.GotoLemmas
import Verif.Props.Cursor

/-!
# C97, C98 and C99: go to definition, references and hover

`Lsp/Hover.lean` models the answers of the language server that are read from the schema of a document.
`Lsp/HoverSpec.lean` says where a schema declares the field at a path.
-/

namespace Styx.Props

open Styx Styx.Spec Styx.Lsp

/-! ## C97: go to definition -/

/-- The key is in the block `schema` of this source, and the range is the place of that key. -/
def KeyOfSchema (source name : List Char) (r : LspRange) : Prop :=
  ∃ tree block k sp, parseTree source = some (.ok tree) ∧ BlockOf tree block ∧ KeyWithin k block ∧
    k.asStr = some name ∧ k.span = some sp ∧ r = ⟨offsetToPosition source sp.start, offsetToPosition source sp.stop⟩

/-- The document uses the schema, and the range is the place of a key at its top level. -/
def KeyOfDoc (d : OpenDoc) (schema name : List Char) (r : LspRange) : Prop :=
  ∃ tree source es e sp, d.tree = some tree ∧ d.schema = some (schema, source) ∧ tree.asObject = some es ∧ e ∈ es ∧
    e.key.asStr = some name ∧ e.key.span = some sp ∧
    r = ⟨offsetToPosition d.content sp.start, offsetToPosition d.content sp.stop⟩

theorem schemaTree_some {source : List Char} {t : Value} (h : schemaTree source = some t) :
    parseTree source = some (.ok t) := by
  simp only [schemaTree] at h
  split at h
  · cases h; assumption
  · cases h

theorem schemaTree_of {source : List Char} {t : Value} (h : parseTree source = some (.ok t)) :
    schemaTree source = some t := by simp [schemaTree, h]

theorem findInSchema_key {source name : List Char} {t : Value} {r : LspRange} (ht : schemaTree source = some t)
    (h : findInSchema source name t = some r) : KeyOfSchema source name r := by
  obtain ⟨block, h1, h2⟩ := findInSchema_some h
  obtain ⟨k, h3, h4, sp, h5, rfl⟩ := findInBlock_sound h2
  exact ⟨t, block, k, sp, schemaTree_some ht, h1, h3, h4, h5, rfl⟩

theorem useIn_key {name uri : List Char} {d : OpenDoc} {l : Location} (h : useIn name uri d = some l) :
    l.uri = d.uri ∧ KeyOfDoc d uri name l.range := by
  simp only [useIn] at h
  split at h
  · rename_i t u s ht hs
    split at h
    · rename_i hu
      subst hu
      simp only [Option.map_eq_some_iff] at h
      obtain ⟨r, hr, rfl⟩ := h
      obtain ⟨es, e, h1, h2, h3, sp, h4, h5⟩ := findInDoc_sound hr
      exact ⟨rfl, t, s, es, e, sp, ht, hs, h1, h2, h3, h4, h5⟩
    · cases h
  · cases h

theorem fieldAt_some {tree : Value} {off : Nat} {name : List Char} (h : fieldAt tree off = some name) :
    ∃ p s, AtCursor off tree p ∧ p.getLast? = some s ∧ s.text = name := by
  simp only [fieldAt, pathAt, Option.bind_eq_some_iff, Option.map_eq_some_iff] at h
  obtain ⟨_, ⟨p, h1, rfl⟩, h2⟩ := h
  rw [List.getLast?_map, Option.map_eq_some_iff] at h2
  obtain ⟨s, h2, rfl⟩ := h2
  exact ⟨p, s, C73_sound tree off p h1, h2, rfl⟩

/-- **C97**, nothing else is shown: for every document, cursor and set of open documents, the place that is shown is
the beginning of the schema of the document, or the place of a key in the block `schema` of that schema that has the
name at the cursor, or, in a schema, the place of such a key at the top level of another document that uses it. -/
theorem C97_sound (docs : List OpenDoc) (doc : OpenDoc) (tree : Value) (position : Position) (l : Location)
    (h : gotoDefinition docs doc tree position = some l) :
    (∃ source, doc.schema = some (l.uri, source) ∧ l.range = ⟨⟨0, 0⟩, ⟨0, 0⟩⟩) ∨
    ∃ p s, AtCursor (positionToOffset doc.content position) tree p ∧ p.getLast? = some s ∧
      ((∃ source, doc.schema = some (l.uri, source) ∧ KeyOfSchema source s.text l.range) ∨
       ∃ d ∈ docs, d.uri = l.uri ∧ d.uri ≠ doc.uri ∧ KeyOfDoc d doc.uri s.text l.range) := by
  simp only [gotoDefinition] at h
  split at h
  · rename_i u src hd
    cases h
    split at hd
    · exact .inl ⟨src, hd, rfl⟩
    · cases hd
  · split at h
    · cases h
    · rename_i name hn
      obtain ⟨p, s, h1, h2, rfl⟩ := fieldAt_some hn
      refine .inr ⟨p, s, h1, h2, ?_⟩
      split at h
      · rename_i l' hl
        cases h
        simp only [Option.bind_eq_some_iff, Option.map_eq_some_iff] at hl
        obtain ⟨⟨u, src⟩, h3, t, h4, r, h5, rfl⟩ := hl
        exact .inl ⟨src, h3, findInSchema_key h4 h5⟩
      · split at h
        · simp only [List.findSome?_eq_some_iff] at h
          obtain ⟨a, d, b, rfl, h3, _⟩ := h
          split at h3
          · cases h3
          · rename_i hne
            obtain ⟨g1, g2⟩ := useIn_key h3
            exact .inr ⟨d, by simp, g1.symm, hne, g2⟩
        · cases h

theorem keyWithin_node {k v : Value} (h : KeyWithin k v) : Node k v := by
  induction h with
  | here h => exact .inside (.key h) .self
  | deeper h _ ih => exact .inside (.value h) ih

theorem block_node {tree block : Value} (h : BlockOf tree block) : Child block tree := by
  obtain ⟨es, e, h1, h2, rfl⟩ := h
  obtain ⟨t, o, sp, rfl⟩ := asObject_shape h1
  have := firstNamed_mem h2
  obtain ⟨k, v, d⟩ := e
  exact .value this

/-- **C97**, the declaration is found when the name says which it is: for every document without dotted keys at the
root and every schema, with the cursor on (or in the value of) a field, the place that is shown is that of the key
with this name in the block `schema`, if there is exactly one and it is not in parentheses.  Missing for the full
property: names that occur more than once, for which another declaration is shown (`C97_false`), and fields in
parentheses, for which nothing is (`C97_missing_false`). -/
theorem C97_partial (docs : List OpenDoc) (doc : OpenDoc) (es : List Entry) (position : Position) (p : List Seg)
    (s : Seg) (source : List Char) (schema block k : Value) (uri : List Char)
    (hdoc : parseTree doc.content = some (.ok (.mk none (some (.object es none)) none))) (hu : Undotted es)
    (hdecl : ∀ k v d, Entry.mk k v d ∈ es → Cli.isSchemaTag k = true → ∀ sp, v.span = some sp →
      (offsetToPosition doc.content sp.stop).line < position.line)
    (hcur : AtCursor (positionToOffset doc.content position) (.mk none (some (.object es none)) none) p)
    (hp : p.getLast? = some s) (hs : doc.schema = some (uri, source)) (hschema : parseTree source = some (.ok schema))
    (hblock : BlockOf schema block) (hroot : PlainRoot block) (hk : KeyWithin k block) (hname : k.asStr = some s.text)
    (honly : ∀ k', KeyWithin k' block → k'.asStr = some s.text → k' = k) :
    ∃ sp, k.span = some sp ∧ gotoDefinition docs doc (.mk none (some (.object es none)) none) position =
      some ⟨uri, ⟨offsetToPosition source sp.start, offsetToPosition source sp.stop⟩⟩ := by
  have hnode : Node k schema := .inside (block_node hblock) (keyWithin_node hk)
  have hne : k ≠ schema := by
    rintro rfl
    obtain ⟨es', _, h1, _⟩ := hblock
    obtain ⟨_, _, _, rfl⟩ := asObject_shape h1
    simp [Value.asStr] at hname
  obtain ⟨⟨sp, hsp, _⟩, _⟩ := C72_noted source schema k hschema hnode hne
  refine ⟨sp, hsp, ?_⟩
  have hfind : findInSchema source s.text schema = some (rangeOf source sp) := by
    rw [findInSchema_eq hblock, findInBlock_plain hroot]
    obtain ⟨r, hr⟩ := findInObject_complete source s.text hname hsp block hk
    obtain ⟨k', h1, h2, sp', h3, rfl⟩ := findInObject_sound source s.text r block hr
    cases honly k' h1 h2
    rw [hsp] at h3
    cases h3
    exact hr
  have hfield : fieldAt (.mk none (some (.object es none)) none) (positionToOffset doc.content position) = some s.text := by
    simp only [fieldAt, pathAt, (C73_exact_partial doc.content es _ p hdoc hu).mpr hcur, Option.map_some,
      Option.bind_some, List.getLast?_map, hp]
  have hdecl' : onDeclaration doc.content (.mk none (some (.object es none)) none) position = false := by
    simp only [onDeclaration]
    split
    · rename_i r hr
      simp only [declarationRange, Value.asObject, Option.bind_some, Option.bind_eq_some_iff, Option.map_eq_some_iff] at hr
      obtain ⟨e, h1, sp', h2, rfl⟩ := hr
      obtain ⟨k', v', d'⟩ := e
      have h3 := hdecl k' v' d' (List.mem_of_find?_eq_some h1) (by simpa [Entry.key] using List.find?_some h1) sp' h2
      rw [Bool.and_eq_false_iff]
      refine .inr ?_
      simp only [Position.le, rangeOf, Bool.or_eq_false_iff, Bool.and_eq_false_iff]
      exact ⟨decide_eq_false (by omega), .inl (beq_eq_false_iff_ne.mpr (by omega))⟩
    · rfl
  simp only [gotoDefinition, hdecl', Bool.false_eq_true, if_false, hfield, hs, Option.bind_some, schemaTree_of hschema,
    hfind, Option.map_some]
  rfl

/-! ### Concrete documents and schemas -/

/-- A bare text at its place. -/
def wordAt (text : List Char) (a b : Nat) : Value := .mk none (some (.scalar text .bare (some ⟨a, b⟩))) (some ⟨a, b⟩)

/-- `@name` at its place. -/
def nameAt (name : List Char) (a b : Nat) : Value := .mk (some ⟨name, some ⟨a, b⟩⟩) none (some ⟨a, b⟩)

/-- `@name{…}` from `a` to `c`, with the brace at `b`. -/
def bracesAt (name : List Char) (a b c : Nat) (es : List Entry) : Value :=
  .mk (some ⟨name, some ⟨a, c⟩⟩) (some (.object es (some ⟨b, c⟩))) (some ⟨b, c⟩)

/-- `@name(…)` from `a` to `c`, with the parenthesis at `b`. -/
def parensAt (name : List Char) (a b c : Nat) (items : List Value) : Value :=
  .mk (some ⟨name, some ⟨a, c⟩⟩) (some (.sequence items (some ⟨b, c⟩))) (some ⟨b, c⟩)

/-- `schema {…}` up to `c` as the whole document. -/
def schemaAt (c : Nat) (defs : List Entry) : Value :=
  .mk none (some (.object [.mk (wordAt (chars! "schema") 0 6) (.mk none (some (.object defs (some ⟨7, c⟩))) (some ⟨7, c⟩))
    none] none)) none

theorem schemaAt_block (c : Nat) (defs : List Entry) :
    BlockOf (schemaAt c defs) (.mk none (some (.object defs (some ⟨7, c⟩))) (some ⟨7, c⟩)) :=
  ⟨_, _, rfl, ⟨[], [], rfl, rfl, nofun⟩, rfl⟩

/-- Two fields called `x`. -/
def twiceText : List Char := chars! "schema {@ @object{a @object{x @int}, b @object{x @string}}}"

/-- The type of its root. -/
def twiceRoot : Value := bracesAt (chars! "object") 10 17 58 [
  .mk (wordAt ['a'] 18 19) (bracesAt (chars! "object") 20 27 35 [.mk (wordAt ['x'] 28 29) (nameAt (chars! "int") 30 34) none]) none,
  .mk (wordAt ['b'] 37 38) (bracesAt (chars! "object") 39 46 57 [.mk (wordAt ['x'] 47 48) (nameAt (chars! "string") 49 56) none]) none]

theorem twice_parsed : parseTree twiceText = some (.ok (schemaAt 59 [.mk (.mk none none (some ⟨8, 9⟩)) twiceRoot none])) := by
  rfl

/-- A document with a field `x` in `b`. -/
def inBText : List Char := chars! "@schema s\nb {x 1}"

/-- Its entries. -/
def inBEntries : List Entry := [
  .mk (nameAt (chars! "schema") 0 7) (wordAt ['s'] 8 9) none,
  .mk (wordAt ['b'] 10 11) (.mk none (some (.object [.mk (wordAt ['x'] 13 14) (wordAt ['1'] 15 16) none] (some ⟨12, 17⟩)))
    (some ⟨12, 17⟩)) none]

theorem inB_parsed : parseTree inBText = some (.ok (.mk none (some (.object inBEntries none)) none)) := by rfl

theorem inB_undotted : Undotted inBEntries := by
  intro k v d ksp vsp hm h1 h2 _
  simp only [inBEntries, List.mem_cons, List.not_mem_nil, or_false] at hm
  rcases hm with hm | hm <;> cases hm <;> cases h1 <;> cases h2 <;> decide

theorem inB_cursor : AtCursor 13 (.mk none (some (.object inBEntries none)) none) [.field ['b'], .field ['x']] :=
  .key (p := [.field ['b']]) (.field (List.mem_cons_of_mem _ (List.mem_cons_self ..)) rfl .here) rfl
    (List.mem_cons_self ..) rfl ⟨⟨13, 14⟩, rfl, by decide, by decide⟩

/-- **C97** is false as a whole: the schema declares `x` of `b` at byte 47, and going to the definition of `x` in
`b {x 1}` shows byte 28, where `x` of `a` is declared. -/
theorem C97_false : ∃ source tree defs root docText docTree position p t e sp,
    parseTree source = some (.ok tree) ∧ RootOf tree defs root ∧ parseTree docText = some (.ok docTree) ∧
    AtCursor (positionToOffset docText position) docTree p ∧
    GivesType defs root (p.map Seg.text) t (some e) ∧ e.key.span = some sp ∧
    ∃ r, gotoDefinition [] ⟨['d'], docText, some docTree, some (['s'], source)⟩ docTree position = some ⟨['s'], r⟩ ∧
      r ≠ ⟨offsetToPosition source sp.start, offsetToPosition source sp.stop⟩ :=
  ⟨twiceText, _, _, twiceRoot, inBText, _, ⟨1, 3⟩, [.field ['b'], .field ['x']], _, _, ⟨47, 48⟩, twice_parsed,
    ⟨_, [], [], _, schemaAt_block _ _, rfl, rfl, rfl, nofun, rfl⟩, inB_parsed, inB_cursor,
    .inside .self (.field ⟨rfl, rfl⟩ ⟨[_], [], rfl, rfl, by simp [wordAt, Entry.key, Value.asStr, Seg.text]⟩)
      (.last .self (.field ⟨rfl, rfl⟩ ⟨[], [], rfl, rfl, nofun⟩)), rfl,
    ⟨⟨0, 28⟩, ⟨0, 29⟩⟩, by rfl, by decide +kernel⟩

/-- A field in parentheses. -/
def wrappedText : List Char := chars! "schema {@ @object{b @optional(@object{x @int})}}"

/-- The type of its root. -/
def wrappedRoot : Value := bracesAt (chars! "object") 10 17 47 [
  .mk (wordAt ['b'] 18 19) (parensAt (chars! "optional") 20 29 46 [
    bracesAt (chars! "object") 30 37 45 [.mk (wordAt ['x'] 38 39) (nameAt (chars! "int") 40 44) none]]) none]

theorem wrapped_parsed :
    parseTree wrappedText = some (.ok (schemaAt 48 [.mk (.mk none none (some ⟨8, 9⟩)) wrappedRoot none])) := by rfl

/-- **C97** is false as a whole: nothing is shown for a field that is declared in parentheses. -/
theorem C97_missing_false : ∃ source tree defs root docText docTree position p t e,
    parseTree source = some (.ok tree) ∧ RootOf tree defs root ∧ parseTree docText = some (.ok docTree) ∧
    AtCursor (positionToOffset docText position) docTree p ∧ GivesType defs root (p.map Seg.text) t (some e) ∧
    gotoDefinition [] ⟨['d'], docText, some docTree, some (['s'], source)⟩ docTree position = none :=
  ⟨wrappedText, _, _, wrappedRoot, inBText, _, ⟨1, 3⟩, [.field ['b'], .field ['x']], _, _, wrapped_parsed,
    ⟨_, [], [], _, schemaAt_block _ _, rfl, rfl, rfl, nofun, rfl⟩, inB_parsed, inB_cursor,
    .inside .self (.field ⟨rfl, rfl⟩ ⟨[], [], rfl, rfl, nofun⟩)
      (.last (.wrapped (.optional ⟨rfl, rfl⟩) .self) (.field ⟨rfl, rfl⟩ ⟨[], [], rfl, rfl, nofun⟩)), by rfl⟩

/-! ## C98: references -/

/-- **C98**, nothing else is listed: every place is that of a key with the name at the cursor: in the block `schema`
of the schema of the document, or at the top level of an open document with that schema. -/
theorem C98_sound (docs : List OpenDoc) (doc : OpenDoc) (tree : Value) (position : Position) (l : Location)
    (h : l ∈ references docs doc tree position) :
    ∃ p s, AtCursor (positionToOffset doc.content position) tree p ∧ p.getLast? = some s ∧
      ((∃ source, doc.schema = some (l.uri, source) ∧ KeyOfSchema source s.text l.range) ∨
       ∃ d ∈ docs, d.uri = l.uri ∧ ((∃ source u, doc.schema = some (u, source) ∧ KeyOfDoc d u s.text l.range) ∨
        (isSchemaFile tree = true ∧ d.uri ≠ doc.uri ∧ KeyOfDoc d doc.uri s.text l.range))) := by
  simp only [references] at h
  split at h
  · cases h
  · rename_i name hn
    obtain ⟨p, s, h1, h2, rfl⟩ := fieldAt_some hn
    refine ⟨p, s, h1, h2, ?_⟩
    split at h
    · rename_i hf
      simp only [List.mem_filterMap] at h
      obtain ⟨d, hd, h⟩ := h
      split at h
      · cases h
      · rename_i hne
        obtain ⟨g1, g2⟩ := useIn_key h
        exact .inr ⟨d, hd, g1.symm, .inr ⟨hf, hne, g2⟩⟩
    · split at h
      · cases h
      · rename_i u src hs
        split at h
        · cases h
        · rename_i r hr
          simp only [Option.bind_eq_some_iff] at hr
          obtain ⟨t, ht, hr⟩ := hr
          rcases List.mem_cons.mp h with rfl | h
          · exact .inl ⟨src, hs, findInSchema_key ht hr⟩
          · simp only [List.mem_filterMap] at h
            obtain ⟨d, hd, h⟩ := h
            obtain ⟨g1, g2⟩ := useIn_key h
            exact .inr ⟨d, hd, g1.symm, .inl ⟨src, u, hs, g2⟩⟩

/-- **C98**, the uses at the top level are listed: with the cursor on a field that is somewhere in the block `schema`
of the schema, every open document with that schema and with a key of that name at its top level is listed with the
place of such a key.  Missing for the full property: keys further inside (`C98_false`). -/
theorem C98_partial (docs : List OpenDoc) (doc d : OpenDoc) (tree t : Value) (position : Position) (name : List Char)
    (uri source source' : List Char) (schema block k : Value) (es : List Entry) (e : Entry) (sp : Span)
    (hf : fieldAt tree (positionToOffset doc.content position) = some name) (hn : isSchemaFile tree = false)
    (hs : doc.schema = some (uri, source)) (hschema : parseTree source = some (.ok schema))
    (hblock : BlockOf schema block) (hroot : PlainRoot block) (hk : KeyWithin k block) (hname : k.asStr = some name)
    (hd : d ∈ docs) (ht : d.tree = some t) (hds : d.schema = some (uri, source')) (hes : t.asObject = some es)
    (he : e ∈ es) (hek : e.key.asStr = some name) (hsp : e.key.span = some sp) :
    ∃ l ∈ references docs doc tree position, l.uri = d.uri ∧ KeyOfDoc d uri name l.range := by
  have hnode : Node k schema := .inside (block_node hblock) (keyWithin_node hk)
  have hne : k ≠ schema := by
    rintro rfl
    obtain ⟨es', _, h1, _⟩ := hblock
    obtain ⟨_, _, _, rfl⟩ := asObject_shape h1
    simp [Value.asStr] at hname
  obtain ⟨⟨ksp, hksp, _⟩, _⟩ := C72_noted source schema k hschema hnode hne
  obtain ⟨r, hr⟩ := findInObject_complete source name hname hksp block hk
  have hfind : findInSchema source name schema = some r := by
    rw [findInSchema_eq hblock, findInBlock_plain hroot]; exact hr
  obtain ⟨r', hr'⟩ := findInDoc_complete (content := d.content) hes he hek hsp
  have huse : useIn name uri d = some ⟨d.uri, r'⟩ := by simp [useIn, ht, hds, hr']
  refine ⟨⟨d.uri, r'⟩, ?_, rfl, (useIn_key huse).2⟩
  simp only [references, hf, hn, Bool.false_eq_true, if_false, hs, schemaTree_of hschema, Option.bind_some, hfind]
  exact List.mem_cons_of_mem _ (List.mem_filterMap.mpr ⟨d, hd, huse⟩)

/-- **C98** is false as a whole: with the cursor on `x` in `b {x 1}`, that use itself is not among the references, even
when the document is open. -/
theorem C98_false : ∃ source tree defs root docText docTree position p t e doc,
    parseTree source = some (.ok tree) ∧ RootOf tree defs root ∧ parseTree docText = some (.ok docTree) ∧
    AtCursor (positionToOffset docText position) docTree p ∧ GivesType defs root (p.map Seg.text) t (some e) ∧
    doc = ⟨['d'], docText, some docTree, some (['s'], source)⟩ ∧
    ∀ l ∈ references [doc] doc docTree position, l.uri ≠ doc.uri :=
  ⟨twiceText, _, _, twiceRoot, inBText, _, ⟨1, 3⟩, [.field ['b'], .field ['x']], _, _, _, twice_parsed,
    ⟨_, [], [], _, schemaAt_block _ _, rfl, rfl, rfl, nofun, rfl⟩, inB_parsed, inB_cursor,
    .inside .self (.field ⟨rfl, rfl⟩ ⟨[_], [], rfl, rfl, by simp [wordAt, Entry.key, Value.asStr, Seg.text]⟩)
      (.last .self (.field ⟨rfl, rfl⟩ ⟨[], [], rfl, rfl, nofun⟩)), rfl, by decide +kernel⟩

/-! ## C99: hover -/

theorem rootOf_info {tree : Value} {defs : List Entry} {root : Value} (h : RootOf tree defs root) (n : Nat)
    (path : List (List Char)) : infoInSchema n tree path = fieldInfo defs n root path := by
  obtain ⟨block, a, b, e, ⟨es, e', h1, h2, rfl⟩, h3, rfl, h4, h5, rfl⟩ := h
  have hu : objGetUnit (a ++ e :: b) = some e.value := by
    have : (a ++ e :: b).find? (fun e => e.key.isUnit) = some e :=
      List.find?_eq_some_iff_append.mpr ⟨h4, a, b, rfl, fun x hx => by simpa using h5 x hx⟩
    simp [objGetUnit, this]
  simp [infoInSchema, infoInBlock, h1, firstNamed_get h2, h3, hu]

/-- **C99**, hover answers: for every document, every cursor and every schema in which no name leads back to itself
without a field in between, hover has an answer (a text or nothing).  Missing for the full property: other schemas, for
which hover can call itself for ever (`C99_answers_false`). -/
theorem C99_answers_partial (schema tree : Value) (defs : List Entry) (root : Value) (link : List Char → List Char)
    (off : Nat) (hr : RootOf schema defs root) (h : NoLoops defs) :
    ∃ a, Settles (fun n => fieldHover n schema tree link off) (.done a) := by
  simp only [fieldHover]
  split
  · exact ⟨none, settles_const _⟩
  · rename_i path hp
    obtain ⟨r, hs⟩ := fieldInfo_settles h path root
    have hs' : Settles (fun n => infoInSchema n schema path) (.done r) := by
      simp only [rootOf_info hr]; exact hs
    cases r with
    | none => exact ⟨none, settles_bind hs' (settles_const _)⟩
    | some i => exact ⟨_, settles_bind hs' (settles_const _)⟩

mutual
theorem typeText_shown : ∀ {v : Value} {s : List Char}, ShownAs v s → typeText v = s
  | _, _, .unit => rfl
  | _, _, .empty => rfl
  | _, _, .word h => by simp [typeText, h]
  | _, _, .block => rfl
  | _, _, .list h => by simp [typeText, typeTexts_shown h]
  | _, _, .name => rfl
  | _, _, .text => by simp [typeText]
  | _, _, .braces => rfl
  | _, _, .args h => by simp [typeText, typeTexts_shown h]
theorem typeTexts_shown : ∀ {vs : List Value} {s : List Char}, ShownItems vs s → typeTexts vs = s
  | _, _, .none => rfl
  | _, _, .one h => by simp [typeTexts, typeText_shown h]
  | _, _, .more h h' => by simp [typeTexts, typeText_shown h, typeTexts_shown h']
end

/-- Every type has a text. -/
example : ShownAs (.mk (some ⟨chars! "map", none⟩) (some (.sequence [.mk (some ⟨chars! "string", none⟩) none none,
    .mk (some ⟨chars! "optional", none⟩) (some (.sequence [.mk none (some (.scalar ['x'] .bare none)) none] none)) none]
      none)) none) (chars! "@map(@string @optional(x))") :=
  .args (.more .name (.one (.args (.one (.word (by simp))))))

/-- **C99**, hover shows what the schema declares: for every document without dotted keys at the root, every cursor and
every schema whose types (those met on the way from the root) can all be followed, hover shows the text of the type that
the schema gives the path at the cursor, with the comment of the entry that declares it.  Recursive types are included.  Missing for the
full property: other schemas (`C99_map_false`, `C99_answers_false`), items (`C99_item_false`) and enumerations. -/
theorem C99_shows_partial (content : List Char) (es : List Entry) (off : Nat) (p : List Seg) (schema : Value)
    (defs : List Entry) (root t : Value) (e : Option Entry) (link : List Char → List Char)
    (hdoc : parseTree content = some (.ok (.mk none (some (.object es none)) none))) (hu : Undotted es)
    (hcur : AtCursor off (.mk none (some (.object es none)) none) p) (hr : RootOf schema defs root)
    (hf : ∀ v, Met defs root v → Followable defs v) (hd : GivesType defs root (p.map Seg.text) t e)
    {text : List Char} (ht : ShownAs t text) :
    Settles (fun n => fieldHover n schema (.mk none (some (.object es none)) none) link off) (.done (some
      ((match e.bind Entry.doc with
        | some d => d ++ chars! "\n\n"
        | none => []) ++ chars! "[@](" ++ link ((p.map Seg.text).getLast?.getD []) ++ [')'] ++
        (p.map Seg.text).flatMap (fun s => chars! " › " ++ s) ++ chars! ": `" ++ text ++ ['`']))) := by
  rw [← typeText_shown ht]
  have hpath : pathAt (.mk none (some (.object es none)) none) off = some (p.map Seg.text) := by
    simp only [pathAt, (C73_exact_partial content es off p hdoc hu).mpr hcur, Option.map_some]
  have hs := fieldInfo_follow hf hd root (.inl rfl) .root
  simp only [fieldHover, hpath]
  refine settles_bind (by simp only [rootOf_info hr]; exact hs) ?_
  have heq : hoverText (link ((p.map Seg.text).getLast?.getD [])) (p.map Seg.text) ⟨typeText t, e.bind Entry.doc⟩ =
      (match e.bind Entry.doc with
        | some d => d ++ chars! "\n\n"
        | none => []) ++ chars! "[@](" ++ link ((p.map Seg.text).getLast?.getD []) ++ [')'] ++
        (p.map Seg.text).flatMap (fun s => chars! " › " ++ s) ++ chars! ": `" ++ typeText t ++ ['`'] := by
    cases e.bind Entry.doc <;> simp [hoverText, breadcrumb]
  simp only [heq]
  exact settles_const _

/-- An enumeration with a variant of its own type. -/
def loopText : List Char := chars! "schema {@ @object{e @seq(@E)}, E @enum{neg @E}}"

/-- The type `E`. -/
def loopEnum : Value := bracesAt (chars! "enum") 33 38 46 [.mk (wordAt (chars! "neg") 39 42) (nameAt ['E'] 43 45) none]

/-- Its entries. -/
def loopDefs : List Entry := [
  .mk (.mk none none (some ⟨8, 9⟩)) (bracesAt (chars! "object") 10 17 29 [
    .mk (wordAt ['e'] 18 19) (parensAt (chars! "seq") 20 24 28 [nameAt ['E'] 25 27]) none]) none,
  .mk (wordAt ['E'] 31 32) loopEnum none]

theorem loop_parsed : parseTree loopText = some (.ok (schemaAt 47 loopDefs)) := by rfl

theorem loop_runsOut : ∀ n, fieldInfo loopDefs n loopEnum [['x']] = .runsOut
  | 0 => rfl
  | n + 1 => by
    show Outcome.bind (fieldInfo loopDefs n loopEnum [['x']]) _ = _
    rw [loop_runsOut n]
    rfl

/-- The document `e (@neg{x 1})`. -/
def loopDoc : Value := .mk none (some (.object [.mk (wordAt ['e'] 0 1) (.mk none (some (.sequence [
  bracesAt (chars! "neg") 3 7 12 [.mk (wordAt ['x'] 8 9) (wordAt ['1'] 10 11) none]] (some ⟨2, 13⟩))) (some ⟨2, 13⟩))
  none] none)) none

theorem loopDoc_parsed : parseTree (chars! "e (@neg{x 1})") = some (.ok loopDoc) := by rfl

/-- **C99** is false as a whole: with the schema above, hover on `x` in `e (@neg{x 1})` calls itself for ever: no amount
of fuel is enough. -/
theorem C99_answers_false : ∃ source schema docText docTree off p, parseTree source = some (.ok schema) ∧
    parseTree docText = some (.ok docTree) ∧ AtCursor off docTree p ∧
    ∀ n link, fieldHover n schema docTree link off = .runsOut := by
  refine ⟨loopText, _, chars! "e (@neg{x 1})", _, 8, [.field ['e'], .index 0, .field ['x']], loop_parsed, loopDoc_parsed,
    .key (p := [.field ['e'], .index 0]) (.field (List.mem_cons_self ..) rfl (.item rfl .here)) rfl
      (List.mem_cons_self ..) rfl ⟨⟨8, 9⟩, rfl, by decide, by decide⟩, fun n link => ?_⟩
  have hp : pathAt loopDoc 8 = some [['e'], ['0'], ['x']] := by rfl
  have hr : RootOf (schemaAt 47 loopDefs) loopDefs _ :=
    ⟨_, [], [_], _, schemaAt_block _ _, rfl, rfl, rfl, nofun, rfl⟩
  simp only [fieldHover, hp]
  rw [rootOf_info hr]
  match n with
  | 0 => rfl
  | 1 => rfl
  | 2 => rfl
  | n + 3 =>
    show Outcome.bind (fieldInfo loopDefs (n + 1) loopEnum [['x']]) _ = _
    rw [loop_runsOut]
    rfl

/-- A map in parentheses. -/
def mapText : List Char := chars! "schema {@ @object{m @optional(@map(@string @T))}, T @object{x @int}}"

/-- The type of its root. -/
def mapRoot : Value := bracesAt (chars! "object") 10 17 48 [.mk (wordAt ['m'] 18 19) (parensAt (chars! "optional") 20 29 47 [
    parensAt (chars! "map") 30 34 46 [nameAt (chars! "string") 35 42, nameAt ['T'] 43 45]]) none]

/-- Its entries. -/
def mapDefs : List Entry := [.mk (.mk none none (some ⟨8, 9⟩)) mapRoot none,
  .mk (wordAt ['T'] 50 51) (bracesAt (chars! "object") 52 59 67 [.mk (wordAt ['x'] 60 61) (nameAt (chars! "int") 62 66) none]) none]

theorem map_parsed : parseTree mapText = some (.ok (schemaAt 68 mapDefs)) := by rfl

/-- **C99** is false as a whole: the keys of an optional map are taken for fields of its values: for `m {x …}` the type
of `x` is `@T`, and hover shows `@int`. -/
theorem C99_map_false : ∃ source schema defs root path t, parseTree source = some (.ok schema) ∧
    RootOf schema defs root ∧ GivesType defs root path t none ∧ typeText t = chars! "@T" ∧
    ∀ n, infoInSchema (n + 6) schema path = .done (some ⟨chars! "@int", none⟩) :=
  ⟨mapText, _, mapDefs, mapRoot, [['m'], ['x']], nameAt ['T'] 43 45, map_parsed,
    ⟨_, [], [_], _, schemaAt_block _ _, rfl, rfl, rfl, nofun, rfl⟩,
    .inside .self (.field ⟨rfl, rfl⟩ ⟨[], [], rfl, rfl, nofun⟩)
      (.last (.wrapped (.optional ⟨rfl, rfl⟩) .self) (.value2 ⟨rfl, rfl⟩)), rfl, fun _ => rfl⟩

/-- **C99** is false as a whole: nothing is shown for the items of a sequence, at any position. -/
theorem C99_item_false : ∃ source schema defs root name u e, parseTree source = some (.ok schema) ∧
    RootOf schema defs root ∧ GivesType defs root [name] u e ∧ (∃ t, Parens u (chars! "seq") [t]) ∧
    ∀ i, i < 2 ^ 64 → Settles (fun n => infoInSchema n schema [name, Nat.toDigits 10 i]) (.done none) := by
  have hr : RootOf (schemaAt 47 loopDefs) loopDefs _ :=
    ⟨_, [], [_], _, schemaAt_block _ _, rfl, rfl, rfl, nofun, rfl⟩
  refine ⟨loopText, _, loopDefs, _, ['e'], _, _, loop_parsed, hr,
    .last .self (.field ⟨rfl, rfl⟩ ⟨[], [], rfl, rfl, nofun⟩), ⟨_, rfl, rfl⟩, fun i hi => ?_⟩
  simp only [rootOf_info hr]
  refine fieldInfo_object (.object ⟨rfl, rfl⟩) ?_ ⟨[], [], rfl, rfl, nofun⟩ ?_
  · intro e he
    simp only [List.mem_singleton] at he
    subst he
    exact ⟨_, rfl⟩
  · simp only [List.cons_ne_nil, if_false]
    exact fieldInfo_item (.seq ⟨rfl, rfl⟩) hi (settles_done (fun n => rfl) (nofun))

/-! ### Concrete cases -/

mutual
/-- The keys within an object. -/
def keysOf : Value → List Value
  | .mk _ (some (.object es _)) _ => keysOfEntries es
  | .mk _ _ _ => []
/-- The keys within the objects of these entries. -/
def keysOfEntries : List Entry → List Value
  | [] => []
  | .mk k v _ :: es => k :: keysOf v ++ keysOfEntries es
end

theorem mem_keysOfEntries {k v : Value} {d : Option (List Char)} {es : List Entry} (h : Entry.mk k v d ∈ es) :
    k ∈ keysOfEntries es ∧ ∀ x ∈ keysOf v, x ∈ keysOfEntries es := by
  induction es with
  | nil => simp at h
  | cons e es ih =>
    obtain ⟨k', v', d'⟩ := e
    rw [keysOfEntries]
    rcases List.mem_cons.mp h with h | h
    · cases h
      simp +contextual
    · obtain ⟨h1, h2⟩ := ih h
      simp +contextual [h1, h2]

theorem mem_keysOf {k v : Value} (h : KeyWithin k v) : k ∈ keysOf v := by
  induction h with
  | here h => rw [keysOf]; exact (mem_keysOfEntries h).1
  | deeper h _ ih => rw [keysOf]; exact (mem_keysOfEntries h).2 _ ih

theorem twice_plain : PlainRoot (.mk none (some (.object [.mk (.mk none none (some ⟨8, 9⟩)) twiceRoot none] (some ⟨7, 59⟩)))
    (some ⟨7, 59⟩)) := by
  intro es e hes he _
  cases hes
  simp only [List.mem_singleton] at he
  subst he
  refine .inl ⟨_, rfl, ?_⟩
  intro x hx
  simp only [List.mem_cons, List.not_mem_nil, or_false] at hx
  rcases hx with rfl | rfl <;> simp [wordAt, Entry.key, Value.tagName, Value.tag]

/-- Going to the definition of `b` in `b {x 1}` shows byte 37 of the schema with `x` twice. -/
example (docs : List OpenDoc) : gotoDefinition docs
    ⟨['d'], inBText, some (.mk none (some (.object inBEntries none)) none), some (['s'], twiceText)⟩
    (.mk none (some (.object inBEntries none)) none) ⟨1, 0⟩ = some ⟨['s'], ⟨⟨0, 37⟩, ⟨0, 38⟩⟩⟩ := by
  obtain ⟨sp, h1, h2⟩ := C97_partial docs
    ⟨['d'], inBText, some (.mk none (some (.object inBEntries none)) none), some (['s'], twiceText)⟩ inBEntries ⟨1, 0⟩
    [.field ['b']] (.field ['b']) twiceText _ _ (wordAt ['b'] 37 38) ['s'] inB_parsed inB_undotted
    (by
      intro k v d hm hk sp hsp
      simp only [inBEntries, List.mem_cons, List.not_mem_nil, or_false] at hm
      rcases hm with hm | hm <;> cases hm <;> cases hsp
      · decide +kernel
      · cases hk)
    (.key (p := []) .here rfl (List.mem_cons_of_mem _ (List.mem_cons_self ..)) rfl ⟨⟨10, 11⟩, rfl, by decide +kernel, by decide +kernel⟩)
    rfl rfl twice_parsed (schemaAt_block _ _)
    twice_plain
    (.deeper (List.mem_cons_self ..) (.here (List.mem_cons_of_mem _ (List.mem_cons_self ..)))) rfl
    (by
      intro k' hk' hn
      have := mem_keysOf hk'
      simp only [keysOf, keysOfEntries, twiceRoot, bracesAt, wordAt, nameAt, List.append_nil, List.cons_append,
        List.nil_append, List.mem_cons, List.not_mem_nil, or_false] at this
      rcases this with rfl | rfl | rfl | rfl | rfl <;> simp [Value.asStr, Seg.text] at hn ⊢
      rfl)
  cases h1
  exact h2

/-- The references of `b` in `b {x 1}` have the document itself. -/
example (docs : List OpenDoc) (doc : OpenDoc)
    (h : doc = ⟨['d'], inBText, some (.mk none (some (.object inBEntries none)) none), some (['s'], twiceText)⟩)
    (hd : doc ∈ docs) :
    ∃ l ∈ references docs doc (.mk none (some (.object inBEntries none)) none) ⟨1, 0⟩, l.uri = ['d'] ∧
      KeyOfDoc doc ['s'] ['b'] l.range := by
  subst h
  exact C98_partial docs _ _ _ _ ⟨1, 0⟩ ['b'] ['s'] twiceText twiceText _ _ (wordAt ['b'] 37 38) inBEntries
    _ ⟨10, 11⟩ (by rfl) (by rfl) rfl twice_parsed (schemaAt_block _ _) twice_plain
    (.deeper (List.mem_cons_self ..) (.here (List.mem_cons_of_mem _ (List.mem_cons_self ..)))) rfl hd rfl rfl rfl
    (List.mem_cons_of_mem _ (List.mem_cons_self ..)) rfl rfl

/-- A recursive type: `N` has a list of `N`. -/
def recText : List Char := chars! "schema {@ @object{n @N}, N @object{v @int, k @seq(@N)}}"

/-- `@N` in the list. -/
def recName : Value := nameAt ['N'] 50 52

/-- `@seq(@N)`. -/
def recSeq : Value := parensAt (chars! "seq") 45 49 53 [recName]

/-- The fields of `N`. -/
def recFields : List Entry := [.mk (wordAt ['v'] 35 36) (nameAt (chars! "int") 37 41) none, .mk (wordAt ['k'] 43 44) recSeq none]

/-- The type `N`. -/
def recN : Value := bracesAt (chars! "object") 27 34 54 recFields

/-- The type of the root. -/
def recRoot : Value := bracesAt (chars! "object") 10 17 23 [.mk (wordAt ['n'] 18 19) (nameAt ['N'] 20 22) none]

/-- The entries of the schema. -/
def recDefs : List Entry := [.mk (.mk none none (some ⟨8, 9⟩)) recRoot none, .mk (wordAt ['N'] 25 26) recN none]

theorem rec_parsed : parseTree recText = some (.ok (schemaAt 55 recDefs)) := by rfl

theorem rec_root : RootOf (schemaAt 55 recDefs) recDefs recRoot :=
  ⟨_, [], [_], _, schemaAt_block _ _, rfl, rfl, rfl, nofun, rfl⟩

theorem rec_named {name : List Char} {e : Entry} (h : FirstNamed recDefs name e) : name = ['N'] ∧ e.value = recN := by
  have h1 := firstNamed_mem h
  obtain ⟨_, _, _, h2, _⟩ := h
  simp only [recDefs, List.mem_cons, List.not_mem_nil, or_false] at h1
  rcases h1 with rfl | rfl
  · simp [Entry.key, Value.asStr] at h2
  · simp only [Entry.key, wordAt, Value.asStr, Option.some.injEq] at h2
    exact ⟨h2.symm, rfl⟩

theorem rec_noLoops : NoLoops recDefs := by
  refine ⟨fun _ => 0, fun m e he n hn => ?_⟩
  rw [(rec_named he).2] at hn
  cases hn with
  | ref _ h => rcases h with h | ⟨_, _, h⟩ <;> cases h
  | item h _ _ => cases h
  | variant h _ _ => cases h.1
  | unit h he hu _ =>
    cases h
    simp only [recFields, List.mem_cons, List.not_mem_nil, or_false] at he
    rcases he with rfl | rfl <;> cases hu

/-- Hover answers for every cursor of every document with the recursive schema. -/
example (tree : Value) (link : List Char → List Char) (off : Nat) :
    ∃ a, Settles (fun n => fieldHover n (schemaAt 55 recDefs) tree link off) (.done a) :=
  C99_answers_partial _ tree _ _ link off rec_root rec_noLoops

theorem rec_ref (a b : Nat) : RefTo recDefs (nameAt ['N'] a b) (.mk (wordAt ['N'] 25 26) recN none) :=
  ⟨['N'], rfl, rfl, ⟨[_], [], rfl, rfl, by simp [Entry.key, Value.asStr]⟩⟩

theorem rec_deref {a b : Nat} {u : Value} (h : Deref recDefs (nameAt ['N'] a b) u) : u = recN := by
  rcases h with ⟨e, he, rfl⟩ | ⟨h, _⟩
  · obtain ⟨_, _, _, he⟩ := he
    exact (rec_named he).2
  · exact absurd (rec_ref a b) (h _)

theorem rec_met {v : Value} (h : Met recDefs recRoot v) :
    v = recRoot ∨ v = nameAt ['N'] 20 22 ∨ v = recN ∨ v = nameAt (chars! "int") 37 41 ∨ v = recSeq := by
  have opens : ∀ {v es}, (v = recRoot ∨ v = nameAt ['N'] 20 22 ∨ v = recN ∨ v = nameAt (chars! "int") 37 41 ∨ v = recSeq) →
      OpensTo recDefs v es → es = [.mk (wordAt ['n'] 18 19) (nameAt ['N'] 20 22) none] ∨ es = recFields := by
    intro v es hv ho
    cases ho with
    | object hb => rcases hv with rfl | rfl | rfl | rfl | rfl <;> cases hb.2 <;> simp [recFields]
    | named hr hb =>
      obtain ⟨_, _, _, hn⟩ := hr
      rw [(rec_named hn).2] at hb
      cases hb.2
      simp
    | wrapped hw _ _ =>
      obtain ⟨_, _, _, _, _, he, _, hn⟩ := wraps_shape hw
      rcases hv with rfl | rfl | rfl | rfl | rfl <;> cases he
      rcases hn with hn | hn | hn <;> cases hn
  have lists : ∀ {v t}, (v = recRoot ∨ v = nameAt ['N'] 20 22 ∨ v = recN ∨ v = nameAt (chars! "int") 37 41 ∨ v = recSeq) →
      ListOf v t → t = recName := by
    intro v t hv hl
    cases hl with
    | seq hp => rcases hv with rfl | rfl | rfl | rfl | rfl <;> cases hp.2; rfl
    | wrapped hw _ _ _ =>
      obtain ⟨_, _, _, _, _, he, _, hn⟩ := wraps_shape hw
      rcases hv with rfl | rfl | rfl | rfl | rfl <;> cases he
      rcases hn with hn | hn | hn <;> cases hn
  induction h with
  | root => exact .inl rfl
  | field _ ho he ih =>
    rcases opens ih ho with rfl | rfl
    · simp only [List.mem_singleton] at he
      subst he
      exact .inr (.inl rfl)
    · simp only [recFields, List.mem_cons, List.not_mem_nil, or_false] at he
      rcases he with rfl | rfl
      · exact .inr (.inr (.inr (.inl rfl)))
      · exact .inr (.inr (.inr (.inr rfl)))
  | item _ hl hd ih =>
    rw [lists ih hl] at hd
    exact .inr (.inr (.inl (rec_deref hd)))
  | other _ ha _ ih =>
    obtain ⟨e, hb, ha, _⟩ := ha
    rcases ih with rfl | rfl | rfl | rfl | rfl <;> cases hb.2
    exact absurd rfl ha.1
  | value _ hm _ ih =>
    rcases hm with hm | ⟨k, hm⟩ <;> rcases ih with rfl | rfl | rfl | rfl | rfl <;> cases hm.1

theorem rec_followable (v : Value) (h : Met recDefs recRoot v) : Followable recDefs v := by
  have hk : ∀ e ∈ recFields, ∃ s, e.key.asStr = some s := by
    intro e he
    simp only [recFields, List.mem_cons, List.not_mem_nil, or_false] at he
    rcases he with rfl | rfl <;> exact ⟨_, rfl⟩
  rcases rec_met h with rfl | rfl | rfl | rfl | rfl
  · refine .fields (.object ⟨rfl, rfl⟩) fun e he => ?_
    simp only [List.mem_singleton] at he
    subst he
    exact ⟨_, rfl⟩
  · exact .fields (.named (rec_ref 20 22) ⟨rfl, rfl⟩) hk
  · exact .fields (.object ⟨rfl, rfl⟩) hk
  · refine .closed fun path t e hd => ?_
    obtain ⟨w, hm, hw⟩ := declares_has hd
    cases hm with
    | self =>
      rcases has_shape hw with ⟨_, hb⟩ | ⟨_, hb | hb⟩ <;> cases hb.2
    | ref hr _ =>
      obtain ⟨_, hn, _, hr⟩ := hr
      cases hn
      have := (rec_named hr).1
      cases this
    | wrapped hw _ =>
      obtain ⟨_, _, _, _, _, he, _⟩ := wraps_shape hw
      cases he
  · exact .list (.seq ⟨rfl, rfl⟩)

/-- The entries of `n {k ({v 1})}`. -/
def recDoc : List Entry := [.mk (wordAt ['n'] 0 1) (.mk none (some (.object [.mk (wordAt ['k'] 3 4)
  (.mk none (some (.sequence [.mk none (some (.object [.mk (wordAt ['v'] 7 8) (wordAt ['1'] 9 10) none] (some ⟨6, 11⟩)))
    (some ⟨6, 11⟩)] (some ⟨5, 12⟩))) (some ⟨5, 12⟩)) none] (some ⟨2, 13⟩))) (some ⟨2, 13⟩)) none]

theorem recDoc_parsed : parseTree (chars! "n {k ({v 1})}") = some (.ok (.mk none (some (.object recDoc none)) none)) := by rfl

/-- Hover on `v` in `n {k ({v 1})}` shows its type, through the recursive type. -/
example (link : List Char → List Char) :
    Settles (fun n => fieldHover n (schemaAt 55 recDefs) (.mk none (some (.object recDoc none)) none) link 7)
      (.done (some (chars! "[@](" ++ link ['v'] ++ chars! ") › n › k › 0 › v: `@int`"))) := by
  have := C99_shows_partial (chars! "n {k ({v 1})}") recDoc 7 [.field ['n'], .field ['k'], .index 0, .field ['v']] _ _ _ _ _
    link recDoc_parsed
    (by
      intro k v d ksp vsp hm h1 h2 _
      simp only [recDoc, List.mem_singleton] at hm
      cases hm; cases h1; cases h2; decide)
    (.key (p := [.field ['n'], .field ['k'], .index 0])
      (.field (List.mem_cons_self ..) rfl (.field (List.mem_cons_self ..) rfl (.item rfl .here))) rfl
      (List.mem_cons_self ..) rfl ⟨⟨7, 8⟩, rfl, by decide, by decide⟩)
    rec_root rec_followable
    (.inside .self (.field ⟨rfl, rfl⟩ ⟨[], [], rfl, rfl, nofun⟩)
      (.inside (.ref (rec_ref 20 22) .self) (.field (es := recFields) ⟨rfl, rfl⟩
        ⟨[.mk (wordAt ['v'] 35 36) (nameAt (chars! "int") 37 41) none], [], rfl, rfl,
          by simp [wordAt, Entry.key, Value.asStr, Seg.text]⟩)
        (.item (i := 0) (by decide) .self ⟨rfl, rfl⟩
          (.last (.ref (rec_ref 50 52) .self) (.field (es := recFields) ⟨rfl, rfl⟩ ⟨[], _, rfl, rfl, nofun⟩)))))
    (text := chars! "@int") .name
  simpa [Seg.text, typeText, nameAt, Entry.value, Entry.doc, show Nat.toDigits 10 0 = ['0'] from rfl] using this

end Styx.Props
