import Verif.Parse.NestLemmas

/-! # Property theorems C12, C13: nesting and grammar of the event stream

`Verif.Parse.NestSpec` is the specification: `nest` replays a stream on a stack of open starts,
`IsValue`, `IsEntries` and `IsDocument` are the grammar of event kinds. -/

namespace Styx.Props

open Styx Styx.Spec

/-! ## C12 -/

/-- **C12**.  Full statement: replaying the events of any document on the stack succeeds and leaves
nothing open.  This is false (`C12_false`).  Proved for every source, with or without errors: no end
event ever mismatches, and nothing is left open unless the stream opens an object directly inside the
root object (no entry in between); then exactly the root object stays open. -/
theorem C12_nested_partial (source : List Char) (evs : List Event)
    (h : parseEvents source = some evs) :
    nest [] evs = some [] ∨
    (nest [] evs = some [.object] ∧
      ∃ pre sp post, evs = pre ++ ⟨sp, .objectStart⟩ :: post ∧ nest [] pre = some [.object]) := by
  obtain ⟨evs', h', hr⟩ := parseEvents_run source
  rw [h] at h'
  cases h'
  exact run_nested hr

/-- **C12** for expressions: always balanced. -/
theorem C12_nested_expr (source : List Char) (evs : List Event)
    (h : parseExprEvents source = some evs) : nest [] evs = some [] := by
  obtain ⟨evs', h', hr⟩ := parseExprEvents_run source
  rw [h] at h'
  cases h'
  exact run_inObject hr [] (by simp) (by intros; simp)

/-- **C12** is false of documents: with a braced object after a root entry (or just after a doc
comment) the implicit root object is never closed. -/
theorem C12_false :
    (∃ evs, parseEvents (chars! "a 1\n{b 2}") = some evs ∧ nest [] evs = some [.object]) ∧
    (∃ evs, parseEvents (chars! "/// doc\n{ a 1 }") = some evs ∧ nest [] evs = some [.object]) :=
  ⟨⟨_, rfl, by decide +kernel⟩, ⟨_, rfl, by decide +kernel⟩⟩

/-- A document with unclosed and mismatched brackets: its events are balanced all the same. -/
example : ∃ evs, parseEvents (chars! "a.b (1 {c @d(}, e>f g\nh }") = some evs ∧
    nest [] evs = some [] ∧ 30 < evs.length := ⟨_, rfl, by decide +kernel, by decide +kernel⟩

/-! ## C13 -/

/-- **C13**: in an error-free stream (document or expression), what follows an entry start is exactly
one key, then the events of exactly one value, then the end of that entry. -/
theorem C13_entry (source : List Char) (evs pre post : List Event) (sp : Span)
    (h : parseEvents source = some evs ∨ parseExprEvents source = some evs) (hn : NoError evs)
    (hs : evs = pre ++ ⟨sp, .entryStart⟩ :: post) :
    ∃ tag payload kind value rest, IsValue value ∧
      kinds post = .key tag payload kind :: value ++ .entryEnd :: rest := by
  have hok : EntryOK (kinds evs) := by
    rcases h with h | h
    · obtain ⟨evs', h', hr⟩ := parseEvents_run source
      rw [h] at h'
      cases h'
      exact shape_entryOK (run_shape hr hn)
    · obtain ⟨evs', h', hr⟩ := parseExprEvents_run source
      rw [h] at h'
      cases h'
      exact shape_entryOK (run_shape hr hn)
  obtain ⟨t, p, k, v, post', h1, h2⟩ := hok (kinds pre) (kinds post) (by rw [hs, kinds_append]; rfl)
  exact ⟨t, p, k, v, post', h2, h1⟩

/-- **C13**, whole documents: an error-free stream follows the document grammar, or it is the case of
`C12_false`, where a second object follows inside the root object. -/
theorem C13_document (source : List Char) (evs : List Event) (h : parseEvents source = some evs)
    (hn : NoError evs) :
    IsDocument (kinds evs) ∨
    ∃ cs es es', IsComments cs ∧ IsEntries es ∧ IsEntries es' ∧
      kinds evs = .documentStart :: cs ++ .objectStart :: es ++ .objectStart :: es' ++
        [.objectEnd, .documentEnd] := by
  obtain ⟨evs', h', hr⟩ := parseEvents_run source
  rw [h] at h'
  cases h'
  obtain ⟨cs, tl, h1, h2, h3⟩ := run_shape hr hn
  rw [h2]
  rcases h3 with rfl | ⟨ks', h4, rfl⟩
  · exact Or.inl (.empty h1)
  · rcases h4 with ⟨es, h5, rfl⟩ | ⟨es, ks'', h5, ⟨es', h6, rfl⟩, rfl⟩
    · left
      have := IsDocument.root h1 h5
      simpa using this
    · exact Or.inr ⟨cs, es, es', h1, h5, h6, by simp⟩

/-- **C13**, expressions: an error-free stream is empty or one value, after comments. -/
theorem C13_expression (source : List Char) (evs : List Event) (h : parseExprEvents source = some evs)
    (hn : NoError evs) :
    kinds evs = [] ∨ ∃ cs v, IsComments cs ∧ IsValue v ∧ kinds evs = cs ++ v := by
  obtain ⟨evs', h', hr⟩ := parseExprEvents_run source
  rw [h] at h'
  cases h'
  exact run_shape hr hn

/-- Error-free documents with dotted keys, attributes, tags and implicit units exist. -/
example : ∃ evs, parseEvents (chars! "a.b (1 {c @d(x)}) // c\ne f>g h>(i)\nj @k\nl") = some evs ∧
    NoError evs ∧ 40 < evs.length := ⟨_, rfl, by decide +kernel, by decide +kernel⟩

end Styx.Props
