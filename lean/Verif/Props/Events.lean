import Verif.Parse.EventInv

/-! # Property theorems C10, C11, C17: totality, spans and tag payloads of the event stream -/

namespace Styx.Props

open Styx Styx.Spec

/-! ## C10 -/

/-- **C10**, termination: for every source the parser, in document mode and in expression mode, ends
after finitely many events (the fuel the model passes is always enough). -/
theorem C10_terminates (source : List Char) :
    (∃ evs, parseEvents source = some evs) ∧ (∃ evs, parseExprEvents source = some evs) := by
  obtain ⟨evs, h, _⟩ := parseEvents_good source
  obtain ⟨evs', h', _⟩ := parseExprEvents_good source
  exact ⟨⟨evs, h⟩, ⟨evs', h'⟩⟩

/-- **C10**, absence of panics.  Full statement: for every source no panic occurs.  This is false
(`C10_false_escape`, `C10_false_key`, `C10_false_raw`).  Proved, in both modes: a panic needs a `\u{` behind which a
character of several bytes lies across the ninth byte before any `}`, in the source or in the decoded content of a
quoted text behind a tag, or a run of 256 `#`. -/
theorem C10_no_panic_partial (source : List Char) (evs : List Event)
    (h : parseEvents source = some evs ∨ parseExprEvents source = some evs) (hc : ¬ CutEscape source)
    (hd : ∀ n raw v, '@' :: n ++ '"' :: raw ++ ['"'] <:+: source → Escaped raw v → ¬ CutEscape v)
    (hh : ¬ List.replicate 256 '#' <:+: source) : ∀ e ∈ evs, e.kind ≠ .panic := by
  have hg : Good source evs := by
    rcases h with h | h
    · obtain ⟨evs', h', hg⟩ := parseEvents_good source
      rw [h] at h'; cases h'; exact hg
    · obtain ⟨evs', h', hg⟩ := parseExprEvents_good source
      rw [h] at h'; cases h'; exact hg
  intro e he hk
  rcases (hg.1 e he).2.1 hk with h | ⟨n, raw, v, h1, h2, h3⟩ | h
  · exact hc h
  · exact hd n raw v h1 h2 h3
  · exact hh h

/-- **C10**, for sources without `\u`: a panic needs a run of 256 `#`. -/
theorem C10_no_panic_plain_partial (source : List Char) (evs : List Event)
    (h : parseEvents source = some evs ∨ parseExprEvents source = some evs)
    (hu : ¬ ['\\', 'u'] <:+: source) (hh : ¬ List.replicate 256 '#' <:+: source) :
    ∀ e ∈ evs, e.kind ≠ .panic := by
  refine C10_no_panic_partial source evs h (fun hc => hu hc.u) (fun n raw v h1 h2 h3 => hu ?_) hh
  exact (escaped_u h2 h3.u).trans (List.IsInfix.trans ⟨'@' :: n ++ ['"'], ['"'], by simp⟩ h1)

/-- **C10**, for ASCII sources in which no quote follows a tag: a panic needs a run of 256 `#`, whatever the escapes. -/
theorem C10_no_panic_ascii_partial (source : List Char) (evs : List Event)
    (h : parseEvents source = some evs ∨ parseExprEvents source = some evs) (ha : ∀ c ∈ source, c.toNat < 128)
    (hq : ∀ n, '"' ∉ n → ¬ '@' :: n ++ ['"'] <:+: source) (hh : ¬ List.replicate 256 '#' <:+: source) :
    ∀ e ∈ evs, e.kind ≠ .panic := by
  refine C10_no_panic_partial source evs h ?_ ?_ hh
  · rintro ⟨a, w, c, b, rfl, _, h1, h2⟩
    have : c.utf8Size = 1 := by
      have := ha c (by simp)
      simp only [Char.utf8Size]
      have : c.val.toNat < 128 := this
      rw [if_pos (by rw [UInt32.le_iff_toNat_le]; simp; omega)]
    omega
  · intro n raw v h1
    exfalso
    by_cases hn : '"' ∈ n
    · obtain ⟨x, y, rfl, hx⟩ := List.eq_append_cons_of_mem hn
      exact hq x hx (List.IsInfix.trans ⟨[], y ++ '"' :: raw ++ ['"'], by simp⟩ h1)
    · exact hq n hn (List.IsInfix.trans ⟨[], raw ++ ['"'], by simp⟩ h1)

/-- **C10** is false: a quoted value with a long malformed `\u{…}` of non-ASCII characters makes the
escape validation slice a string inside a character. -/
theorem C10_false_escape : ∃ evs e, parseEvents (chars! "a \"\\u{ééééééé}\"") = some evs ∧
    e ∈ evs ∧ e.kind = .panic :=
  ⟨_, ⟨⟨3, 3⟩, .panic⟩, rfl, by decide +kernel, rfl⟩

/-- **C10** is false: an ASCII source whose tagged key decodes to such a text makes it panic too. -/
theorem C10_false_key : (∀ c ∈ (chars! "@t\"\\\\u{1234567\\u{20ac}\" 1"), c.toNat < 128) ∧
    ∃ evs e, parseEvents (chars! "@t\"\\\\u{1234567\\u{20ac}\" 1") = some evs ∧ e ∈ evs ∧ e.kind = .panic :=
  ⟨by decide +kernel, _, ⟨⟨2, 2⟩, .panic⟩, rfl, by decide +kernel, rfl⟩

/-- **C10** is false: a raw string with 256 hashes and no content panics in the lexer. -/
theorem C10_false_raw : ∃ sp, parseExprEvents
    ('r' :: List.replicate 256 '#' ++ '"' :: '"' :: List.replicate 255 '#') = some [⟨sp, .panic⟩] :=
  ⟨⟨0, 514⟩, by decide +kernel⟩

/-- A source with errors of all sorts, but without panic. -/
example : ¬ ['\\', 'u'] <:+: (chars! "a \"\\q\" {b(>1 c>2 }\n@é <<X") ∧
    (parseEvents (chars! "a \"\\q\" {b(>1 c>2 }\n@é <<X")).isSome = true := by
  refine ⟨by decide +kernel, by decide +kernel⟩

/-- The hypotheses of `C10_no_panic_ascii_partial` are met by a source with long malformed escapes. -/
example : ∀ evs, parseEvents (chars! "a \"\\u{zzzzzzzzzzzz} \\q \\u12\"") = some evs → ∀ e ∈ evs, e.kind ≠ .panic :=
  fun evs h => C10_no_panic_ascii_partial _ evs (.inl h) (by decide +kernel)
    (fun n _ hi => absurd (hi.subset (a := '@') (by simp)) (by decide +kernel)) (by decide +kernel)

/-! ## C11 -/

theorem spanOK_slice {s : List Char} {sp : Span} (h : SpanOK s sp) :
    sp.start ≤ sp.stop ∧ sp.stop ≤ utf8Len s ∧ ∃ t, slice s sp.start sp.stop = some t := by
  obtain ⟨t, ht⟩ := spanOK_text h
  exact ⟨h.1, h.2.2.le, t, by rw [← sliceBytes_eq]; exact ht.slice⟩

/-- **C11**.  Full statement: every event's span is ordered, within the source and on character
boundaries (slicing the source with it succeeds).  This is false for escape errors in tagged quoted
keys (`C11_false`).  Proved: it holds in both modes for every event that is not an invalid-escape
error, and for every event at all if the source contains neither `\\` nor `\u`. -/
theorem C11_spans_partial (source : List Char) (evs : List Event)
    (h : parseEvents source = some evs ∨ parseExprEvents source = some evs) (e : Event) (he : e ∈ evs)
    (hk : (∀ seq, e.kind ≠ .error (.invalidEscape seq)) ∨
      (¬ ['\\', '\\'] <:+: source ∧ ¬ ['\\', 'u'] <:+: source)) :
    e.span.start ≤ e.span.stop ∧ e.span.stop ≤ utf8Len source ∧
      ∃ t, slice source e.span.start e.span.stop = some t := by
  have hg : Good source evs := by
    rcases h with h | h
    · obtain ⟨evs', h', hg⟩ := parseEvents_good source
      rw [h] at h'; cases h'; exact hg
    · obtain ⟨evs', h', hg⟩ := parseExprEvents_good source
      rw [h] at h'; cases h'; exact hg
  apply spanOK_slice
  rcases (hg.1 e he).1 with h | ⟨⟨seq, h1⟩, h2⟩
  · exact h
  · rcases hk with hk | ⟨hk1, hk2⟩
    · exact absurd h1 (hk seq)
    · rcases h2 with h2 | h2
      · exact absurd h2 hk1
      · exact absurd h2 hk2

/-- **C11** is false: the escape error in the tagged key of `@t"é\\q" v` is reported for bytes 4 to 6;
byte 4 is inside the `é`. -/
theorem C11_false : ∃ evs e, parseEvents (chars! "@t\"é\\\\q\" v") = some evs ∧ e ∈ evs ∧
    slice (chars! "@t\"é\\\\q\" v") e.span.start e.span.stop = none :=
  ⟨_, ⟨⟨4, 6⟩, .error (.invalidEscape ['\\', 'q'])⟩, rfl, by decide +kernel, by decide +kernel⟩

example : ∃ evs, parseEvents (chars! "é \"ü\\q\" {a.b 1}") = some evs ∧
    ⟨⟨6, 8⟩, .error (.invalidEscape ['\\', 'q'])⟩ ∈ evs := ⟨_, rfl, by decide +kernel⟩

/-! ## C17 -/

/-- **C17**, tags in value position.  In the events of every source (in both modes), the first event
after a tag start that is not an error or panic is either the tag's end, or it starts at the byte
right after the tag's name, or it is the next tag of a chain and a single `/` is in between.  So a tag
never takes a payload across a gap. -/
theorem C17_tag_payload_adjacent (source : List Char) (evs pre post errs : List Event) (sp : Span)
    (name : List Char) (e : Event)
    (h : parseEvents source = some evs ∨ parseExprEvents source = some evs)
    (hs : evs = pre ++ ⟨sp, .tagStart name⟩ :: errs ++ e :: post)
    (herr : ∀ x ∈ errs, (∃ k, x.kind = .error k) ∨ x.kind = .panic)
    (he : (∀ k, e.kind ≠ .error k) ∧ e.kind ≠ .panic) :
    e.kind = .tagEnd ∨
    e.span.start = sp.start + utf8Len ('@' :: name) ∨
    (e.span.start = sp.start + utf8Len ('@' :: name) + 1 ∧ (∃ n, e.kind = .tagStart n) ∧
      slice source (sp.start + utf8Len ('@' :: name)) e.span.start = some ['/']) := by
  have hg : Good source evs := by
    rcases h with h | h
    · obtain ⟨evs', h', hg⟩ := parseEvents_good source
      rw [h] at h'; cases h'; exact hg
    · obtain ⟨evs', h', hg⟩ := parseExprEvents_good source
      rw [h] at h'; cases h'; exact hg
  obtain ⟨e', h1, h2⟩ := hg.2 pre sp name (errs ++ e :: post) (by rw [hs]; simp)
  have hf : (errs ++ e :: post).find? isReal = some e := by
    rw [List.find?_append, List.find?_eq_none.mpr]
    · have : isReal e = true := by
        unfold isReal
        split
        · exact absurd ‹_› (he.1 _)
        · exact absurd ‹_› he.2
        · rfl
      simp [this]
    · intro x hx
      unfold isReal
      rcases herr x hx with ⟨k, hk⟩ | hk <;> rw [hk] <;> simp
  rw [hf] at h1
  cases h1
  have hl : utf8Len ('@' :: name) = 1 + utf8Len name := by simp [utf8_at]
  rw [hl]
  rcases h2 with h2 | h2 | ⟨h2, h3, h4⟩
  · exact Or.inl h2
  · exact Or.inr (Or.inl (by omega))
  · refine Or.inr (Or.inr ⟨by omega, h3, ?_⟩)
    have := h4.slice
    rw [sliceBytes_eq] at this
    simp only at this
    rw [h2]
    rw [show sp.start + (1 + utf8Len name) = sp.start + 1 + utf8Len name by omega]
    exact this

/-- **C17**, tags in key position.  A key event with a tag and a scalar payload covers exactly the text
of the tag followed directly by the text of the payload, which stands for the payload's value (for raw
strings: unless the source has 256 hashes in a row, see C07). -/
theorem C17_tagged_key_adjacent (source : List Char) (evs : List Event) (sp : Span)
    (tag value : List Char) (k : ScalarKind)
    (h : parseEvents source = some evs ∨ parseExprEvents source = some evs)
    (he : ⟨sp, .key (some tag) (some value) k⟩ ∈ evs) :
    ∃ payload, slice source sp.start sp.stop = some ('@' :: tag ++ payload) ∧
      (k = .bare → payload = value) ∧
      (k = .quoted → ∃ raw, payload = '"' :: raw ++ ['"'] ∧ Escaped raw value) ∧
      (k = .raw → RawFor payload value ∨ List.replicate 256 '#' <:+: source) ∧
      (k = .heredoc → HeredocFor payload value) := by
  have hg : Good source evs := by
    rcases h with h | h
    · obtain ⟨evs', h', hg⟩ := parseEvents_good source
      rw [h] at h'; cases h'; exact hg
    · obtain ⟨evs', h', hg⟩ := parseExprEvents_good source
      rw [h] at h'; cases h'; exact hg
  obtain ⟨text, h1, h2, h3⟩ := (hg.1 _ he).2.2 tag value k rfl
  exact ⟨text, by rw [← sliceBytes_eq]; exact h1.slice, h2, h3⟩

/-- Both a tagged key and a chained tag with a payload occur. -/
example : ∃ evs, parseEvents (chars! "@a\"x\" 1") = some evs ∧
    ⟨⟨0, 5⟩, .key (some ['a']) (some ['x']) .quoted⟩ ∈ evs := ⟨_, rfl, by decide +kernel⟩

example : ∃ pre post, parseEvents (chars! "a @c/@d(e)") =
    some (pre ++ ⟨⟨2, 10⟩, .tagStart ['c']⟩ :: [] ++ ⟨⟨5, 10⟩, .tagStart ['d']⟩ :: post) :=
  ⟨[⟨⟨0, 0⟩, .documentStart⟩, ⟨⟨0, 0⟩, .objectStart⟩, ⟨⟨0, 1⟩, .entryStart⟩,
      ⟨⟨0, 1⟩, .key none (some ['a']) .bare⟩],
    [⟨⟨7, 10⟩, .sequenceStart⟩, ⟨⟨8, 9⟩, .scalar ['e'] .bare⟩, ⟨⟨7, 10⟩, .sequenceEnd⟩,
      ⟨⟨5, 10⟩, .tagEnd⟩, ⟨⟨2, 10⟩, .tagEnd⟩, ⟨⟨2, 10⟩, .entryEnd⟩, ⟨⟨0, 0⟩, .objectEnd⟩,
      ⟨⟨10, 10⟩, .documentEnd⟩], by decide +kernel⟩

end Styx.Props
