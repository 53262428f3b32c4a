import Verif.Editor.MonacoDoc
import Verif.Editor.MonacoOrder
import Verif.Props.Text

/-! # Property theorems C117: what the Monaco editor colours

`Verif.Editor.MonacoSpec` (coloured documents) is the specification. -/

namespace Styx.Props

open Styx Styx.Spec Styx.Monaco

/-- **C117** for documents without attributes, without quoted strings over several lines and without raw strings that have no
hashes or stand directly behind a tag: every character has the colour of what it is in the document the parser reads, keys
those of keys and values those of values, at every depth and in every layout. -/
theorem C117_partial {es : List RootEntry} {p : Painted} (h : PRoot es p) (hp : PlainText (text p)) :
    RootText es (text p) ∧ colours (text p) = p :=
  ⟨h.root, colours_root h hp⟩

/-- **C117**, with the parser: such a document is read as `es`, if no path conflicts, and coloured accordingly. -/
theorem C117_parsed_partial {es : List RootEntry} {p : Painted} (h : PRoot es p) (hp : PlainText (text p))
    (hc : Consistent (callsOf es)) :
    (∃ t, parseTree (text p) = some (.ok t) ∧ erase t = .mk none (some (.object (es.map RootEntry.tree) none)) none) ∧
      colours (text p) = p :=
  ⟨C47_document h.root hc, colours_root h hp⟩

/-- **C117**, tokens: whatever stands in a line, and whatever came before it, the tokens of the line begin with it, are in
order, and none begins behind it. -/
theorem C117_tokens {line : List Char} (hl : line ≠ []) (st : St) :
    (Monaco.tokenize line st).1.head?.map (·.1) = some 0 ∧ ((Monaco.tokenize line st).1.map (·.1)).Pairwise (· ≤ ·) ∧
      ∀ t ∈ (Monaco.tokenize line st).1, t.1 < line.length := by
  obtain ⟨h, s, vs, hs⟩ := tokenize_within line hl st
  exact ⟨by rw [hs]; rfl, h.1, fun t ht => (h.2 t ht).2⟩

/-- **C117**, no gaps: every character of every text but the line breaks has a colour. -/
theorem C117_coloured (doc : List Char) : text (colours doc) = doc ∧ ∀ x ∈ colours doc, x.2 = none ↔ x.1 = '\n' := by
  have hpaint : ∀ (st : St) (l : List Char), text (paint (Monaco.tokenize l st).1 l) = l ∧
      ∀ x ∈ paint (Monaco.tokenize l st).1 l, x.1 ∈ l ∧ x.2 ≠ none := by
    intro st l
    refine ⟨?_, ?_⟩
    · simp only [text, paint, List.map_map]
      exact List.zipIdx_map_fst 0 l
    · intro x hx
      obtain ⟨⟨c, i⟩, hm, rfl⟩ := List.mem_map.1 hx
      refine ⟨?_, ?_⟩
      · have := List.mem_map_of_mem (f := Prod.fst) hm
        rw [List.zipIdx_map_fst] at this
        exact this
      · have hl : l ≠ [] := by rintro rfl; simp at hm
        obtain ⟨_, s, vs, hs⟩ := tokenize_within l hl st
        rw [hs]
        simp only [colourAt_cons]
        cases colourAt vs i <;> simp
  have key : ∀ (ls : List (List Char)) (st : St), (∀ l ∈ ls, '\n' ∉ l) →
      text (colourLines st ls) = (List.intersperse ['\n'] ls).flatten ∧
      ∀ x ∈ colourLines st ls, x.2 = none ↔ x.1 = '\n' := by
    intro ls
    induction ls with
    | nil => intro st _; simp [colourLines, text]
    | cons l ls ih =>
      intro st hl
      have hx : ∀ x ∈ paint (Monaco.tokenize l st).1 l, x.2 = none ↔ x.1 = '\n' := by
        intro x hx
        obtain ⟨h1, h2⟩ := (hpaint st l).2 x hx
        exact ⟨fun h => absurd h h2, fun h => absurd (h ▸ h1) (hl l (by simp))⟩
      cases ls with
      | nil => exact ⟨by simp [colourLines, (hpaint st l).1], hx⟩
      | cons l' ls =>
        obtain ⟨h1, h2⟩ := ih (Monaco.tokenize l st).2 (fun m hm => hl m (by simp [hm]))
        refine ⟨?_, ?_⟩
        · simp only [colourLines, text_append, (hpaint st l).1]
          show l ++ '\n' :: text (colourLines _ (l' :: ls)) = _
          rw [h1]
          simp [List.intersperse]
        · intro x hm
          simp only [colourLines] at hm
          rcases List.mem_append.1 hm with hm | hm
          · exact hx x hm
          · rcases List.mem_cons.1 hm with rfl | hm
            · simp
            · exact h2 x hm
  have hlines : ∀ doc : List Char, (∀ l ∈ linesOf doc, '\n' ∉ l) ∧ (List.intersperse ['\n'] (linesOf doc)).flatten = doc := by
    intro doc
    induction doc with
    | nil => simp [linesOf]
    | cons c cs ih =>
      by_cases hc : c = '\n'
      · subst hc
        refine ⟨?_, ?_⟩
        · simp only [linesOf, if_true]
          intro l hl
          rcases List.mem_cons.1 hl with rfl | hl
          · simp
          · exact ih.1 l hl
        · have := linesOf_ne cs
          simp only [linesOf, if_true]
          cases hq : linesOf cs with
          | nil => exact absurd hq this
          | cons a b =>
            rw [hq] at ih
            simpa [List.intersperse] using ih.2
      · obtain ⟨ls, hq⟩ := linesOf_line cs
        rw [hq] at ih
        simp only [linesOf, hc, if_false, hq]
        refine ⟨?_, ?_⟩
        · intro l hl
          rcases List.mem_cons.1 hl with rfl | hl
          · have := ih.1 _ (List.mem_cons_self ..)
            simp only [List.mem_cons, not_or]
            exact ⟨fun h => hc h.symm, this⟩
          · exact ih.1 l (by simp [hl])
        · have := ih.2
          cases ls <;> simp_all [List.intersperse]
  obtain ⟨h1, h2⟩ := hlines doc
  obtain ⟨h3, h4⟩ := key (linesOf doc) initial h1
  exact ⟨h3.trans h2, h4⟩

/-! ## Where it fails -/

/-- A document with the key `k` and a value. -/
theorem k_document {v : Value} {e : Tail} {s : List Char} (h : ValueText v e s) (hf : Follows e []) :
    RootText [⟨[scalarValue ['k'] .bare], [['k']], v, none⟩] ('k' :: ' ' :: s) :=
  entry_document (k := ['k']) (bareText_of_ok rfl) (by decide) h hf

/-- Attributes: in `k a>1` the mark is painted as an error, and the value `1` as a key. -/
theorem C117_attribute_false :
    RootText [⟨[scalarValue ['k'] .bare], [['k']], .mk none (some (.object
      [.mk (scalarValue ['a'] .bare) (scalarValue ['1'] .bare) none] none)) none, none⟩] (chars! "k a>1") ∧
    colours (chars! "k a>1") = ink .key ['k'] ++ ink .white [' '] ++ ink .value ['a'] ++ ink .invalid ['>'] ++
      ink .key ['1'] :=
  ⟨k_document (.attributes (.one (k := ['a']) (bareText_of_ok rfl) (.scalar (.bare (bareText_of_ok rfl))) trivial))
    ⟨.inl rfl, [], [], rfl, by simp [Blanks], .inl (.inl rfl)⟩, by decide +kernel⟩

/-- Raw strings without hashes: in `k r"x"` the mark is painted as the value, and the string as a key. -/
theorem C117_raw_false :
    RootText [⟨[scalarValue ['k'] .bare], [['k']], scalarValue ['x'] .raw, none⟩] (chars! "k r\"x\"") ∧
    colours (chars! "k r\"x\"") = ink .key ['k'] ++ ink .white [' '] ++ ink .value ['r'] ++ ink .stringKey (chars! "\"x\"") := by
  refine ⟨k_document (.scalar (.raw (n := 0) (c := ['x']) (by decide) ?_)) trivial, by decide +kernel⟩
  intro a b h
  have : '"' ∈ ['x'] := by rw [h]; simp
  exact absurd this (by decide)

/-- Raw strings behind a tag: in `k @tr#"x"#` the `r` is painted as a part of the tag, the hashes as keys, and the rest as
another string. -/
theorem C117_payload_false :
    RootText [⟨[scalarValue ['k'] .bare], [['k']], .mk (some ⟨['t'], none⟩) (some (.scalar ['x'] .raw none)) none, none⟩]
      (chars! "k @tr#\"x\"#") ∧
    colours (chars! "k @tr#\"x\"#") = ink .key ['k'] ++ ink .white [' '] ++ ink .tag (chars! "@tr") ++ ink .key ['#'] ++
      ink .string (chars! "\"x\"") ++ ink .key ['#'] := by
  refine ⟨k_document (s := chars! "@tr#\"x\"#") (.tagged (n := ['t']) (s := chars! "r#\"x\"#") ⟨'t', [], rfl, by decide, by simp⟩
    (.scalar (.raw (n := 1) (c := ['x']) (by decide) ?_)) ⟨'r', _, rfl, by simp⟩) trivial, by decide +kernel⟩
  intro a b h
  have : '"' ∈ ['x'] := by rw [h]; simp
  exact absurd this (by decide)

/-- Quoted strings over several lines: if a line of one ends with an escaped quote, the next line is painted as an entry, and
its closing quote as the start of a string. -/
theorem C117_lines_false :
    RootText [⟨[scalarValue ['k'] .bare], [['k']], scalarValue (chars! "a\"\nb") .quoted, none⟩] (chars! "k \"a\\\"\nb\"") ∧
    colours (chars! "k \"a\\\"\nb\"") = ink .key ['k'] ++ ink .white [' '] ++ ink .string (chars! "\"a") ++
      ink .stringEscape (chars! "\\\"") ++ brk ++ ink .key ['b'] ++ ink .string ['"'] := by
  refine ⟨k_document (.scalar (.quoted (body := chars! "a\\\"\nb") ?_ ?_)) trivial, by decide +kernel⟩
  · exact .plain (by decide) (by decide) (.esc (.plain (by decide) (by decide) (.plain (by decide) (by decide) .nil)))
  · exact .plain (by decide) (.simple (e := '"') (by decide) (.plain (by decide) (.plain (by decide) .nil)))

/-- Heredocs: a line with a blank behind the delimiter does not end the heredoc, but is painted as its end: the content
behind it is painted as an entry, and the true end as a key. -/
theorem C117_heredoc_false :
    RootText [⟨[scalarValue ['k'] .bare], [['k']], scalarValue (chars! "A \nx 1\n") .heredoc, none⟩]
      (chars! "k <<A\nA \nx 1\nA") ∧
    colours (chars! "k <<A\nA \nx 1\nA") = ink .key ['k'] ++ ink .white [' '] ++ ink .stringHeredoc (chars! "<<A") ++ brk ++
      ink .stringHeredoc (chars! "A ") ++ brk ++ ink .key ['x'] ++ ink .white [' '] ++ ink .value ['1'] ++ brk ++
      ink .key ['A'] := by
  refine ⟨k_document (.scalar (.heredoc (d := ['A']) (lang := []) (nl := ['\n']) (ind := []) (ls := [chars! "A ", chars! "x 1"])
    ⟨'A', [], rfl, by decide, by simp, by decide⟩ (.inl rfl) (.inl rfl) (by simp [Blanks]) ?_)) (.inl rfl), by decide +kernel⟩
  intro l hl
  simp only [List.mem_cons, List.not_mem_nil, or_false] at hl
  rcases hl with rfl | rfl
  · refine ⟨by decide, ?_⟩
    rintro ⟨ind, _, h | h⟩
    · have := congrArg List.getLast? h
      simp at this
    · have := congrArg List.getLast? h
      simp at this
  · refine ⟨by decide, ?_⟩
    rintro ⟨ind, _, h | h⟩
    · have := congrArg List.getLast? h
      simp at this
    · have := congrArg List.getLast? h
      simp at this

/-! ## A document -/

theorem no_quote {n : Nat} {c : List Char} (h : '"' ∉ c) : ∀ a b, c ≠ a ++ '"' :: List.replicate n '#' ++ b := by
  intro a b he
  exact h (by rw [he]; simp)

/-- A comment, a doc comment, a dotted key, an object on a line with a sequence, a tag with a string and a comma, a raw string
over two lines, a heredoc and a lone key. -/
example : ∃ es p, PRoot es p ∧ PlainText (text p) ∧ es.length = 4 ∧
    text p = chars! "// c\n/// d\na.b {x (1 @t\"\\n\"), \"y\" @}\nc r#\"v\nw\"# // e\nd <<E,sql\n q\n  E\n@f" := by
  have hb : Blanks [' '] := by simp [Blanks, Blank]
  -- `(1 @t"\n")`
  have hs1 := PItems.nil (.nil (commas := false))
  have hs2 := PItems.cons (.blank (commas := false) (c := ' ') (.inl rfl) .nil)
    (PValue.tagged (n := ['t']) ⟨'t', [], rfl, by decide, by simp⟩
      (.scalar (.quoted (body := chars! "\\n") (.esc .nil) (.simple (e := 'n') (d := '\n') (by decide) .nil) (by decide)))
      ⟨'"', _, rfl, by simp⟩) hs1 trivial
  have hs3 := PItems.cons (.nil (commas := false)) (PValue.scalar (.bare (s := ['1']) (bareText_of_ok rfl))) hs2
    (.inr ⟨' ', _, rfl, by decide⟩)
  -- `{x (1 @t"\n"), "y" @}`
  have ho1 := PEntries.nil (.nil (commas := true))
  have ho2 := PEntries.cons (b := [' ']) (.comma (commas := true) rfl (.blank (c := ' ') (.inl rfl) .nil)) .nil
    (PKey.scalar (.quoted (body := ['y']) (.plain (by decide) (by decide) .nil) (.plain (by decide) .nil) (by decide))) hb
    (by simp) PValue.unit .none ho1 (.inr ⟨'}', _, rfl, by decide⟩)
    (by unfold EntryEnd; exact ⟨[], _, rfl, by simp [Blanks], .inr ⟨'}', _, rfl, .inr rfl⟩⟩)
  have ho3 := PEntries.cons (b := [' ']) (.nil (commas := true)) .nil (PKey.scalar (.bare (s := ['x']) (bareText_of_ok rfl))) hb
    (by simp) (PValue.sequence hs3) .none ho2 trivial
    (by unfold EntryEnd; exact ⟨[], _, rfl, by simp [Blanks], .inr ⟨',', _, rfl, .inl rfl⟩⟩)
  -- the entries, from the last
  have h1 := PRoot.lone (.newline (commas := true) .nil) .nil
    (.other (PKey.tag (n := ['f']) ⟨'f', [], rfl, by decide, by simp⟩) (by intro v h; cases h)) .none (.nil .nil) (.inl rfl)
    (by unfold EntryEnd; exact ⟨[], [], rfl, by simp [Blanks], .inl (.inl rfl)⟩)
  have h2 := PRoot.cons (b := [' ']) (.newline (commas := true) .nil) .nil
    (.path (segs := [['d']]) (by simp) (by decide) (bareText_of_ok rfl)) hb (by simp)
    (PValue.scalar (.heredoc (d := ['E']) (lang := chars! ",sql") (ind := [' ', ' ']) (ls := [chars! " q"]) rfl
      ⟨'E', [], rfl, by decide, by simp, by decide⟩ (.inr ⟨'s', ['q', 'l'], rfl, by decide, by decide⟩)
      (by simp [Blanks, Blank]) (by
        intro l hl
        simp only [List.mem_cons, List.not_mem_nil, or_false] at hl
        subst hl
        refine ⟨by decide, ?_⟩
        rintro ⟨a, b, h, _⟩
        have : 'E' ∈ [' ', 'q'] := by rw [h]; simp
        exact absurd this (by decide)))) .none h1 (.inr (.inl ⟨_, rfl⟩))
    (by unfold EntryEnd; exact ⟨[], _, rfl, by simp [Blanks], .inl (.inr (.inl ⟨_, rfl⟩))⟩)
  have h3 := PRoot.cons (b := [' ']) (.newline (commas := true) .nil) .nil
    (.path (segs := [['c']]) (by simp) (by decide) (bareText_of_ok rfl)) hb (by simp)
    (PValue.scalar (.raw (n := 1) (c := chars! "v\nw") (by decide) (by decide) (no_quote (by decide))))
    (.comment (b := [' ']) (c := chars! "// e") hb ⟨[' ', 'e'], rfl, by decide, by decide⟩) h2 trivial
    (by unfold EntryEnd; exact .inr (.inl ⟨_, rfl⟩))
  have h4 := PRoot.cons (b := [' ']) (.comment (commas := true) (t := chars! "// c") ⟨[' ', 'c'], rfl, by decide, by decide⟩ .nil)
    (.cons (l := ['d']) (.inl rfl) (by decide) .nil .nil)
    (.path (segs := [['a'], ['b']]) (by simp) (by decide) (bareText_of_ok rfl)) hb (by simp)
    (PValue.object ho3 (by simp [DistinctKeys, keyId, entryKey, scalarValue])) .none h3 trivial
    (by unfold EntryEnd; exact ⟨[], _, rfl, by simp [Blanks], .inl (.inr (.inl ⟨_, rfl⟩))⟩)
  exact ⟨_, _, h4, by unfold PlainText; decide +kernel, rfl, by decide +kernel⟩

end Styx.Props
