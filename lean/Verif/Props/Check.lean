import Verif.Cst.CheckText
import Verif.Props.Relayout
import Verif.Props.Text

/-! # Property theorems C71: the warnings for keys given twice and for mixed separators

`Verif.Cst.CheckSpec` is the specification. -/

namespace Styx.Props

open Styx Styx.Spec Styx.Cst

/-! ## For every source -/

/-- **C71**, duplicates: for every source, with or without errors, a warning for the key `v` is reported at a place
exactly if there is a document or object in which an entry before has the same key, and the place is that of the key. -/
theorem C71_duplicate (s : List Char) (a b : Nat) (v : List Char) :
    duplicateWarning a b v ∈ validate (Cst.parse s).green ↔ GivenTwice (Cst.parse s).green a b v :=
  given_twice_iff

/-- **C71**, separators: a warning for mixed separators is reported at a place exactly if there is an object there
with both commas and line breaks between its entries. -/
theorem C71_mixed (s : List Char) (a b : Nat) :
    mixedWarning a b ∈ validate (Cst.parse s).green ↔ MixedObject (Cst.parse s).green a b :=
  mixed_iff

/-- Nothing else is reported. -/
theorem C71_only (s : List Char) (d : Diagnostic) (h : d ∈ validate (Cst.parse s).green) :
    ∃ a b, d = mixedWarning a b ∨ ∃ v, d = duplicateWarning a b v :=
  validate_kinds h

/-- The places lie in the source, at the boundaries of characters: for a key they cut out a text whose first scalar
is the key, for an object the text of the object. -/
theorem C71_places (s : List Char) (d : Diagnostic) (h : d ∈ validate (Cst.parse s).green) :
    ∃ p t q, s = p ++ t ++ q ∧ utf8Len p = d.start ∧ utf8Len (p ++ t) = d.stop := by
  have hs : (Cst.parse s).green.text = s := (C26_cst_lossless s).2
  have fin : ∀ n g, Placed (Cst.parse s).green n g →
      ∃ p t q, s = p ++ t ++ q ∧ utf8Len p = n ∧ utf8Len (p ++ t) = n + utf8Len g.text := by
    intro n g hp
    obtain ⟨p, q, h1, h2⟩ := placed_text hp
    exact ⟨p, g.text, q, by rw [← h1, hs], h2, by rw [utf8Len_append', h2]⟩
  obtain ⟨a, b, rfl | ⟨v, rfl⟩⟩ := validate_kinds h
  · obtain ⟨cs, t, t', h1, h2, h3, rfl⟩ := mixed_iff.1 h
    exact fin _ _ h1
  · obtain ⟨n, k, pre, e1, mid, e2, post, h1, -, -, -, key, ⟨pre', post', rfl, -, rfl⟩, -, rfl⟩ := given_twice_iff.1 h
    exact fin _ _ (.child (.child h1))

/-! ## For the documents of the text grammar -/

/-- **C71** at the level of documents (partial: no raw strings as keys, no `\u` in the source, keys at the root that are
words or quoted strings without dots; the false cases below show why).  The key `v` is reported exactly if two entries
at the root have the same path, and `v` is that path: also if other entries are between them, which the parser itself
does not notice (C15). -/
theorem C71_document_partial {es : List RootEntry} {s : List Char} (h : RootText es s) (ho : (Cst.parse s).isOk = true)
    (hu : NoUnicodeEscape s) (hw : ∀ e ∈ es, WordKey e) (hr : ∀ e ∈ es, NoRawKeys e.value) (v : List Char) (hv : v ≠ []) :
    (∃ a b, duplicateWarning a b v ∈ validate (Cst.parse s).green) ↔
      ∃ l1 e1 l2 e2 l3, es = l1 ++ e1 :: l2 ++ e2 :: l3 ∧ e1.path = e2.path ∧ dotted e1.path = v := by
  obtain ⟨g, ks, h1, h2, h3⟩ := parse_root h ho
  have herr : (Cst.parse s).errors = [] := by simpa [Parse.isOk] using ho
  have hc : Calm (Cst.parse s).green :=
    ⟨⟨parse_shaped s herr, C26_kinds s⟩, by rw [UniFree, (C26_cst_lossless s).2]; exact hu⟩
  rw [h1] at hc ⊢
  exact document_duplicates h2 h3 hc hw hr hv

/-! ## C71 is false of the code -/

/-- The warnings of a source. -/
def warnings (s : List Char) : List (List Char) := (validate (Cst.parse s).green).map (·.message)

/-- **C71 is false**, missed: the same key written with a unicode escape or as a raw string, the empty key, and tags as
keys. -/
theorem C71_false_missed :
    warnings (chars! "a 1\n\"\\u0061\" 2") = [] ∧ warnings (chars! "a 1\nr\"a\" 2") = [] ∧
    warnings (chars! "\"\" 1\n\"\" 2") = [] ∧ warnings (chars! "@t 1\n@t 2") = [] ∧ warnings (chars! "@ 1\n@ 2") = [] := by
  refine ⟨?_, ?_, ?_, ?_, ?_⟩ <;> decide +kernel

/-- **C71 is false**, spurious: a dotted path and a quoted key with a dot, and an escape that is not resolved. -/
theorem C71_false_spurious :
    warnings (chars! "a.b 1\n\"a.b\" 2") = [chars! "duplicate key: `a.b`"] ∧
    warnings (chars! "\"\\u0061\" 1\n\"\\\\u0061\" 2") = [chars! "duplicate key: `\\u0061`"] ∧
    warnings (chars! "r\"a\" 1\n\"r\\\"a\\\"\" 2") = [chars! "duplicate key: `r\"a\"`"] := by
  refine ⟨?_, ?_, ?_⟩ <;> decide +kernel

/-! ## The theorems apply -/

/-- The same key twice with another between, and an object with both separators. -/
example : validate (Cst.parse (chars! "a 1\nb {x 1, y 2\nx 3}\na 2")).green =
    [duplicateWarning 21 22 ['a'], mixedWarning 6 20, duplicateWarning 16 17 ['x']] := by
  decide +kernel

/-- An entry of a word and a word. -/
def wordEntry (k v : List Char) : RootEntry := ⟨[scalarValue k .bare], [k], scalarValue v .bare, none⟩

theorem wordEntry_text {k v : List Char} {es : List RootEntry} {t : List Char} (hk : BareText k) (hd : '.' ∉ k)
    (hv : BareText v) (ht : RootText es ('\n' :: t)) : RootText (wordEntry k v :: es) ('\n' :: k ++ ' ' :: v ++ '\n' :: t) := by
  have hne : k ≠ [] := by
    obtain ⟨c, r, rfl, -⟩ := hk.2
    simp
  have := RootText.cons (g := ['\n']) (dt := []) (ls := []) (b := [' ']) (tr := [])
    (.newline (n := ['\n']) (.inl rfl) .nil) .nil
    (.path (segs := [k]) (by simp) (by simpa using ⟨hne, hd⟩) hk) (by simp [Blanks, Blank]) (by simp)
    (.scalar (.bare hv)) .none ht (.inr ⟨'\n', t, rfl, by simp⟩) (by
      rw [EntryEnd, if_pos rfl]
      exact ⟨[], '\n' :: t, rfl, by simp [Blanks], .inl (.inr (.inl ⟨t, rfl⟩))⟩)
  simpa [docOf, dotted, wordEntry] using this

theorem sample_twice : RootText [wordEntry ['a'] ['1'], wordEntry ['b'] ['2'], wordEntry ['a'] ['3']]
    (chars! "\na 1\nb 2\na 3\n") :=
  wordEntry_text (t := chars! "b 2\na 3\n") (bareText_of_ok rfl) (by decide) (bareText_of_ok rfl)
    (wordEntry_text (t := chars! "a 3\n") (bareText_of_ok rfl) (by decide) (bareText_of_ok rfl)
      (wordEntry_text (t := []) (bareText_of_ok rfl) (by decide) (bareText_of_ok rfl)
        (.nil (.newline (n := ['\n']) (.inl rfl) .nil))))

-- keep the elaborator from evaluating the parser
attribute [local irreducible] Cst.parse

/-- The second of the two entries for `a` is reported, although the parser accepts the document. -/
example : ∃ a b, duplicateWarning a b ['a'] ∈ validate (Cst.parse (chars! "\na 1\nb 2\na 3\n")).green :=
  (C71_document_partial sample_twice (by decide +kernel)
    (by
      have hd : ('\\' ∉ chars! "\na 1\nb 2\na 3\n") := by decide
      intro a b h
      exact hd (by rw [h]; simp))
    (by
      intro e he
      simp only [List.mem_cons, List.not_mem_nil, or_false] at he
      rcases he with rfl | rfl | rfl <;> exact .inl (fun k hk => ⟨_, List.mem_singleton.1 hk⟩))
    (by
      intro e he
      simp only [List.mem_cons, List.not_mem_nil, or_false] at he
      rcases he with rfl | rfl | rfl <;> simp [wordEntry, scalarValue, NoRawKeys])
    ['a'] (by simp)).2 ⟨[], _, [_], _, [], rfl, rfl, rfl⟩

end Styx.Props
