import Verif.Cst.ViewLemmas
import Verif.Cst.ReadValue
import Verif.Props.Check
import Verif.Props.Text

/-! # Property theorem C124: the typed views of the syntax tree show the document

`Verif.Text.Grammar` (how documents are written) and `Verif.Cst.ViewSpec` are the specifications. -/

namespace Styx.Props

open Styx Styx.Spec Styx.Cst

/-- **C124** (partial: no `\u` escapes, attributes and keys with tags, no braces around the root and chains of tags; raw
strings are shown with their quotes, heredocs with their indentation, and of the doc comments only the nearest lines, in
reverse; the false cases below show why).  A program that reads an
accepted document through the typed views finds its root entries in order: the path as the text of the key, every value
with everything in it, and lines of its doc comment. -/
theorem C124_partial {es : List RootEntry} {s : List Char} (h : RootText es s) (ho : (Cst.parse s).isOk = true)
    (hu : NoUnicodeEscape s) (ha : NoAttributes (Cst.parse s).green)
    (hk : ∀ e ∈ es, ∀ k ∈ e.keys, WordKeyValue k) (hv : ∀ e ∈ es, Viewable e.value) :
    ∃ cs, (Cst.parse s).green = .node .DOCUMENT cs ∧ ShowsRoot (viewEntries [] cs) es := by
  obtain ⟨g, ks, h1, h2, h3⟩ := parse_root h ho
  have herr : (Cst.parse s).errors = [] := by simpa [Parse.isOk] using ho
  have hc : Clear (Cst.parse s).green :=
    ⟨⟨⟨parse_shaped s herr, C26_kinds s⟩, by rw [UniFree, (C26_cst_lossless s).2]; exact hu⟩, ha⟩
  rw [h1] at hc
  have hn : ∀ k c, .node k c ∈ g → k = .ENTRY := fun k c hm => hc.calm.ok.shape _ hm
  refine ⟨g, h1, root_shows h3 hk hv (fun x hx y hy => ?_) _ (aligned_kids hn h2 List.nil_prefix)⟩
  obtain ⟨k, hm⟩ := kidsOf_mem h2 x hx
  exact (hc.kids _ hm).kids y hy

/-- **C124**, looking up a key in an object that shows the entries `es`: an entry is found exactly if one of `es` has that
key (unless it is a raw string), and it shows the value and the doc comment of such an entry. -/
theorem C124_get_partial {cs : List Green} {es : List Entry}
    (h : Shows (.object cs) (.mk none (some (.object es none)) none)) (w : List Char) :
    (∀ x, objectGet cs w = some x → ∃ u k v d, TextShown w u k ∧ .mk (scalarValue u k) v d ∈ es ∧
      ((∃ c, Cst.entryValue x.2 = some c ∧ Shows (valueKind c) v) ∨
        (Cst.entryValue x.2 = none ∧ v = .mk none none none)) ∧ ShowsDocs (docComments x.1) d) ∧
    ((∃ k v d, k ≠ .raw ∧ .mk (scalarValue w k) v d ∈ es) → (objectGet cs w).isSome = true) := by
  cases h with
  | object h =>
    obtain ⟨h1, h2⟩ := entries_get (w := w) h
    refine ⟨h1, ?_⟩
    rintro ⟨k, v, d, hr, hm⟩
    rw [objectGet]
    cases hg : (viewEntries [] cs).find? fun e => entryKeyText e.2 == some w with
    | none => exact absurd hm (h2 hg k v d hr)
    | some x => rfl

/-- **C124**, the length of a sequence that shows the items `vs`. -/
theorem C124_len_partial {cs : List Green} {vs : List Value}
    (h : Shows (.sequence cs) (.mk none (some (.sequence vs none)) none)) :
    seqLen cs = vs.length ∧ (seqIsEmpty cs = true ↔ vs = []) := by
  cases h with
  | sequence h =>
    have := items_length h
    refine ⟨this, ?_⟩
    rw [seqIsEmpty, seqLen, this]
    simp

/-- **C124**, tags, also in chains: every tag of an accepted document has a name, and a payload that is a typed value
exactly if something is written directly after the name. -/
theorem C124_tags_partial {s : List Char} (ho : (Cst.parse s).isOk = true) {n : Nat} {cs : List Green}
    (h : Placed (Cst.parse s).green n (.node .TAG cs)) :
    (∃ m, viewTagName cs = some m ∧ TagName m) ∧ ((viewPayload cs = none ∧ ∃ t, cs = [.token .TAG_TOKEN t]) ∨
      ∃ t c g k, cs = [.token .TAG_TOKEN t, .node .TAG_PAYLOAD c] ∧ viewPayload cs = some g ∧ castNode g = some k ∧
        g ∈ c) :=
  tag_views (placed_ok ⟨parse_shaped s (by simpa [Parse.isOk] using ho), C26_kinds s⟩ h)

/-! ## C124 is false of the code -/

/-- The keys of the entries of a document and their values, as seen through the views, scalars and heredocs only. -/
def seenPairs (s : List Char) : List (Option (List Char) × Option (List Char)) :=
  match (Cst.parse s).green with
  | .node _ cs => (viewEntries [] cs).map fun e => (entryKeyText e.2, (Cst.entryValue e.2).bind fun c =>
      match valueKind c with
      | .scalar c => some (scalarContent c)
      | .heredoc c => some (heredocContent c)
      | _ => none)
  | .token _ _ => []

/-- The doc comments of the entries of a document, as seen through the views. -/
def seenDocs (s : List Char) : List (List (List Char)) :=
  match (Cst.parse s).green with
  | .node _ cs => (viewEntries [] cs).map fun e => docComments e.1
  | .token _ _ => []

/-- The texts of the scalars at the root of a document, in the tree. -/
def treePairs (s : List Char) : List (Option (List Char) × Option (List Char)) :=
  match parseTree s with
  | some (.ok (.mk _ (some (.object es _)) _)) => es.map fun
    | .mk k v _ => ((match k with | .mk _ (some (.scalar t _ _)) _ => some t | _ => none),
        match v with | .mk _ (some (.scalar t _ _)) _ => some t | _ => none)
  | _ => []

/-- **C124 is false** of raw strings: the text still has the quotes. -/
theorem C124_raw_false :
    seenPairs (chars! "a r#\"x\"#") = [(some ['a'], some (chars! "r#\"x\"#"))] ∧
    treePairs (chars! "a r#\"x\"#") = [(some ['a'], some ['x'])] := by
  constructor <;> decide +kernel

/-- **C124 is false** of unicode escapes, which are not resolved. -/
theorem C124_unicode_false :
    seenPairs (chars! "a \"\\u0062\"") = [(some ['a'], some (chars! "\\u0062"))] ∧
    treePairs (chars! "a \"\\u0062\"") = [(some ['a'], some ['b'])] := by
  constructor <;> decide +kernel

/-- **C124 is false** of indented heredocs: the indentation is in the content. -/
theorem C124_heredoc_false :
    seenPairs (chars! "a <<E\n  x\n  E\n") = [(some ['a'], some (chars! "  x\n"))] ∧
    treePairs (chars! "a <<E\n  x\n  E\n") = [(some ['a'], some (chars! "x\n"))] := by
  constructor <;> decide +kernel

/-- **C124 is false** of attributes: the value is missing, as after an error, although there is none. -/
theorem C124_attributes_false : (Cst.parse (chars! "a x>1")).isOk = true ∧
    (match (Cst.parse (chars! "a x>1")).green with
      | .node _ cs => (viewEntries [] cs).map fun e => (Cst.entryValue e.2).map fun c =>
          match valueKind c with | .missing => true | _ => false
      | _ => []) = [some true] := by
  constructor <;> decide +kernel

/-- **C124 is false** of keys that are not scalars: the text of the keys `@` and `@t` is empty, as that of the key `""`; and
braces around the root are a key with an empty text. -/
theorem C124_keys_false :
    seenPairs (chars! "@ 1\n@t 2\n\"\" 3") =
      [(some [], some ['1']), (some [], some ['2']), (some [], some ['3'])] ∧
    seenPairs (chars! "{a 1}") = [(some [], none)] ∧
    treePairs (chars! "{a 1}") = [(some ['a'], some ['1'])] := by
  refine ⟨?_, ?_, ?_⟩ <;> decide +kernel

/-- **C124 is false** of doc comments: the lines come in reverse, and a comment or a comma between them hides the lines
before it, which the tree keeps (they belong to an entry without key and value). -/
theorem C124_docs_false :
    seenDocs (chars! "/// a\n/// b\nk 1") = [[chars! "/// b", chars! "/// a"]] ∧
    seenDocs (chars! "/// a\n// c\n/// b\nk 1") = [[chars! "/// a"], [chars! "/// b"]] ∧
    seenPairs (chars! "/// a\n// c\n/// b\nk 1") = [(none, none), (some ['k'], some ['1'])] ∧
    (match parseTree (chars! "/// a\n// c\n/// b\nk 1") with
      | some (.ok (.mk _ (some (.object [.mk _ _ d] _)) _)) => d
      | _ => none) = some (chars! "a\nb") := by
  refine ⟨?_, ?_, ?_, ?_⟩ <;> decide +kernel

/-! ## The theorems apply -/

mutual
/-- A checkable form of `NoAttributes`. -/
def noAttributes : Green → Bool
  | .token _ _ => true
  | .node k cs => k != .ATTRIBUTES && noAttributesL cs
/-- … of lists. -/
def noAttributesL : List Green → Bool
  | [] => true
  | g :: gs => noAttributes g && noAttributesL gs
end

mutual
theorem noAttributes_of : ∀ g : Green, noAttributes g = true → NoAttributes g
  | .token _ _, _ => trivial
  | .node k cs, h => by
    rw [noAttributes, Bool.and_eq_true] at h
    exact ⟨by simpa using h.1, noAttributesL_of cs h.2⟩
theorem noAttributesL_of : ∀ gs : List Green, noAttributesL gs = true → NoAttributesL gs
  | [], _ => trivial
  | g :: gs, h => by
    rw [noAttributesL, Bool.and_eq_true] at h
    exact ⟨noAttributes_of g h.1, noAttributesL_of gs h.2⟩
end

/-- The root entry of the document below. -/
def viewedEntries : List RootEntry :=
  [⟨[scalarValue (chars! "a") .bare, scalarValue (chars! "b") .bare], [chars! "a", chars! "b"],
    .mk none (some (.object [.mk (scalarValue (chars! "x") .bare)
      (.mk none (some (.sequence [scalarValue (chars! "1") .bare, .mk (some ⟨chars! "t", none⟩) none none] none)) none)
      none] none)) none, some (chars! "doc")⟩]

theorem viewed_text : RootText viewedEntries (chars! "/// doc\na.b {x (1 @t)} // c") := by
  have hseq : ItemsText [scalarValue (chars! "1") .bare, .mk (some ⟨chars! "t", none⟩) none none] (chars! "1 @t)") :=
    .cons (g := []) (s := chars! "1") (t := chars! " @t)") .nil (.scalar (.bare (bareText_of_ok rfl)))
      (.cons (g := [' ']) (s := chars! "@t") (t := [')']) (.blank (.inl rfl) .nil)
        (.tag ⟨'t', [], rfl, by decide, by decide⟩) (.nil (g := []) .nil) (.inr ⟨')', [], rfl, by decide⟩))
      (.inr ⟨' ', _, rfl, by decide⟩)
  have hobj : EntriesText [.mk (scalarValue (chars! "x") .bare) (.mk none (some (.sequence [scalarValue (chars! "1") .bare,
      .mk (some ⟨chars! "t", none⟩) none none] none)) none) none] (chars! "x (1 @t)}") :=
    .cons (g := []) (dt := []) (ls := []) (ks := chars! "x") (b := [' ']) (s := chars! "(1 @t)") (tr := []) (t := ['}'])
      .nil .nil (.scalar (.bare (bareText_of_ok rfl)) (by decide)) (by simp [Blanks, Blank]) (by decide)
      (.sequence hseq) .none (.nil (g := []) .nil) trivial
      ⟨[], ['}'], rfl, by simp [Blanks], .inr ⟨'}', [], rfl, .inr rfl⟩⟩
  exact .cons (g := []) (dt := chars! "/// doc\n") (ls := [chars! "doc"]) (kt := chars! "a.b")
    (b := [' ']) (s := chars! "{x (1 @t)}") (tr := chars! " // c") (t := []) .nil
    (.cons (l := chars! "doc") (body := chars! " doc") (n := ['\n']) (g := []) (t := []) (.inl rfl) (by decide)
      (.inl rfl) .nil .nil)
    (.path (segs := [chars! "a", chars! "b"]) (by decide) (by decide) (bareText_of_ok rfl))
    (by simp [Blanks, Blank]) (by decide) (.object hobj (by simp [DistinctKeys]))
    (.comment (b := [' ']) (c := chars! "// c") (by simp [Blanks, Blank]) ⟨chars! " c", rfl, by decide, by decide⟩)
    (.nil .nil) trivial (.inl rfl)

-- keep the elaborator from evaluating the parser
attribute [local irreducible] Cst.parse

/-- The hypotheses are met by a document with a dotted key, a doc comment, an object, a sequence and a tag. -/
example : ∃ cs, (Cst.parse (chars! "/// doc\na.b {x (1 @t)} // c")).green = .node .DOCUMENT cs ∧
    ShowsRoot (viewEntries [] cs) viewedEntries :=
  C124_partial viewed_text (by decide +kernel)
    (by
      have hd : ('\\' ∉ chars! "/// doc\na.b {x (1 @t)} // c") := by decide
      intro a b h
      exact hd (by rw [h]; simp))
    (noAttributes_of _ (by decide +kernel))
    (by
      intro e he k hk
      obtain rfl := List.mem_singleton.1 he
      simp only [List.mem_cons, List.not_mem_nil, or_false] at hk
      rcases hk with rfl | rfl <;> exact ⟨_, _, rfl⟩)
    (by
      intro e he
      obtain rfl := List.mem_singleton.1 he
      simp only [Viewable, ViewableEntries, ViewableItems, scalarValue, and_true]
      exact ⟨_, _, rfl⟩)


end Styx.Props
