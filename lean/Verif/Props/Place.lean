import Verif.Schema.Place
import Verif.Lsp.Diagnose
import Verif.Cli.Model
import Verif.Props.Symbols
import Verif.Props.Navigate

/-!
# C84: errors of validation are shown at the part of the document they are about
-/

namespace Styx.Props

open Styx Styx.Spec Styx.Lsp

variable {F : Type} (E : Schema.Env F) (sf : Schema.SchemaFile F)

/-- For an editor, the range is this text of the document. -/
def Selects (source : List Char) (range : Position × Position) (text : List Char) : Prop :=
  ∃ before after, source = before ++ text ++ after ∧ fromPosition source range.1 = text ++ after ∧
    fromPosition source range.2 = after

/-- **C84**, every schema and every value: every error is about a value that its path leads to, and its place is
the place of this value or of the key in question; no place is given when the value stands behind a tag. -/
theorem C84_errors_partial (n : Nat) (doc : Value) (r : Schema.Result)
    (h : Schema.validateDocument E sf n doc = some r) (e : Schema.Err) (he : e ∈ r.errors) :
    ∃ q w place, Schema.PathTo [] doc q w ∧ Schema.About q w place e ∧
      (place = w.span ∨ place = none ∧ Schema.BehindTag [] doc q w) := by
  have := Schema.validateDocument_placed h
  obtain ⟨q, w, place, ⟨h1, h2⟩, h3⟩ := this.1 e he
  exact ⟨q, w, place, h1, h3, h2⟩

/-- **C84**, the same for warnings. -/
theorem C84_warnings_partial (n : Nat) (doc : Value) (r : Schema.Result)
    (h : Schema.validateDocument E sf n doc = some r) (x : Schema.Warn) (hx : x ∈ r.warnings) :
    ∃ w, Schema.PathTo [] doc x.path w ∧ (x.span = w.span ∨ x.span = none ∧ Schema.BehindTag [] doc x.path w) := by
  obtain ⟨q, w, ⟨h1, h2⟩, rfl⟩ := (Schema.validateDocument_placed h).2 x hx
  exact ⟨w, h1, h2⟩

/-! ## What the editor shows -/

theorem pathTo_node {p q : List Char} {v w : Value} (h : Schema.PathTo p v q w) :
    ∃ y, Node y v ∧ y.span = w.span ∧ y.payload = w.payload := by
  induction h with
  | here => exact ⟨_, .self, rfl, rfl⟩
  | @entry p t es o sp e shown q w he hs _ ih =>
    obtain ⟨y, h1, h2⟩ := ih
    obtain ⟨k, v, d⟩ := e
    exact ⟨y, .inside (.value he) h1, h2⟩
  | @key p t es o sp e q w he _ ih =>
    obtain ⟨y, h1, h2⟩ := ih
    obtain ⟨k, v, d⟩ := e
    exact ⟨y, .inside (.key he) h1, h2⟩
  | item hx _ ih =>
    obtain ⟨y, h1, h2⟩ := ih
    exact ⟨y, .inside (.item (List.mem_of_getElem? hx)) h1, h2⟩
  | @payload p t pl sp q w _ ih =>
    obtain ⟨y, h1, h2, h3⟩ := ih
    cases h1 with
    | self => exact ⟨_, .self, h2, h3⟩
    | inside hc hn =>
      refine ⟨y, .inside ?_ hn, h2, h3⟩
      cases hc with
      | item hm => exact .item hm
      | key hm => exact .key hm
      | value hm => exact .value hm

theorem tree_covered {s : List Char} {v : Value} (h : parseTree s = some (.ok v)) (x w : Value) (hc : Child x v)
    (hw : Node w x) : ∃ sp text, w.span = some sp ∧ Covers s sp text := by
  obtain ⟨es, rfl, h2⟩ := parseTree_std h
  have hp : ∃ m n, Placed s m n w := by
    cases hc with
    | key hm => obtain ⟨m, n, _, _, h5⟩ := h2.mem hm; exact ⟨m, n, h5.node (.inl hw)⟩
    | value hm => obtain ⟨m, n, _, _, h5⟩ := h2.mem hm; exact ⟨m, n, h5.node (.inr hw)⟩
  obtain ⟨m, n, hp⟩ := hp
  obtain ⟨sp, h1, -⟩ := hp.own
  obtain ⟨t, a, b, g1, g2, g3⟩ := spanOK_text (hp.ok sp (.inl h1)).1
  exact ⟨sp, t, h1, a, b, g1, g2, g3⟩

theorem covers_selects {s text : List Char} {sp : Span} (hs : ∀ c ∈ s, c ≠ '\r' ∧ utf16Units c = 1)
    (h : Covers s sp text) : Selects s (spanRange s sp) text := by
  obtain ⟨a, b, rfl, h1, h2⟩ := h
  refine ⟨a, b, rfl, ?_, ?_⟩
  · show fromPosition (a ++ text ++ b) (offsetToPosition (a ++ text ++ b) sp.start) = text ++ b
    rw [h1, List.append_assoc]
    exact C51_send_partial a (text ++ b) (by rw [← List.append_assoc]; exact hs)
  · show fromPosition (a ++ text ++ b) (offsetToPosition (a ++ text ++ b) sp.stop) = b
    rw [h2, ← utf8Len_append]
    exact C51_send_partial (a ++ text) b hs

/-- The paths of a document without its schema declaration: the document itself, or inside an entry. -/
theorem pathTo_strip {s : List Char} {tree : Value} (h : parseTree s = some (.ok tree)) {q : List Char} {w : Value}
    (hp : Schema.PathTo [] (Cli.stripSchemaDeclaration tree) q w) :
    (q = [] ∧ w = Cli.stripSchemaDeclaration tree) ∨
    ∃ x y, Child x tree ∧ Node y x ∧ y.span = w.span ∧ y.payload = w.payload := by
  obtain ⟨es, rfl, -⟩ := parseTree_std h
  cases hp with
  | here => exact .inl ⟨rfl, rfl⟩
  | @entry _ _ es' _ _ e shown _ _ he hs hp =>
    obtain ⟨y, h1, h2⟩ := pathTo_node hp
    obtain ⟨k, v, d⟩ := e
    exact .inr ⟨v, y, .value (List.mem_filter.1 he).1, h1, h2⟩
  | @key _ _ es' _ _ e _ _ he hp =>
    obtain ⟨y, h1, h2⟩ := pathTo_node hp
    obtain ⟨k, v, d⟩ := e
    exact .inr ⟨k, y, .key (List.mem_filter.1 he).1, h1, h2⟩

theorem key_covered {s : List Char} {tree : Value} (h : parseTree s = some (.ok tree)) {q : List Char} {w : Value}
    (hp : Schema.PathTo [] (Cli.stripSchemaDeclaration tree) q w) {es : List Entry} {o : Option Span}
    (hw : w.payload = some (.object es o)) {x : Entry} (hx : x ∈ es) :
    ∃ sp text, x.key.span = some sp ∧ Covers s sp text := by
  obtain ⟨k, v, d⟩ := x
  rcases pathTo_strip h hp with ⟨rfl, rfl⟩ | ⟨c, y, hc, hn, -, hpl⟩
  · obtain ⟨es', rfl, -⟩ := parseTree_std h
    cases hw
    exact tree_covered h k k (.key (List.mem_filter.1 hx).1) .self
  · obtain ⟨t, p, sp⟩ := y
    rw [hw] at hpl
    cases hpl
    refine tree_covered h c k hc ?_
    clear hc
    generalize hz : Value.mk t (some (.object es o)) sp = z at hn
    induction hn with
    | self => subst hz; exact .inside (.key hx) .self
    | inside hc _ ih => exact .inside hc ih

/-- **C84**, in the editor: an error of validation is about a value of the document that its path leads to.  It is
shown as the text of this value, or of the key in question, unless the value is the whole document or stands
behind a tag.  For documents without carriage returns whose characters are all one UTF-16 unit (C51). -/
theorem C84_shown_partial (source : List Char) (tree : Value) (n : Nat) (r : Schema.Result)
    (hs : ∀ c ∈ source, c ≠ '\r' ∧ utf16Units c = 1) (h : parseTree source = some (.ok tree))
    (hr : Schema.validateDocument E sf n (Cli.stripSchemaDeclaration tree) = some r)
    (e : Schema.Err) (he : e ∈ r.errors) :
    ∃ q w place, Schema.PathTo [] (Cli.stripSchemaDeclaration tree) q w ∧ Schema.About q w place e ∧
      ((∃ sp text, e.span = some sp ∧ Covers source sp text ∧ Selects source (errorRange source tree e) text) ∨
        e.span = none ∧ (q = [] ∧ w = Cli.stripSchemaDeclaration tree ∨
          Schema.BehindTag [] (Cli.stripSchemaDeclaration tree) q w)) := by
  obtain ⟨q, w, place, h1, h2, h3⟩ := C84_errors_partial E sf n _ r hr e he
  refine ⟨q, w, place, h1, h2, ?_⟩
  have hsome : ∀ sp text, e.span = some sp → Covers source sp text →
      ∃ sp text, e.span = some sp ∧ Covers source sp text ∧ Selects source (errorRange source tree e) text := by
    intro sp text g1 g2
    refine ⟨sp, text, g1, g2, ?_⟩
    rw [errorRange, g1]
    exact covers_selects hs g2
  have hplace : e.span = place → (∃ sp text, e.span = some sp ∧ Covers source sp text ∧
      Selects source (errorRange source tree e) text) ∨
        e.span = none ∧ (q = [] ∧ w = Cli.stripSchemaDeclaration tree ∨
          Schema.BehindTag [] (Cli.stripSchemaDeclaration tree) q w) := by
    intro hep
    rcases h3 with h3 | ⟨h3, hb⟩
    · rcases pathTo_strip h h1 with ⟨rfl, rfl⟩ | ⟨c, y, hc, hn, hsp, -⟩
      · refine .inr ⟨?_, .inl ⟨rfl, rfl⟩⟩
        obtain ⟨es', rfl, -⟩ := parseTree_std h
        rw [hep, h3]; rfl
      · obtain ⟨sp, text, g1, g2⟩ := tree_covered h c y hc hn
        exact .inl (hsome sp text (by rw [hep, h3, ← hsp, g1]) g2)
    · exact .inr ⟨by rw [hep, h3], .inr hb⟩
  rcases h2 with ⟨-, g, -⟩ | ⟨name, es, o, -, -, -, -, g⟩ | ⟨x, shown, names, sug, es, o, g1, g2, -, -, -, g⟩ |
    ⟨x, es, o, g1, g2, -, -, g⟩
  · exact hplace g
  · exact hplace g
  · obtain ⟨sp, text, k1, k2⟩ := key_covered h h1 g1 g2
    exact .inl (hsome sp text (by rw [g, k1]) k2)
  · obtain ⟨sp, text, k1, k2⟩ := key_covered h h1 g1 g2
    exact .inl (hsome sp text (by rw [g, k1]) k2)

set_option synthInstance.maxSize 1000

/-- The errors of a document: path, place, range and kind. -/
def shownErrors (root : Schema.Schema Nat) (source : List Char) :
    Option (List (List Char × Option (Nat × Nat) × (Position × Position) × Schema.Kind)) :=
  match parseTree source with
  | some (.ok tree) => (Schema.validateDocument natEnv [(none, root)] 20 (Cli.stripSchemaDeclaration tree)).map fun r =>
      r.errors.map fun e => (e.path, e.span.map fun sp => (sp.start, sp.stop), errorRange source tree e, e.kind)
  | _ => none

/-- A word that is no number, an object where a number should be, an unknown key and a missing field: the first
three are shown at their texts. -/
example : shownErrors (.object [(.named ['x'], .seq (.int none)), (.named ['z'], .bool)]) (chars! "y 1\nx (2 u {})\n") =
    some [(['y'], some (0, 1), (⟨0, 0⟩, ⟨0, 1⟩), .unknownField ['y'] [['x'], ['z']] none),
      (chars! "x[1]", some (9, 10), (⟨1, 5⟩, ⟨1, 6⟩), .invalidValue .notInteger),
      (chars! "x[2]", some (11, 13), (⟨1, 7⟩, ⟨1, 9⟩), .expectedScalar),
      (['z'], none, (⟨0, 0⟩, ⟨0, 1⟩), .missingField ['z'])] := by decide +kernel

/-- **C84** is false behind a tag, the wrong value is shown: the number expected after `@a` is missed at the whole
object `{a 1}`, and shown at the `1`, which is a number. -/
theorem C84_wrong_value_false : ∃ root source, source = chars! "x @a{a 1}" ∧
    shownErrors root source = some [(chars! "x.a", none, (⟨0, 7⟩, ⟨0, 8⟩), .expectedScalar)] ∧
    Selects source (⟨0, 7⟩, ⟨0, 8⟩) (chars! "1") :=
  ⟨.object [(.named ['x'], .enum [(['a'], .int none)])], _, rfl, by decide +kernel,
    chars! "x @a{a ", chars! "}", by decide +kernel⟩

/-- **C84** is false behind a tag, an unrelated key is shown: a field `c` is missing in the object on the second
line, and the error is shown at the first character of the document. -/
theorem C84_wrong_line_false : ∃ root source, source = chars! "y 1\nx @a{b 1}" ∧
    shownErrors root source = some [(chars! "x.a.c", none, (⟨0, 0⟩, ⟨0, 1⟩), .missingField ['c'])] ∧
    Selects source (⟨0, 0⟩, ⟨0, 1⟩) (chars! "y") :=
  ⟨.object [(.named ['y'], .int none), (.named ['x'], .enum [(['a'], .object [(.named ['b'], .int none), (.named ['c'], .int none)])])],
    _, rfl, by decide +kernel, [], chars! " 1\nx @a{b 1}", by decide +kernel⟩

/-- **C84**, in the editor, for warnings: they are shown as the text of the value that their path leads to, with
the same exceptions. -/
theorem C84_warnings_shown_partial (source : List Char) (tree : Value) (n : Nat) (r : Schema.Result)
    (hs : ∀ c ∈ source, c ≠ '\r' ∧ utf16Units c = 1) (h : parseTree source = some (.ok tree))
    (hr : Schema.validateDocument E sf n (Cli.stripSchemaDeclaration tree) = some r)
    (x : Schema.Warn) (hx : x ∈ r.warnings) :
    ∃ w, Schema.PathTo [] (Cli.stripSchemaDeclaration tree) x.path w ∧
      ((∃ sp text, w.span = some sp ∧ Covers source sp text ∧ Selects source (warningRange source x) text) ∨
        x.path = [] ∧ w = Cli.stripSchemaDeclaration tree ∨
        Schema.BehindTag [] (Cli.stripSchemaDeclaration tree) x.path w) := by
  obtain ⟨w, h1, h3⟩ := C84_warnings_partial E sf n _ r hr x hx
  refine ⟨w, h1, ?_⟩
  rcases h3 with h3 | ⟨_, hb⟩
  · rcases pathTo_strip h h1 with ⟨h4, h5⟩ | ⟨c, y, hc, hn, hsp, -⟩
    · exact .inr (.inl ⟨h4, h5⟩)
    · obtain ⟨sp, text, g1, g2⟩ := tree_covered h c y hc hn
      refine .inl ⟨sp, text, by rw [← hsp, g1], g2, ?_⟩
      rw [warningRange, h3, ← hsp, g1]
      exact covers_selects hs g2
  · exact .inr (.inr hb)

/-- A warning with a place. -/
example : (match parseTree (chars! "a 1\nold 2") with
    | some (.ok tree) => (Schema.validateDocument natEnv [(none, .object [(.named ['a'], .int none),
        (.named (chars! "old"), .deprecated [] (.int none))])] 20 (Cli.stripSchemaDeclaration tree)).map fun r =>
          r.warnings.map fun x => (x.path, warningRange (chars! "a 1\nold 2") x)
    | _ => none) = some [(chars! "old", (⟨1, 4⟩, ⟨1, 5⟩))] := by decide +kernel

end Styx.Props
