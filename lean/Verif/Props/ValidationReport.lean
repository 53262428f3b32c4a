import Verif.Cli.ValidationReport
import Verif.Props.Place
import Verif.Props.Report

/-!
# C139: the reports of validation underline what they are about
-/

namespace Styx.Props

open Styx Styx.Spec Styx.Cli

variable {F : Type} (E : Schema.Env F) (sf : Schema.SchemaFile F)

/-- The title names the field, type or variant in question, or the path, if there is one. -/
def TitleNames (e : Schema.Err) (title : List Char) : Prop :=
  match e.kind with
  | .missingField n => n <:+: title
  | .unknownField n _ _ => n <:+: title
  | .unknownType n => n <:+: title
  | .invalidVariant _ n => n <:+: title
  | .schemaError _ => True
  | _ => e.path <:+: title

/-- An error of validation of a document is about a value its path leads to, and has the place of a text, unless the value
is the document or stands behind a tag. -/
theorem error_covered {source : List Char} {tree : Value} {n : Nat} {r : Schema.Result}
    (h : parseTree source = some (.ok tree))
    (hr : Schema.validateDocument E sf n (stripSchemaDeclaration tree) = some r) {e : Schema.Err} (he : e ∈ r.errors) :
    ∃ q w place, Schema.PathTo [] (stripSchemaDeclaration tree) q w ∧ Schema.About q w place e ∧
      ((∃ sp text, e.span = some sp ∧ Covers source sp text) ∨
        e.span = none ∧ (q = [] ∧ w = stripSchemaDeclaration tree ∨
          Schema.BehindTag [] (stripSchemaDeclaration tree) q w)) := by
  obtain ⟨q, w, place, h1, h2, h3⟩ := C84_errors_partial E sf n _ r hr e he
  refine ⟨q, w, place, h1, h2, ?_⟩
  have hplace : e.span = place → (∃ sp text, e.span = some sp ∧ Covers source sp text) ∨
        e.span = none ∧ (q = [] ∧ w = stripSchemaDeclaration tree ∨
          Schema.BehindTag [] (stripSchemaDeclaration tree) q w) := by
    intro hep
    rcases h3 with h3 | ⟨h3, hb⟩
    · rcases pathTo_strip h h1 with ⟨rfl, rfl⟩ | ⟨c, y, hc, hn, hsp, -⟩
      · refine .inr ⟨?_, .inl ⟨rfl, rfl⟩⟩
        obtain ⟨es', rfl, -⟩ := parseTree_std h
        rw [hep, h3]; rfl
      · obtain ⟨sp, text, g1, g2⟩ := tree_covered h c y hc hn
        exact .inl ⟨sp, text, by rw [hep, h3, ← hsp, g1], g2⟩
    · exact .inr ⟨by rw [hep, h3], .inr hb⟩
  rcases h2 with ⟨-, g, -⟩ | ⟨name, es, o, -, -, -, -, g⟩ | ⟨x, shown, names, sug, es, o, g1, g2, -, -, -, g⟩ |
    ⟨x, es, o, g1, g2, -, -, g⟩
  · exact hplace g
  · exact hplace g
  · obtain ⟨sp, text, k1, k2⟩ := key_covered h h1 g1 g2
    exact .inl ⟨sp, text, by rw [g, k1], k2⟩
  · obtain ⟨sp, text, k1, k2⟩ := key_covered h h1 g1 g2
    exact .inl ⟨sp, text, by rw [g, k1], k2⟩

theorem errorReport_range (e : Schema.Err) : (errorReport e).range = labelRange e.span := by
  unfold errorReport
  split <;> rfl

theorem pathInfo_names (path : List Char) : path <:+: pathInfo path := by
  unfold pathInfo
  split
  · rename_i h; subst h; exact List.nil_infix
  · exact ⟨_, _, rfl⟩

theorem errorReport_title (e : Schema.Err) : TitleNames e (errorReport e).title := by
  have hp : ∀ t : List Char, e.path <:+: t ++ pathInfo e.path := fun t =>
    (pathInfo_names e.path).trans (List.suffix_append _ _).isInfix
  unfold TitleNames errorReport
  cases e.kind <;> first | exact ⟨_, _, rfl⟩ | exact hp _ | trivial

/-- What is written: a report for each error, in their order, then one for each warning. -/
theorem C139_all (r : Schema.Result) : ∃ a b : List ShortReport, printedReports r = a ++ b ∧ a.length = r.errors.length ∧
    b.length = r.warnings.length ∧
    (∀ (i : Nat) (e : Schema.Err), r.errors[i]? = some e → ∃ rep : ShortReport, a[i]? = some rep ∧ TitleNames e rep.title) := by
  refine ⟨r.errors.map errorReport, r.warnings.map warningReport, ?_, by simp, by simp, fun i e h =>
    ⟨errorReport e, by rw [List.getElem?_map, h]; rfl, errorReport_title e⟩⟩
  unfold printedReports validationReports
  split
  · rfl
  · rename_i h1
    split
    · rfl
    · rename_i h2
      simp only [Schema.Result.isValid, Bool.not_eq_true', Bool.not_eq_false, List.isEmpty_iff] at h1 h2
      simp [h1, h2]

/-- **C139**, exactly: the report of an error whose value has a place underlines its text, or that of the key in question,
if and only if every character up to its end is one byte.  Values without a place are the document itself and those behind
a tag. -/
theorem C139_iff_partial (source : List Char) (tree : Value) (n : Nat) (r : Schema.Result)
    (h : parseTree source = some (.ok tree))
    (hr : Schema.validateDocument E sf n (stripSchemaDeclaration tree) = some r) (e : Schema.Err) (he : e ∈ r.errors) :
    ∃ q w place rep, Schema.PathTo [] (stripSchemaDeclaration tree) q w ∧ Schema.About q w place e ∧
      rep ∈ printedReports r ∧ TitleNames e rep.title ∧
      ((∃ sp text, e.span = some sp ∧ Covers source sp text ∧
        (Underlines source rep.range sp ↔ ∃ before after, source = before ++ text ++ after ∧
          sp.start = utf8Len before ∧ ∀ c ∈ before ++ text, c.utf8Size = 1)) ∨
        e.span = none ∧ (q = [] ∧ w = stripSchemaDeclaration tree ∨
          Schema.BehindTag [] (stripSchemaDeclaration tree) q w)) := by
  obtain ⟨q, w, place, h1, h2, h3⟩ := error_covered E sf h hr he
  refine ⟨q, w, place, errorReport e, h1, h2, ?_, errorReport_title e, ?_⟩
  · have hv : r.isValid = false := by
      cases hr : r.errors with
      | nil => rw [hr] at he; cases he
      | cons x xs => simp [Schema.Result.isValid, hr]
    simp only [printedReports, hv, validationReports, Bool.not_false, if_true]
    exact List.mem_append_left _ (List.mem_map_of_mem he)
  · rcases h3 with ⟨sp, text, g1, g2⟩ | h3
    · refine .inl ⟨sp, text, g1, g2, ?_⟩
      rw [errorReport_range, g1]
      exact C116_exact g2
    · exact .inr h3

/-- **C139** for sources all of whose characters are one byte. -/
theorem C139_ascii_partial (source : List Char) (tree : Value) (n : Nat) (r : Schema.Result)
    (hs : ∀ c ∈ source, c.utf8Size = 1) (h : parseTree source = some (.ok tree))
    (hr : Schema.validateDocument E sf n (stripSchemaDeclaration tree) = some r) (e : Schema.Err) (he : e ∈ r.errors)
    (sp : Span) (hsp : e.span = some sp) :
    ∃ rep ∈ printedReports r, TitleNames e rep.title ∧ Underlines source rep.range sp := by
  obtain ⟨q, w, place, rep, -, -, h3, h4, h5⟩ := C139_iff_partial E sf source tree n r h hr e he
  rcases h5 with ⟨sp', text, g1, ⟨a, b, e1, e2, -⟩, g3⟩ | ⟨g, -⟩
  · rw [hsp] at g1
    cases g1
    exact ⟨rep, h3, h4, g3.mpr ⟨a, b, e1, e2, fun c hc => hs c (by rw [e1]; exact List.mem_append_left _ hc)⟩⟩
  · rw [hsp] at g; cases g

/-- The reports for a document: range and title. -/
def reportsFor (root : Schema.Schema Nat) (source : List Char) : Option (List (Span × List Char)) :=
  match parseTree source with
  | some (.ok tree) => (Schema.validateDocument natEnv [(none, root)] 20 (stripSchemaDeclaration tree)).map fun r =>
      (printedReports r).map fun p => (p.range, p.title)
  | _ => none

/-- A word that is no number. -/
example : reportsFor (.object [(.named ['x'], .int none)]) (chars! "x word") =
    some [(⟨2, 6⟩, chars! "invalid value at 'x'")] ∧
    underlined (chars! "x word") ⟨2, 6⟩ = some (chars! "x ", chars! "word") := by decide +kernel

/-- **C139** is false: behind an `é` the report on `word` underlines another text. -/
theorem C139_false : reportsFor (.object [(.named ['é'], .int none), (.named ['x'], .int none)]) (chars! "é 1\nx word\n") =
      some [(⟨7, 11⟩, chars! "invalid value at 'x'")] ∧
    slice (chars! "é 1\nx word\n") 7 11 = some (chars! "word") ∧
    underlined (chars! "é 1\nx word\n") ⟨7, 11⟩ = some (chars! "é 1\nx w", chars! "ord\n") := by decide +kernel

/-- **C139** is false: a field missing behind a tag is reported at the first character of the document. -/
theorem C139_false_place :
    reportsFor (.object [(.named ['y'], .int none), (.named ['x'], .enum [(['a'], .object [(.named ['c'], .int none)])])])
        (chars! "y 1\nx @a{}") = some [(⟨0, 1⟩, chars! "missing required field 'c'")] ∧
    underlined (chars! "y 1\nx @a{}") ⟨0, 1⟩ = some ([], ['y']) := by decide +kernel

end Styx.Props
