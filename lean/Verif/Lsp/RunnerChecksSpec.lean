import Verif.Lsp.RunnerChecks
import Verif.Lsp.RunnerSpec

/-! # Specification: what a test of an extension asks for -/

namespace Styx.Spec

open Styx Styx.Lsp

/-- A number that is given is this one. -/
def AgreesWith (wanted : Option Nat) (n : Nat) : Prop := ∀ k, wanted = some k → n = k

/-- Completions with these labels and none with those; for every item asked for, one with its label, its detail, its
documentation and its kind. -/
def CompletionsFit (cs : List TestItem) (e : WantCompletions) : Prop :=
  (∀ l ∈ e.has, ∃ c ∈ cs, c.label = l) ∧ (∀ l ∈ e.notHas, ∀ c ∈ cs, c.label ≠ l) ∧
  ∀ i ∈ e.items, ∃ c ∈ cs, c.label = i.label ∧ (∀ t, i.detail = some t → c.detail = some t) ∧
    (∀ t, i.documentation = some t → ∃ u, c.documentation = some u ∧ t <:+: u) ∧ ∀ k, i.kind = some k → c.kind = some k

/-- The text shown contains these texts and none of those. -/
def HoverFits (hover : Option (List Char)) (e : WantHover) : Prop :=
  (∀ t ∈ e.has, ∃ u, hover = some u ∧ t <:+: u) ∧ ∀ t ∈ e.notHas, ∀ u, hover = some u → ¬ t <:+: u

/-- As many hints, and among them these; lines are counted from 1. -/
def HintsFit (hs : List TestHint) (e : WantHints) : Prop :=
  AgreesWith e.count hs.length ∧
  ∀ w ∈ e.has, ∃ h ∈ hs, h.label = w.label ∧ AgreesWith w.line (h.line + 1) ∧ AgreesWith w.col h.character

/-- The byte of the document is in the line, counted from 1. -/
def InLine (source : List Char) (off n : Nat) : Prop :=
  ∃ before after, source = before ++ after ∧ utf8Len before = off ∧ n = before.count '\n' + 1

/-- No locations if none are wanted; as many, and among them these. -/
def DefinitionFits (source : List Char) (ls : List TestLocation) (e : WantDefinition) : Prop :=
  (e.empty = true → ls = []) ∧ AgreesWith e.count ls.length ∧
  ∀ w ∈ e.has, ∃ l ∈ ls, (∀ n, w.line = some n → InLine source l.start n) ∧ ∀ u, w.uri = some u → u <:+: l.uri

/-- No actions if none are wanted; as many, among them these, and none with those titles. -/
def ActionsFit (as : List TestAction) (e : WantActions) : Prop :=
  (e.empty = true → as = []) ∧ AgreesWith e.count as.length ∧
  (∀ w ∈ e.has, ∃ a ∈ as, w.title <:+: a.title ∧
    (∀ k, w.kind = some k → (k = chars! "quickfix" ∧ a.kind = some .quickFix) ∨
      (k = chars! "refactor" ∧ a.kind = some .refactor) ∨ (k = chars! "source" ∧ a.kind = some .source)) ∧
    ∀ p, w.preferred = some p → a.preferred = p) ∧
  ∀ t ∈ e.notHas, ∀ a ∈ as, ¬ t <:+: a.title

/-- Everything a test asks for, except about diagnostics.  The extension gets the document of the test without the
bar of the cursor; a test about completions, hovers, definitions or actions has one. -/
def AllFit (t : TestCase) (x : TestExtension) (text : List Char) (doc : TestDocument) : Prop :=
  (∀ e, t.completions = some e → '|' ∈ text ∧ ∃ a, x.completions doc = some a ∧ CompletionsFit a e) ∧
  (∀ e, t.hover = some e → '|' ∈ text ∧ ∃ a, x.hover doc = some a ∧ HoverFits a e) ∧
  (∀ e, t.hints = some e → ∃ a, x.hints doc = some a ∧ HintsFit a e) ∧
  (∀ e, t.definition = some e → '|' ∈ text ∧ ∃ a, x.definition doc = some a ∧ DefinitionFits doc.source a e) ∧
  ∀ e, t.actions = some e → '|' ∈ text ∧ ∃ a, x.actions doc = some a ∧ ActionsFit a e

/-- A place that the bar of the cursor does not move to another line: it is before the bar, or right after a
character of one byte on its line. -/
def KeepsLine (text : List Char) (off : Nat) : Prop :=
  ∃ p q u r, text = p ++ '|' :: q ∧ '|' ∉ p ∧ p ++ q = u ++ r ∧ utf8Len u = off ∧
    (utf8Len u ≤ utf8Len p ∨ ∃ c, u.getLast? = some c ∧ c ≠ '\n' ∧ c.utf8Size = 1)

end Styx.Spec
