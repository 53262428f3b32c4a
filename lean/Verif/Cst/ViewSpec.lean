import Verif.Cst.View
import Verif.Text.Grammar

/-!
# Specification: what a program that reads a document through the typed views must find

`Shows k v`: reading the typed value `k` with the methods of its type gives the value `v` of the document tree.
-/

namespace Styx.Spec

open Styx Styx.Cst

/-- The doc comments shown for an entry are the nearest of the lines of its doc comment, from the nearest, each with its
slashes. -/
def ShowsDocs (shown : List (List Char)) (d : Option (List Char)) : Prop :=
  ∃ ls ts : List (List Char), d = docOf ls ∧ ts.length = ls.length ∧
    (∀ p ∈ ts.zip ls, p.1 = '/' :: '/' :: '/' :: p.2 ∨ p.1 = '/' :: '/' :: '/' :: ' ' :: p.2) ∧ shown <+: ts.reverse

/-- The text shown for a scalar of kind `k` with value `v`: the value, but with its quotes if it is a raw string. -/
def TextShown (t v : List Char) (k : ScalarKind) : Prop :=
  if k = .raw then ∃ n, t = 'r' :: List.replicate n '#' ++ '"' :: v ++ '"' :: List.replicate n '#' else t = v

/-- The text shown for a root key: the path as it is written. -/
def PathShown (t : List Char) (ks : List Value) (path : List (List Char)) : Prop :=
  (t = dotted path ∧ ∀ v, ks ≠ [scalarValue v .raw]) ∨ ∃ v, ks = [scalarValue v .raw] ∧ TextShown t v .raw

mutual
/-- Reading the typed value gives the value. -/
inductive Shows : ViewKind → Value → Prop
  | scalar {cs v k} : TextShown (scalarContent cs) v k → viewScalarKind cs = k → Shows (.scalar cs) (scalarValue v k)
  | heredoc {cs n d lang} {ls : List (List Char)} : heredocContent cs = unlines ls →
      heredocDelimiter cs = some (d ++ lang) → Delimiter d → LangHint lang →
      Shows (.heredoc cs) (scalarValue (unlines (ls.map (dedentLine n))) .heredoc)
  | unit {cs} : Shows (.unit cs) (.mk none none none)
  | tag {cs n} : viewTagName cs = some n → viewPayload cs = none → Shows (.tag cs) (.mk (some ⟨n, none⟩) none none)
  | tagged {cs n g k p} : viewTagName cs = some n → viewPayload cs = some g → castNode g = some k →
      Shows k (.mk none (some p) none) → Shows (.tag cs) (.mk (some ⟨n, none⟩) (some p) none)
  | sequence {cs vs} : ShowsItems (seqElements cs) vs → Shows (.sequence cs) (.mk none (some (.sequence vs none)) none)
  | object {cs es} : ShowsEntries (viewEntries [] cs) es → Shows (.object cs) (.mk none (some (.object es none)) none)

/-- The elements of a sequence show the items, one for one. -/
inductive ShowsItems : List Green → List Value → Prop
  | nil : ShowsItems [] []
  | cons {g k gs v vs} : castNode g = some k → Shows k v → ShowsItems gs vs → ShowsItems (g :: gs) (v :: vs)

/-- The entries of an object show the entries of the tree, in order; those without key and value are passed over, and a
missing value is unit. -/
inductive ShowsEntries : List (List Green × List Green) → List Entry → Prop
  | nil : ShowsEntries [] []
  | skip {prev cs l es} : Cst.entryKey cs = none → Cst.entryValue cs = none → ShowsEntries l es →
      ShowsEntries ((prev, cs) :: l) es
  | pair {prev cs c t w k v d l es} : entryKeyText cs = some t → TextShown t w k → Cst.entryValue cs = some c →
      Shows (valueKind c) v → ShowsDocs (docComments prev) d → ShowsEntries l es →
      ShowsEntries ((prev, cs) :: l) (.mk (scalarValue w k) v d :: es)
  | lone {prev cs t w k d l es} : entryKeyText cs = some t → TextShown t w k → Cst.entryValue cs = none →
      ShowsDocs (docComments prev) d → ShowsEntries l es → ShowsEntries ((prev, cs) :: l) (.mk (scalarValue w k) (.mk none none none) d :: es)
end

/-- The entries of a document show its root entries: the text of the key is the path as it is written. -/
inductive ShowsRoot : List (List Green × List Green) → List RootEntry → Prop
  | nil : ShowsRoot [] []
  | skip {prev cs l es} : Cst.entryKey cs = none → Cst.entryValue cs = none → ShowsRoot l es →
      ShowsRoot ((prev, cs) :: l) es
  | pair {prev cs c t ks path v d l es} : entryKeyText cs = some t → PathShown t ks path → Cst.entryValue cs = some c →
      Shows (valueKind c) v → ShowsDocs (docComments prev) d → ShowsRoot l es →
      ShowsRoot ((prev, cs) :: l) (⟨ks, path, v, d⟩ :: es)
  | lone {prev cs t ks path d l es} : entryKeyText cs = some t → PathShown t ks path → Cst.entryValue cs = none →
      ShowsDocs (docComments prev) d → ShowsRoot l es →
      ShowsRoot ((prev, cs) :: l) (⟨ks, path, .mk none none none, d⟩ :: es)

/-! ## The documents for which this can hold -/

/-- A key that is a scalar. -/
def WordKeyValue (k : Value) : Prop := ∃ v kd, k = scalarValue v kd

mutual
/-- The keys of all objects in the value are scalars. -/
def Viewable : Value → Prop
  | .mk _ (some (.sequence items _)) _ => ViewableItems items
  | .mk _ (some (.object es _)) _ => ViewableEntries es
  | _ => True
/-- … in all items. -/
def ViewableItems : List Value → Prop
  | [] => True
  | v :: vs => Viewable v ∧ ViewableItems vs
/-- … in all entries. -/
def ViewableEntries : List Entry → Prop
  | [] => True
  | .mk k v _ :: es => WordKeyValue k ∧ Viewable v ∧ ViewableEntries es
end

mutual
/-- Nothing in the tree is written as attributes. -/
def NoAttributes : Green → Prop
  | .token _ _ => True
  | .node k cs => k ≠ .ATTRIBUTES ∧ NoAttributesL cs
/-- … in a list. -/
def NoAttributesL : List Green → Prop
  | [] => True
  | g :: gs => NoAttributes g ∧ NoAttributesL gs
end

end Styx.Spec
