import Verif.Tree.Value
import Verif.Lsp.Spec

/-!
# Specification: what an extension relies on when the server carries its data

Two values say the same when they differ only in places in the source, in how a text is quoted, in doc
comments and in the order of the entries of objects.
-/

namespace Styx.Lsp.Protocol

open Styx

mutual
/-- The two values say the same. -/
inductive Same : Value → Value → Prop where
  | unit {s s'} : Same (.mk none none s) (.mk none none s')
  | scalar {text kind kind' sp sp' s s'} :
      Same (.mk none (some (.scalar text kind sp)) s) (.mk none (some (.scalar text kind' sp')) s')
  | sequence {items items' sp sp' s s'} (h : SameItems items items') :
      Same (.mk none (some (.sequence items sp)) s) (.mk none (some (.sequence items' sp')) s')
  | object {es es' order sp sp' s s'} (perm : order.Perm es') (h : SameEntries es order) :
      Same (.mk none (some (.object es sp)) s) (.mk none (some (.object es' sp')) s')
  | tagged {t t' : Tag} {p p' s s'} (name : t.name = t'.name) (h : Same (.mk none p s) (.mk none p' s')) :
      Same (.mk (some t) p s) (.mk (some t') p' s')
/-- The values of the lists say the same, one by one. -/
inductive SameItems : List Value → List Value → Prop where
  | nil : SameItems [] []
  | cons {v v' vs vs'} (h : Same v v') (hs : SameItems vs vs') : SameItems (v :: vs) (v' :: vs')
/-- The keys and values of the entries say the same, one by one. -/
inductive SameEntries : List Entry → List Entry → Prop where
  | nil : SameEntries [] []
  | cons {k k' v v' d d' es es'} (key : Same k k') (value : Same v v') (hs : SameEntries es es') :
      SameEntries (.mk k v d :: es) (.mk k' v' d' :: es')
end

/-- A value without tags anywhere, the keys of whose objects are texts, all different in one object. -/
inductive Plain : Value → Prop where
  | unit {s} : Plain (.mk none none s)
  | scalar {text kind sp s} : Plain (.mk none (some (.scalar text kind sp)) s)
  | sequence {items sp s} (h : ∀ v ∈ items, Plain v) : Plain (.mk none (some (.sequence items sp)) s)
  | object {es sp s} (texts : ∀ e ∈ es, ∃ name, e.key.asStr = some name)
      (distinct : (es.map fun e => e.key.asStr).Nodup) (h : ∀ e ∈ es, Plain e.value) :
      Plain (.mk none (some (.object es sp)) s)

/-- The offset is between two characters of the text, at its start or at its end. -/
def Boundary (s : List Char) (offset : Nat) : Prop := ∃ before after, s = before ++ after ∧ utf8Len before = offset

/-- The bytes from `start` to `stop` of the text begin and end between characters. -/
def Fits (s : List Char) (start stop : Nat) : Prop :=
  ∃ before replaced after, s = before ++ replaced ++ after ∧ utf8Len before = start ∧
    utf8Len (before ++ replaced) = stop

/-- The edit that the editor gets does to the text what the extension asked for: the bytes from `start` to
`stop` are replaced by the new text. -/
def Delivers (s : List Char) (start stop : Nat) (newText : List Char) (t : TextEdit) : Prop :=
  ∃ before replaced after, s = before ++ replaced ++ after ∧ utf8Len before = start ∧
    utf8Len (before ++ replaced) = stop ∧ Spec.applyEdit s t = before ++ newText ++ after

end Styx.Lsp.Protocol
