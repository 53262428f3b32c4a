import Verif.Facet.Model
import Verif.Tree.TreeSpec

/-!
# Specification: what a stream of facet events says about a tree

`Describes fs v`: the kinds of events `fs` are a description of the value `v`.  Nothing here depends on how
the events are produced.
-/

namespace Styx.Facet

open Styx Styx.Spec

/-- The name in a variant tag: the empty name is left out. -/
def tagName (n : List Char) : Option (List Char) := if n = [] then none else some n

/-- The lines of the doc comment `d`. -/
def DocLines : List (List Char) → Option (List Char) → Prop
  | [], d => d = none
  | l :: ls, d => d = some (joined (l :: ls))

mutual
/-- `Describes fs v`: the events describe the value.  A scalar is its text, a unit is a unit scalar with or
without a variant tag without name before it, a tag without payload has a unit scalar after it.  As in
`ValueOf`, a tag around a value that has a tag of its own replaces it in the tree. -/
inductive Describes : List FKind → Value → Prop
  | scalar (t : List Char) (k : ScalarKind) :
      Describes [.scalar (.str t)] (.mk none (some (.scalar t k none)) none)
  | unit : Describes [.scalar .unit] (.mk none none none)
  | atSign : Describes [.variantTag none, .scalar .unit] (.mk none none none)
  | bareTag (n : List Char) :
      Describes [.variantTag (tagName n), .scalar .unit] (.mk (some ⟨n, none⟩) none none)
  | tag (n : List Char) {fs : List FKind} {v : Value} : Describes fs v →
      Describes (.variantTag (tagName n) :: fs) (.mk (some ⟨n, none⟩) v.payload none)
  | sequence {fs : List FKind} {vs : List Value} : DescribesAll fs vs →
      Describes (.seqStart :: fs ++ [.seqEnd]) (.mk none (some (.sequence vs none)) none)
  | object {fs : List FKind} {es : List Entry} : DescribesEntries fs es →
      Describes (.structStart :: fs ++ [.structEnd]) (.mk none (some (.object es none)) none)

/-- The events describe the items, one after the other. -/
inductive DescribesAll : List FKind → List Value → Prop
  | nil : DescribesAll [] []
  | cons {fs gs : List FKind} {v : Value} {vs : List Value} : Describes fs v → DescribesAll gs vs →
      DescribesAll (fs ++ gs) (v :: vs)

/-- The events describe the entries: for each a key event with the tag, the text and the doc comment of
the key, and then the events of the value. -/
inductive DescribesEntries : List FKind → List Entry → Prop
  | nil : DescribesEntries [] []
  | cons (t p : Option (List Char)) (k : ScalarKind) {lines : List (List Char)} {d : Option (List Char)}
      {fs gs : List FKind} {v : Value} {es : List Entry} : DocLines lines d → Describes fs v →
      DescribesEntries gs es →
      DescribesEntries (.key t p lines :: fs ++ gs)
        (.mk (.mk (t.map fun n => ⟨n, none⟩) (p.map fun text => .scalar text k none) none) v d :: es)
end

/-- An entry whose key has the tag `@schema`: the declaration of the schema of a document. -/
def isSchema : Entry → Bool
  | .mk (.mk (some t) _ _) _ _ => t.name == chars! "schema"
  | _ => false

/-- The kinds of a list of facet events. -/
def fkinds (es : List FEvent) : List FKind := es.map (·.kind)

end Styx.Facet
