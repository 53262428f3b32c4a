import Verif.Cst.Kids
import Verif.Text.Grammar

/-! # Which values the nodes of a concrete syntax tree stand for -/

namespace Styx.Cst

open Styx Styx.Spec

/-- The items of a sequence: the nodes that are the keys of its entries. -/
def itemsOf : List Green → List Green
  | [] => []
  | .token _ _ :: gs => itemsOf gs
  | .node _ cs :: gs => (match cs with | [.node _ [g]] => [g] | _ => []) ++ itemsOf gs

/-- A text that needs the end of the line. -/
def lineTail : Tail → Bool
  | .line => true
  | .attrs e => lineTail e
  | _ => false

/-- The kinds of scalar tokens. -/
def ScalarTok (k : SyntaxKind) : Prop := k = .BARE_SCALAR ∨ k = .QUOTED_SCALAR ∨ k = .RAW_SCALAR

/-- A node that is written as the text of a key. -/
inductive KeyNode : List Char → Green → Prop
  | scalar {k t} : ScalarTok k → t.head? ≠ some '@' → KeyNode t (.node .SCALAR [.token k t])
  | unit : KeyNode ['@'] (.node .UNIT [.token .AT ['@']])
  | tag {n} : TagName n → KeyNode ('@' :: n) (.node .TAG [.token .TAG_TOKEN ('@' :: n)])
  | tagged {n k t} : ScalarTok k → TagName n → PayloadStart n t → KeyNode ('@' :: n ++ t)
      (.node .TAG [.token .TAG_TOKEN ('@' :: n), .node .TAG_PAYLOAD [.node .SCALAR [.token k t]]])

/-- Doc comment lines and the texts of their tokens. -/
inductive DocTexts : List (List Char) → List (List Char) → Prop
  | nil : DocTexts [] []
  | cons {l body ls ts} : (body = ' ' :: l ∨ (body = l ∧ l.head? ≠ some ' ')) →
      (∀ c ∈ l, c ≠ '\n' ∧ c ≠ '\r') → DocTexts ls ts → DocTexts (l :: ls) (('/' :: '/' :: '/' :: body) :: ts)

/-- The elements of an entry with the key `gk` and the value `gv`. -/
def PairNode (gk gv : Green) (cs : List Green) : Prop :=
  ∃ ws ws', cs = .node .KEY [gk] :: ws ++ .node .VALUE [gv] :: ws' ∧ (∀ g ∈ ws, IsWs g) ∧ ∀ g ∈ ws', IsWs g

/-- The elements of an entry that is only the key `gk`. -/
def LoneNode (gk : Green) (cs : List Green) : Prop := ∃ ws, cs = .node .KEY [gk] :: ws ∧ ∀ g ∈ ws, IsWs g

/-- The node can be the payload of the tag `@n`. -/
def PayloadNode (n : List Char) (g : Green) : Prop :=
  (∃ k t, g = .node .SCALAR [.token k t] ∧ PayloadStart n t) ∨ (∃ cs, g = .node .OBJECT cs) ∨
    ∃ cs, g = .node .SEQUENCE cs

mutual
/-- The node stands for a value. -/
inductive ValueNode : Value → Tail → Green → Prop
  | scalar {v k e t tk} : ScalarText v k e t → k ≠ .heredoc → ScalarTok tk →
      ValueNode (scalarValue v k) e (.node .SCALAR [.token tk t])
  | heredoc {v e cs} : ScalarText v .heredoc e (Green.texts cs) → (∀ g ∈ cs, ∃ k t, g = .token k t) →
      HeredocGreens v cs → ValueNode (scalarValue v .heredoc) e (.node .HEREDOC cs)
  | unit : ValueNode (.mk none none none) .word (.node .UNIT [.token .AT ['@']])
  | tag {n} : TagName n → ValueNode (.mk (some ⟨n, none⟩) none none) .word (.node .TAG [.token .TAG_TOKEN ('@' :: n)])
  | tagged {n p e g} : TagName n → ValueNode (.mk none (some p) none) e g → PayloadNode n g →
      ValueNode (.mk (some ⟨n, none⟩) (some p) none) e
        (.node .TAG [.token .TAG_TOKEN ('@' :: n), .node .TAG_PAYLOAD [g]])
  | sequence {vs cs} : ItemNodes (hasToken .NEWLINE cs) vs (itemsOf cs) →
      ValueNode (.mk none (some (.sequence vs none)) none) .closed (.node .SEQUENCE cs)
  | object {es ks cs} : kidsOf [] cs = some ks → KidNodes (hasToken .NEWLINE cs) es ks → DistinctKeys es →
      ValueNode (.mk none (some (.object es none)) none) .closed (.node .OBJECT cs)
  | attributes {es e cs} : AttrNodes es e (nodesOf .ATTRIBUTE cs) →
      ValueNode (.mk none (some (.object es none)) none) (.attrs e) (.node .ATTRIBUTES cs)

/-- The nodes stand for the items of a sequence; `nl`: the sequence has a line break. -/
inductive ItemNodes : Bool → List Value → List Green → Prop
  | nil {nl} : ItemNodes nl [] []
  | cons {nl v e g vs gs} : ValueNode v e g → e.notAttrs → (lineTail e = true → nl = true) →
      ItemNodes nl vs gs → ItemNodes nl (v :: vs) (g :: gs)

/-- The entries stand for the entries of an object; `nl`: the object has a line break. -/
inductive KidNodes : Bool → List Entry → List Kid → Prop
  | nil {nl} : KidNodes nl [] []
  | pair {nl ls ds k ke kt gk v e gv cs es ks} : DocTexts ls ds → KeyText k ke kt → KeyNode kt gk →
      ValueNode v e gv → (lineTail e = true → nl = true) → PairNode gk gv cs → KidNodes nl es ks →
      KidNodes nl (.mk k v (docOf ls) :: es) ((ds, cs) :: ks)
  | lone {nl ls ds k ke kt gk cs es ks} : DocTexts ls ds → KeyText k ke kt → KeyNode kt gk →
      LoneNode gk cs → KidNodes nl es ks →
      KidNodes nl (.mk k (.mk none none none) (docOf ls) :: es) ((ds, cs) :: ks)

/-- The nodes stand for attributes. -/
inductive AttrNodes : List Entry → Tail → List (List Green) → Prop
  | one {k v e g} : BareText k → ValueNode v e g → e.notAttrs →
      AttrNodes [.mk (scalarValue k .bare) v none] e [[.token .BARE_SCALAR k, .token .GT ['>'], g]]
  | cons {k v e g es e' as} : BareText k → ValueNode v e g → e.notAttrs → lineTail e = false →
      AttrNodes es e' as →
      AttrNodes (.mk (scalarValue k .bare) v none :: es) e' ([.token .BARE_SCALAR k, .token .GT ['>'], g] :: as)
end

/-- The entries stand for the entries of a document. -/
inductive RootNodes : List RootEntry → List Kid → Prop
  | nil : RootNodes [] []
  | pair {ls ds ks path ke kt gk v e gv cs es kids} : DocTexts ls ds → RootKeyText ks path ke kt → KeyNode kt gk →
      ValueNode v e gv → PairNode gk gv cs → RootNodes es kids →
      RootNodes (⟨ks, path, v, docOf ls⟩ :: es) ((ds, cs) :: kids)
  | lone {ls ds ks path ke kt gk cs es kids} : DocTexts ls ds → RootKeyText ks path ke kt → KeyNode kt gk →
      LoneNode gk cs → RootNodes es kids →
      RootNodes (⟨ks, path, .mk none none none, docOf ls⟩ :: es) ((ds, cs) :: kids)

theorem ItemNodes.mono {b nl : Bool} (hb : b = true → nl = true) {gs : List Green} :
    ∀ {vs : List Value}, ItemNodes b vs gs → ItemNodes nl vs gs := by
  induction gs with
  | nil => intro vs h; cases h; exact .nil
  | cons g gs ih =>
    intro vs h
    cases h with
    | cons h1 h2 h3 h4 => exact .cons h1 h2 (fun h => hb (h3 h)) (ih h4)

theorem KidNodes.mono {b nl : Bool} (hb : b = true → nl = true) {ks : List Kid} :
    ∀ {es : List Entry}, KidNodes b es ks → KidNodes nl es ks := by
  induction ks with
  | nil => intro vs h; cases h; exact .nil
  | cons k ks ih =>
    intro vs h
    cases h with
    | pair h1 h2 h3 h4 h5 h6 h7 => exact .pair h1 h2 h3 h4 (fun h => hb (h5 h)) h6 (ih h7)
    | lone h1 h2 h3 h4 h5 => exact .lone h1 h2 h3 h4 (ih h5)

end Styx.Cst
