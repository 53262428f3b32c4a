import Verif.Tree.Value
import Verif.Parse.NestSpec

/-!
# Specification: trees and their event streams

`erase` forgets spans.  `valueEvents` is the event stream one expects for a tree.  `ValueOf` reads an
event stream of the grammar of `NestSpec` as a tree.
-/

namespace Styx.Spec

mutual
/-- The value without its spans. -/
def erase : Value → Value
  | .mk t p _ => .mk (t.map fun t => ⟨t.name, none⟩) (erasePayload p) none
/-- The payload without its spans. -/
def erasePayload : Option Payload → Option Payload
  | none => none
  | some (.scalar text k _) => some (.scalar text k none)
  | some (.sequence items _) => some (.sequence (eraseAll items) none)
  | some (.object es _) => some (.object (eraseEntries es) none)
/-- The items without their spans. -/
def eraseAll : List Value → List Value
  | [] => []
  | v :: vs => erase v :: eraseAll vs
/-- The entries without their spans. -/
def eraseEntries : List Entry → List Entry
  | [] => []
  | .mk k v d :: es => .mk (erase k) (erase v) d :: eraseEntries es
end

/-- The key event of a key: only a tag and a scalar can be expressed. -/
def keyEventOf : Value → EventKind
  | .mk t (some (.scalar text k _)) _ => .key (t.map (·.name)) (some text) k
  | .mk t _ _ => .key (t.map (·.name)) none .bare

mutual
/-- The events of a value: its payload, between tag events if there is a tag. -/
def valueEvents : Value → List EventKind
  | .mk none p _ => payloadEvents [.unit] p
  | .mk (some t) p _ => .tagStart t.name :: payloadEvents [] p ++ [.tagEnd]
/-- The events of a payload; `none_` stands for no payload. -/
def payloadEvents (none_ : List EventKind) : Option Payload → List EventKind
  | none => none_
  | some (.scalar text k _) => [.scalar text k]
  | some (.sequence items _) => .sequenceStart :: itemsEvents items ++ [.sequenceEnd]
  | some (.object es _) => .objectStart :: entriesEvents es ++ [.objectEnd]
/-- The events of the items of a sequence. -/
def itemsEvents : List Value → List EventKind
  | [] => []
  | v :: vs => valueEvents v ++ itemsEvents vs
/-- The events of the entries of an object, doc comments first. -/
def entriesEvents : List Entry → List EventKind
  | [] => []
  | .mk k v d :: es =>
    (match d with | some text => [EventKind.docComment [text]] | none => []) ++
    .entryStart :: keyEventOf k :: valueEvents v ++ .entryEnd :: entriesEvents es
end

/-- The events of a document with these root entries. -/
def documentEvents (root : List Entry) : List EventKind :=
  .documentStart :: .objectStart :: entriesEvents root ++ [.objectEnd, .documentEnd]

/-- A key that an event can express: no payload, or a scalar. -/
def KeyForm : Value → Prop
  | .mk _ none _ => True
  | .mk _ (some (.scalar _ _ _)) _ => True
  | _ => False

mutual
/-- All keys in the value are expressible. -/
def KeysExpressible : Value → Prop
  | .mk _ (some (.sequence items _)) _ => AllExpressible items
  | .mk _ (some (.object es _)) _ => EntriesExpressible es
  | _ => True
/-- … in all items. -/
def AllExpressible : List Value → Prop
  | [] => True
  | v :: vs => KeysExpressible v ∧ AllExpressible vs
/-- … in all entries. -/
def EntriesExpressible : List Entry → Prop
  | [] => True
  | .mk k v _ :: es => KeyForm k ∧ KeysExpressible v ∧ EntriesExpressible es
end

/-- Lines joined by newlines. -/
def joined : List (List Char) → List Char
  | [] => []
  | [l] => l
  | l :: ls => l ++ '\n' :: joined ls

/-- A doc comment continued by one more. -/
def continued (d : Option (List Char)) (text : List Char) : Option (List Char) :=
  match d with
  | some old => some (old ++ '\n' :: text)
  | none => some text

mutual
/-- `ValueOf ks v`: the events `ks` are those of the value `v` (without spans).  A tag around a value
that has a tag of its own replaces it. -/
inductive ValueOf : List EventKind → Value → Prop
  | scalar (v : List Char) (k : ScalarKind) : ValueOf [.scalar v k] (.mk none (some (.scalar v k none)) none)
  | unit : ValueOf [.unit] (.mk none none none)
  | bareTag (n : List Char) : ValueOf [.tagStart n, .tagEnd] (.mk (some ⟨n, none⟩) none none)
  | tag (n : List Char) {ks : List EventKind} {v : Value} : ValueOf ks v →
      ValueOf (.tagStart n :: ks ++ [.tagEnd]) (.mk (some ⟨n, none⟩) v.payload none)
  | sequence {ks : List EventKind} {vs : List Value} : ValuesOf ks vs →
      ValueOf (.sequenceStart :: ks ++ [.sequenceEnd]) (.mk none (some (.sequence vs none)) none)
  | object {ks : List EventKind} {es : List Entry} : EntriesOf none ks es →
      ValueOf (.objectStart :: ks ++ [.objectEnd]) (.mk none (some (.object es none)) none)

/-- The events of several values. -/
inductive ValuesOf : List EventKind → List Value → Prop
  | nil : ValuesOf [] []
  | cons {ks ks' : List EventKind} {v : Value} {vs : List Value} : ValueOf ks v → ValuesOf ks' vs →
      ValuesOf (ks ++ ks') (v :: vs)

/-- `EntriesOf d ks es`: the events `ks` are those of the entries `es`, when the doc comment `d` is
pending.  Comments are skipped. -/
inductive EntriesOf : Option (List Char) → List EventKind → List Entry → Prop
  | nil (d : Option (List Char)) : EntriesOf d [] []
  | comment (t : List Char) {d : Option (List Char)} {ks : List EventKind} {es : List Entry} :
      EntriesOf d ks es → EntriesOf d (.comment t :: ks) es
  | doc (ls : List (List Char)) {d : Option (List Char)} {ks : List EventKind} {es : List Entry} :
      EntriesOf (continued d (joined ls)) ks es → EntriesOf d (.docComment ls :: ks) es
  | entry (t p : Option (List Char)) (k : ScalarKind) {d : Option (List Char)} {kv ks : List EventKind}
      {v : Value} {es : List Entry} : ValueOf kv v → EntriesOf none ks es →
      EntriesOf d (.entryStart :: .key t p k :: kv ++ .entryEnd :: ks)
        (.mk (.mk (t.map fun n => ⟨n, none⟩) (p.map fun text => .scalar text k none) none) v d :: es)
end

end Styx.Spec
