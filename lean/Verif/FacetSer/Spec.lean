import Verif.FacetSer.Model
import Verif.Format.PrintSpec

/-!
# Specification of serialization with facet-styx

`Makes o line inSeq v cs`: `cs` are calls that a traversal makes for the value `v`, for values that are written
faithfully with the options `o`.  `line` says whether a line break follows the value and `inSeq` whether it is an item
of a sequence.  What is left out is what the serializer does not write faithfully, see the `C67_false` theorems, and
chained tags and doc comments below the root.
-/

namespace Styx.FacetSer

open Styx.Spec

/-- Bytes in hexadecimal. -/
def hexText (bs : List UInt8) : List Char :=
  bs.flatMap fun b => [hexDigit (b.toNat / 16), hexDigit (b.toNat % 16)]

/-- A string that is kept after the tag `n`: it is not written as a heredoc, and the name does not end with the letter
that begins raw strings. -/
def TaggedString (o : FormatOptions) (n s : List Char) : Prop :=
  countNewlines s < o.heredocThreshold ∧ n.tail.getLast? ≠ some 'r'

/-- The calls for the key of a field with doc comment lines. -/
inductive MakesKey : Value → List (List Char) → Call → Prop
  | field {n k} : (canBeBare n = true → '>' ∉ n) → MakesKey (scalarValue n k) [] (.fieldKey n)
  | name {n k doc} : (canBeBare n = true → '>' ∉ n) → MakesKey (scalarValue n k) doc (.emitKey none (some n) doc)
  | doc {n k doc} : (canBeBare n = true → '>' ∉ n) → doc ≠ [] → MakesKey (scalarValue n k) doc (.docKey doc n)
  | unit {t doc} : t = none ∨ t = some [] → MakesKey (.mk none none none) doc (.emitKey t none doc)
  | tag {t doc} : TagName t → MakesKey (.mk (some ⟨t, none⟩) none none) doc (.emitKey (some t) none doc)
  | tagged {t n k doc} : TagName t → t.tail.getLast? ≠ some 'r' → '"' ∉ n → '\\' ∉ n →
      MakesKey (.mk (some ⟨t, none⟩) (some (.scalar n k none)) none) doc (.emitKey (some t) (some n) doc)

mutual
/-- The calls for a value. -/
inductive Makes (o : FormatOptions) : (line inSeq : Bool) → Value → List Call → Prop
  | unit {l q c} : c = .scalar .unit ∨ c = .none → Makes o l q (.mk none none none) [c]
  | text {l q s k} : BareText s → Makes o l q (scalarValue s k) [.scalar (.text s)]
  | str {l q s k} : PlainString o l s → Makes o l q (scalarValue s k) [.scalar (.str s)]
  | bytes {l q bs k} : Makes o l q (scalarValue (hexText bs) k) [.scalar (.bytes bs)]
  | seq {l q vs cs} : MakesItems o vs cs →
      Makes o l q (.mk none (some (.sequence vs none)) none) (.beginSeq :: (cs ++ [.endSeq]))
  | struct {l q es cs} : MakesFields o es cs → DistinctKeys es →
      Makes o l q (.mk none (some (.object es none)) none) (.beginStruct :: (cs ++ [.endStruct]))
  | tag {l q n c} : TagName n → c = .finishTag ∨ c = .scalar .unit ∨ c = .none →
      Makes o l q (.mk (some ⟨n, none⟩) none none) [.variantTag n, c]
  | tagStr {l q n s k} : TagName n → TaggedString o n s →
      Makes o l q (.mk (some ⟨n, none⟩) (some (.scalar s k none)) none) [.variantTag n, .scalar (.str s)]
  | tagBytes {l q n bs k} : TagName n → n.tail.getLast? ≠ some 'r' →
      Makes o l q (.mk (some ⟨n, none⟩) (some (.scalar (hexText bs) k none)) none) [.variantTag n, .scalar (.bytes bs)]
  | tagSeq {l q n vs cs c} : TagName n → MakesItems o vs cs → c = .seqAfterTag ∨ (q = false ∧ c = .beginSeq) →
      Makes o l q (.mk (some ⟨n, none⟩) (some (.sequence vs none)) none) (.variantTag n :: c :: (cs ++ [.endSeq]))
  | tagStruct {l q n es cs c} : TagName n → MakesFields o es cs → DistinctKeys es →
      c = .structAfterTag ∨ (q = false ∧ c = .beginStruct) →
      Makes o l q (.mk (some ⟨n, none⟩) (some (.object es none)) none) (.variantTag n :: c :: (cs ++ [.endStruct]))
/-- The calls for the items of a sequence. -/
inductive MakesItems (o : FormatOptions) : List Value → List Call → Prop
  | nil : MakesItems o [] []
  | cons {v vs cs cs'} : Makes o false true v cs → MakesItems o vs cs' → MakesItems o (v :: vs) (cs ++ cs')
/-- The calls for the fields of a struct that is not the root. -/
inductive MakesFields (o : FormatOptions) : List Entry → List Call → Prop
  | nil : MakesFields o [] []
  | cons {k v es c cs cs'} : MakesKey k [] c → Makes o false false v cs → MakesFields o es cs' →
      MakesFields o (.mk k v none :: es) (c :: (cs ++ cs'))
end

/-- The calls for the fields of the root. -/
inductive MakesRoot (o : FormatOptions) : List Entry → List Call → Prop
  | nil : MakesRoot o [] []
  | cons {k v doc es c cs cs'} : MakesKey k doc c → (doc ≠ [] → PlainDoc (joined doc)) → Makes o true false v cs →
      MakesRoot o es cs' → MakesRoot o (.mk k v (docOf doc) :: es) (c :: (cs ++ cs'))

/-- The calls for a document: a struct whose keys are distinct, and not dotted when bare. -/
def MakesDocument (o : FormatOptions) (es : List Entry) (cs : List Call) : Prop :=
  (∀ c ∈ o.indent, Blank c) ∧ (∃ cs', MakesRoot o es cs' ∧ cs = .beginStruct :: (cs' ++ [.endStruct])) ∧
  (es.map fun e => keyName (entryKey e)).Pairwise (· ≠ ·) ∧
  ∀ s k sp sp' v d, Entry.mk (.mk none (some (.scalar s k sp)) sp') v d ∈ es → canBeBare s = true → '.' ∉ s

end Styx.FacetSer
