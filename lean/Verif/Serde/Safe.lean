import Verif.Serde.Model
import Verif.Tokenizer.RunLemmas
import Verif.Lsp.TokenLemmas

/-! # Reading always ends, and never panics -/

namespace Styx.Serde

open Styx.Spec

/-- The text of every token is as its kind says. -/
def Tokens (ts : List Token) : Prop := ∀ t ∈ ts, KindText t.kind t.text

/-- Fewer tokens are left, or there were none. -/
def Less (ts' ts : List Token) : Prop := ts'.length < ts.length ∨ ts = [] ∧ ts' = []

/-- The result is a value or an error; tokens were used. -/
def Fine {α} (ts : List Token) : Out (α × List Token) → Prop
  | .ok (_, ts') => Tokens ts' ∧ Less ts' ts
  | .err => True
  | .panic => False
  | .stuck => False

/-- A reader that always ends with a value or an error. -/
def Good (r : Reader) : Prop := ∀ ts, Tokens ts → Fine ts (r ts)

theorem Less.le {ts' ts : List Token} (h : Less ts' ts) : ts'.length ≤ ts.length := by
  rcases h with h | ⟨rfl, rfl⟩ <;> omega

theorem Fine.map {α β} {ts : List Token} {x : Out (α × List Token)} (h : Fine ts x) (f : α → β) :
    Fine ts (x.map fun (d, ts) => (f d, ts)) := by
  cases x <;> exact h

theorem Tokens.tail {t : Token} {ts : List Token} (h : Tokens (t :: ts)) : Tokens ts :=
  fun x hx => h x (by simp [hx])

theorem Tokens.head {t : Token} {ts : List Token} (h : Tokens (t :: ts)) : KindText t.kind t.text := h t (by simp)

theorem tokens_nil : Tokens [] := fun _ h => by cases h

theorem next_fine {ts : List Token} (h : Tokens ts) :
    Tokens (nextToken ts).2 ∧ Less (nextToken ts).2 ts ∧ KindText (nextToken ts).1.kind (nextToken ts).1.text := by
  cases ts with
  | nil => exact ⟨h, .inr ⟨rfl, rfl⟩, rfl⟩
  | cons t ts => exact ⟨h.tail, .inl (by simp [nextToken]), h.head⟩

theorem findQuote_eq {a b : List Char} (h : '"' ∉ a) : findQuote (a ++ '"' :: b) = some (utf8Len a) := by
  induction a with
  | nil => rfl
  | cons c a ih =>
    have : c ≠ '"' := fun e => h (by simp [e])
    simp only [List.cons_append, findQuote, this, if_false, ih (fun hc => h (by simp [hc])), Option.map_some, utf8Len_cons]
    congr 1; omega

theorem rfindQuote_none {b : List Char} (h : '"' ∉ b) : rfindQuote b = none := by
  induction b with
  | nil => rfl
  | cons c b ih =>
    have : c ≠ '"' := fun e => h (by simp [e])
    simp [rfindQuote, ih (fun hc => h (by simp [hc])), this]

theorem rfindQuote_eq {a b : List Char} (h : '"' ∉ b) : rfindQuote (a ++ '"' :: b) = some (utf8Len a) := by
  induction a with
  | nil => simp [rfindQuote, rfindQuote_none h]
  | cons c a ih =>
    simp only [List.cons_append, rfindQuote, ih, utf8Len_cons]
    congr 1; omega

theorem rawInner_eq {a b c : List Char} (ha : '"' ∉ a) (hc : '"' ∉ c) :
    rawInner (a ++ '"' :: b ++ '"' :: c) = some b := by
  have hq : '"'.utf8Size = 1 := rfl
  have h1 : findQuote (a ++ '"' :: b ++ '"' :: c) = some (utf8Len a) := by
    rw [List.append_assoc]; exact findQuote_eq ha
  have h2 := rfindQuote_eq (a := a ++ '"' :: b) hc
  unfold rawInner
  rw [h1, h2]
  have h3 := Lsp.sliceBytes_append (a ++ ['"']) b ('"' :: c)
  have e1 : utf8Len (a ++ ['"']) = utf8Len a + 1 := by simp [hq]
  have e2 : utf8Len a + 1 + utf8Len b = utf8Len (a ++ '"' :: b) := by simp [hq]; omega
  rw [e1, e2] at h3
  simpa using h3

theorem replicate_noQuote (n : Nat) : '"' ∉ List.replicate n '#' := by
  intro h
  have := (List.mem_replicate.1 h).2
  revert this; decide

theorem rawInner_kind {text : List Char} (h : KindText .rawScalar text) : ∃ s, rawInner text = some s := by
  obtain ⟨n, body, rfl, -⟩ := h
  refine ⟨body, rawInner_eq ?_ (replicate_noQuote _)⟩
  intro h
  rcases List.mem_cons.1 h with h | h
  · revert h; decide
  · exact replicate_noQuote _ h

theorem readStr_fine {ts : List Token} (h : Tokens ts) : Fine ts (readStr ts) := by
  obtain ⟨h1, h2, h3⟩ := next_fine h
  unfold readStr
  generalize nextToken ts = x at h1 h2 h3 ⊢
  obtain ⟨t, ts'⟩ := x
  simp only at h1 h2 h3 ⊢
  split
  · exact ⟨h1, h2⟩
  · rename_i hk
    rw [hk] at h3
    obtain ⟨s, hs⟩ := rawInner_kind h3
    rw [hs]
    exact ⟨h1, h2⟩
  · exact ⟨h1, h2⟩

theorem deBool_good : Good deBool := by
  intro ts h
  obtain ⟨h1, h2, h3⟩ := next_fine h
  unfold deBool
  generalize nextToken ts = x at h1 h2 h3 ⊢
  simp only
  repeat' split
  all_goals first | exact ⟨h1, h2⟩ | trivial

theorem deInt_good (sg : Bool) (b : Nat) : Good (deInt sg b) := by
  intro ts h
  obtain ⟨h1, h2, h3⟩ := next_fine h
  unfold deInt
  generalize nextToken ts = x at h1 h2 h3 ⊢
  simp only
  split
  · trivial
  · split
    · split
      · exact ⟨h1, h2⟩
      · trivial
    · trivial

theorem deChar_good : Good deChar := by
  intro ts h
  obtain ⟨h1, h2, h3⟩ := next_fine h
  unfold deChar
  generalize nextToken ts = x at h1 h2 h3 ⊢
  simp only
  split
  · exact ⟨h1, h2⟩
  · trivial

theorem deUnit_good : Good deUnit := by
  intro ts h
  obtain ⟨h1, h2, h3⟩ := next_fine h
  unfold deUnit
  generalize nextToken ts = x at h1 h2 h3 ⊢
  simp only
  split
  · exact ⟨h1, h2⟩
  · trivial

theorem quoted_slice {body : List Char} :
    sliceBytes ('"' :: body ++ ['"']) 1 (utf8Len ('"' :: body ++ ['"']) - 1) = some body := by
  have hq : '"'.utf8Size = 1 := rfl
  have h := Lsp.sliceBytes_append ['"'] body ['"']
  have e1 : utf8Len ['"'] = 1 := rfl
  have e2 : utf8Len ('"' :: body ++ ['"']) - 1 = 1 + utf8Len body := by simp [hq]; omega
  rw [e2]
  simpa [hq] using h

theorem deBytes_good : Good deBytes := by
  intro ts h
  obtain ⟨h1, h2, h3⟩ := next_fine h
  unfold deBytes
  generalize nextToken ts = x at h1 h2 h3 ⊢
  obtain ⟨t, ts'⟩ := x
  simp only at h1 h2 h3 ⊢
  split
  · rename_i e
    split at e
    · rename_i hk
      rw [hk] at h3
      obtain ⟨body, hb, -⟩ := h3
      rw [hb, quoted_slice] at e
      cases e
    · cases e
  · split
    · exact ⟨h1, h2⟩
    · trivial

theorem deOption_good {elem : Reader} (he : Good elem) : Good (deOption elem) := by
  intro ts h
  unfold deOption
  split
  · rename_i t r
    split
    · split
      · rename_i n r'
        split
        · have := he (⟨.at, t.start, t.stop, ['@']⟩ :: r') (by
            intro x hx
            rcases List.mem_cons.1 hx with rfl | hx
            · rfl
            · exact h x (by simp [hx]))
          simp only
          generalize elem (⟨.at, t.start, t.stop, ['@']⟩ :: r') = x at this ⊢
          cases x with
          | ok a =>
            refine ⟨this.1, .inl ?_⟩
            have := this.2.le
            simp at this ⊢
            omega
          | err => trivial
          | panic => exact this
          | stuck => exact this
        · exact ⟨h.tail, .inl (by simp)⟩
      · exact ⟨h.tail, .inl (by simp)⟩
    · exact (he _ h).map _
  · exact (he _ h).map _

theorem skipComma_fine {ts : List Token} (h : Tokens ts) : Tokens (skipComma ts) ∧ (skipComma ts).length ≤ ts.length := by
  unfold skipComma
  split
  · split
    · exact ⟨h.tail, by simp⟩
    · exact ⟨h, by simp⟩
  · exact ⟨h, by simp⟩

/-- As `Fine`, and tokens were used in any case. -/
def FineLt {α} (ts : List Token) : Out (α × List Token) → Prop
  | .ok (_, ts') => Tokens ts' ∧ ts'.length < ts.length
  | .err => True
  | .panic => False
  | .stuck => False

theorem FineLt.fine {α} {ts : List Token} {x : Out (α × List Token)} (h : FineLt ts x) : Fine ts x := by
  cases x with
  | ok a => exact ⟨h.1, .inl h.2⟩
  | err => trivial
  | panic => exact h
  | stuck => exact h

/-- As `Fine`, but tokens need not have been used. -/
def FineLe {α} (ts : List Token) : Out (α × List Token) → Prop
  | .ok (_, ts') => Tokens ts' ∧ ts'.length ≤ ts.length
  | .err => True
  | .panic => False
  | .stuck => False

theorem Fine.le {α} {ts : List Token} {x : Out (α × List Token)} (h : Fine ts x) : FineLe ts x := by
  cases x with
  | ok a => exact ⟨h.1, h.2.le⟩
  | err => trivial
  | panic => exact h
  | stuck => exact h

theorem nextElement_fine {elem : Reader} (he : Good elem) {ts : List Token} (h : Tokens ts) :
    FineLt ts (nextElement elem ts) := by
  obtain ⟨h1, h2⟩ := skipComma_fine h
  unfold nextElement
  generalize skipComma ts = u at h1 h2 ⊢
  split
  · trivial
  · rename_i t r
    split
    · exact ⟨h1.tail, by simp at h2; omega⟩
    · have := he _ h1
      generalize elem (t :: r) = x at this ⊢
      cases x with
      | ok a =>
        refine ⟨this.1, ?_⟩
        rcases this.2 with hl | ⟨hl, -⟩
        · simp at h2 hl ⊢; omega
        · cases hl
      | err => trivial
      | panic => exact this
      | stuck => exact this

theorem seqLoop_fine {elem : Reader} (he : Good elem) (n : Nat) : ∀ (acc : List Data) (ts : List Token),
    Tokens ts → ts.length < n → FineLt ts (seqLoop elem n acc ts) := by
  induction n with
  | zero => intro acc ts h hn; omega
  | succ n ih =>
    intro acc ts h hn
    have hx := nextElement_fine he h
    rw [seqLoop]
    generalize nextElement elem ts = x at hx ⊢
    match x with
    | .ok (none, ts') => exact hx
    | .ok (some d, ts') =>
      have := ih (acc ++ [d]) ts' hx.1 (by have := hx.2; omega)
      simp only [Out.bind]
      generalize seqLoop elem n (acc ++ [d]) ts' = y at this ⊢
      cases y with
      | ok a => exact ⟨this.1, by have h1 := this.2; have h2 := hx.2; simp at h1 h2 ⊢; omega⟩
      | err => trivial
      | panic => exact this
      | stuck => exact this
    | .err => trivial

theorem openSeq_good {visit : Reader} (hv : ∀ ts, Tokens ts → FineLe ts (visit ts)) : Good (openSeq visit) := by
  intro ts h
  cases ts with
  | nil => exact trivial
  | cons t ts =>
    rw [openSeq, nextToken]
    by_cases hk : t.kind = .lparen
    · simp only [hk, if_true]
      have := hv ts h.tail
      generalize visit ts = x at this ⊢
      cases x with
      | ok a => exact ⟨this.1, .inl (by have := this.2; simp; omega)⟩
      | err => trivial
      | panic => exact this
      | stuck => exact this
    · simp only [hk, if_false]
      trivial

theorem nextKey_fine (ts : List Token) : ∀ (comma : Bool), Tokens ts →
    ∃ x, nextKey comma ts = x ∧ Fine ts x ∧ ∀ k ts', x = .ok (some k, ts') → ts'.length < ts.length := by
  induction ts with
  | nil => intro comma h; exact ⟨_, rfl, ⟨h, .inr ⟨rfl, rfl⟩⟩, by intro k ts' e; simp [nextKey] at e⟩
  | cons t r ih =>
    intro comma h
    refine ⟨_, rfl, ?_⟩
    have step : ∀ c, Fine (t :: r) (nextKey c r) ∧ ∀ k ts', nextKey c r = .ok (some k, ts') → ts'.length < (t :: r).length := by
      intro c
      obtain ⟨x, e, h1, h2⟩ := ih c h.tail
      rw [e]
      refine ⟨?_, fun k ts' e => by have := h2 k ts' e; simp; omega⟩
      cases x with
      | ok a => exact ⟨h1.1, .inl (by have := h1.2.le; simp; omega)⟩
      | err => trivial
      | panic => exact h1
      | stuck => exact h1
    rw [nextKey]
    split
    · exact step false
    · split
      · exact ⟨⟨h.tail, .inl (by simp)⟩, fun k ts' e => by cases e⟩
      · exact ⟨⟨h.tail, .inl (by simp)⟩, fun k ts' e => by cases e; simp⟩
      · exact ⟨⟨h.tail, .inl (by simp)⟩, fun k ts' e => by cases e; simp⟩
      · exact step true
      · exact ⟨trivial, fun k ts' e => by cases e⟩

theorem mapLoop_fine {elem : Reader} (he : Good elem) (n : Nat) : ∀ (acc : List Field) (ts : List Token),
    Tokens ts → ts.length < n → Fine ts (mapLoop elem n acc ts) := by
  induction n with
  | zero => intro acc ts h hn; omega
  | succ n ih =>
    intro acc ts h hn
    obtain ⟨x, e, hx, hlt⟩ := nextKey_fine ts true h
    rw [mapLoop, e]
    match x with
    | .ok (none, ts') => exact hx
    | .ok (some k, ts') =>
      have hl := hlt k ts' rfl
      simp only [Out.bind]
      have h1 := he ts' hx.1
      generalize elem ts' = y at h1 ⊢
      match y with
      | .ok (d, ts'') =>
        have h2 := ih (acc.filter (fun f => f.key != k) ++ [.mk k d]) ts'' h1.1 (by have := h1.2.le; omega)
        simp only
        generalize mapLoop elem n _ ts'' = z at h2 ⊢
        cases z with
        | ok a => exact ⟨h2.1, .inl (by have h3 := h2.2.le; have h4 := h1.2.le; omega)⟩
        | err => trivial
        | panic => exact h2
        | stuck => exact h2
      | .err => trivial
    | .err => trivial

theorem skipTo_fine (a b : TokenKind) (ts : List Token) : ∀ d, Tokens ts →
    Tokens (skipTo a b d ts) ∧ (skipTo a b d ts).length ≤ ts.length := by
  induction ts with
  | nil => intro d h; cases d <;> simp [skipTo, h]
  | cons t ts ih =>
    intro d h
    cases d with
    | zero => simp [skipTo, h]
    | succ d =>
      rw [skipTo]
      have := fun d => ih d h.tail
      split
      · exact ⟨(this _).1, by have := (this (d + 2)).2; simp; omega⟩
      · split
        · exact ⟨(this _).1, by have := (this d).2; simp; omega⟩
        · exact ⟨(this _).1, by have := (this (d + 1)).2; simp; omega⟩

theorem skipValue_fine : ∀ (ts : List Token), Tokens ts → Tokens (skipValue ts) ∧ (skipValue ts).length ≤ ts.length
  | [], h => by simp [skipValue, h]
  | [t], h => by
    rw [skipValue.eq_def]
    simp only
    split
    · exact ⟨(skipTo_fine _ _ _ _ h.tail).1, by simp [skipTo]⟩
    · exact ⟨(skipTo_fine _ _ _ _ h.tail).1, by simp [skipTo]⟩
    · exact ⟨h.tail, by simp⟩
    · exact ⟨h.tail, by simp⟩
  | [t, n], h => by
    rw [skipValue.eq_def]
    simp only
    split
    · exact ⟨(skipTo_fine _ _ _ _ h.tail).1, by have := (skipTo_fine .lbrace .rbrace _ 1 h.tail).2; simp at this ⊢; omega⟩
    · exact ⟨(skipTo_fine _ _ _ _ h.tail).1, by have := (skipTo_fine .lparen .rparen _ 1 h.tail).2; simp at this ⊢; omega⟩
    · split
      · exact ⟨tokens_nil, by simp⟩
      · exact ⟨h.tail, by simp⟩
    · exact ⟨h.tail, by simp⟩
  | t :: n :: m :: r, h => by
    have ih := skipValue_fine (m :: r) h.tail.tail
    rw [skipValue.eq_def]
    simp only
    split
    · exact ⟨(skipTo_fine _ _ _ _ h.tail).1, by have := (skipTo_fine .lbrace .rbrace _ 1 h.tail).2; simp at this ⊢; omega⟩
    · exact ⟨(skipTo_fine _ _ _ _ h.tail).1, by have := (skipTo_fine .lparen .rparen _ 1 h.tail).2; simp at this ⊢; omega⟩
    · split
      · split
        · exact ⟨h.tail.tail, by simp⟩
        · exact ⟨ih.1, by have := ih.2; simp at this ⊢; omega⟩
      · exact ⟨h.tail, by simp⟩
    · exact ⟨h.tail, by simp⟩

theorem structLoop_fine {field : List Char → Option Reader} (hf : ∀ k r, field k = some r → Good r) (fields : Fields)
    (n : Nat) : ∀ (acc : List Field) (ts : List Token),
    Tokens ts → ts.length < n → Fine ts (structLoop field fields n acc ts) := by
  induction n with
  | zero => intro acc ts h hn; omega
  | succ n ih =>
    intro acc ts h hn
    obtain ⟨x, e, hx, hlt⟩ := nextKey_fine ts true h
    rw [structLoop, e]
    match x with
    | .ok (none, ts') =>
      simp only [Out.bind]
      split
      · exact hx
      · trivial
    | .ok (some k, ts') =>
      have hl := hlt k ts' rfl
      simp only [Out.bind]
      split
      · rename_i elem hk
        split
        · trivial
        · have h1 := hf k elem hk ts' hx.1
          generalize elem ts' = y at h1 ⊢
          match y with
          | .ok (d, ts'') =>
            have h2 := ih (acc ++ [.mk k d]) ts'' h1.1 (by have := h1.2.le; omega)
            simp only
            generalize structLoop field fields n _ ts'' = z at h2 ⊢
            cases z with
            | ok a => exact ⟨h2.1, .inl (by have h3 := h2.2.le; have h4 := h1.2.le; omega)⟩
            | err => trivial
            | panic => exact h2
            | stuck => exact h2
          | .err => trivial
      · obtain ⟨h3, h4⟩ := skipValue_fine ts' hx.1
        have h2 := ih acc (skipValue ts') h3 (by omega)
        generalize structLoop field fields n _ (skipValue ts') = z at h2 ⊢
        cases z with
        | ok a => exact ⟨h2.1, .inl (by have h5 := h2.2.le; omega)⟩
        | err => trivial
        | panic => exact h2
        | stuck => exact h2
    | .err => trivial

theorem openMap_good {visit : Reader} (hv : ∀ ts, Tokens ts → Fine ts (visit ts)) : Good (openMap visit) := by
  intro ts h
  unfold openMap
  split
  · rename_i t r
    split
    · have := hv r h.tail
      generalize visit r = x at this ⊢
      cases x with
      | ok a => exact ⟨this.1, .inl (by have := this.2.le; simp; omega)⟩
      | err => trivial
      | panic => exact this
      | stuck => exact this
    · exact hv _ h
  · exact hv _ h

theorem deEnum_good {variant : List Char → Option Reader}
    (hv : ∀ k r, variant k = some r → ∀ ts, Tokens ts → FineLe ts (r ts)) : Good (deEnum variant) := by
  intro ts h
  have visit : ∀ k (u : List Token), Tokens u → u.length < ts.length →
      Fine ts (match variant k with | some r => r u | none => .err) := by
    intro k u hu hl
    split
    · rename_i r hr
      have hx := hv k r hr u hu
      generalize r u = x at hx ⊢
      cases x with
      | ok a => exact ⟨hx.1, .inl (by have := hx.2; omega)⟩
      | err => trivial
      | panic => exact hx
      | stuck => exact hx
    · trivial
  cases ts with
  | nil => exact trivial
  | cons t ts =>
    rw [deEnum, nextToken]
    by_cases hk : t.kind = .at
    · simp only [hk, if_true]
      cases ts with
      | nil => exact trivial
      | cons n ts =>
        rw [nextToken]
        by_cases hn : n.kind = .bareScalar
        · simp only [hn, if_true]
          exact visit _ _ h.tail.tail (by simp; omega)
        · simp only [hn, if_false]
          trivial
    · simp only [hk, if_false]
      by_cases hn : t.kind = .bareScalar
      · simp only [hn, if_true]
        exact visit _ _ h.tail (by simp)
      · simp only [hn, if_false]
        trivial

mutual
theorem de_good : ∀ t : Ty, Good (de t)
  | .unit => deUnit_good
  | .bool => deBool_good
  | .int sg b => deInt_good sg b
  | .char => deChar_good
  | .str => fun ts h => (readStr_fine h).map _
  | .bytes => deBytes_good
  | .option t => deOption_good (de_good t)
  | .seq t => openSeq_good fun ts h => (seqLoop_fine (de_good t) _ [] ts h (by simp)).fine.le
  | .map t => openMap_good fun ts h => mapLoop_fine (de_good t) _ [] ts h (by simp)
  | .struct fs => openMap_good fun ts h => structLoop_fine (deField_good fs) fs _ [] ts h (by simp)
  | .tuple ts => openSeq_good fun toks h => by
    have := deTuple_fine ts toks h
    generalize deTuple ts toks = x at this ⊢
    cases x <;> exact this
  | .enum vs => deEnum_good (deVariant_fine vs)
theorem deField_good : ∀ (fs : Fields) (k : List Char) (r : Reader), deField fs k = some r → Good r
  | .nil, k, r, h => by simp [deField] at h
  | .cons name t rest, k, r, h => by
    rw [deField] at h
    split at h
    · cases h; exact de_good t
    · exact deField_good rest k r h
theorem deTuple_fine : ∀ (ts : Tys) (toks : List Token), Tokens toks → FineLe toks (deTuple ts toks)
  | .nil, toks, h => by rw [deTuple]; exact ⟨h, Nat.le_refl _⟩
  | .cons t rest, toks, h => by
    have h1 := nextElement_fine (de_good t) h
    rw [deTuple]
    generalize nextElement (de t) toks = x at h1 ⊢
    match x with
    | .ok (none, _) => trivial
    | .ok (some d, toks') =>
      have h2 := deTuple_fine rest toks' h1.1
      simp only [Out.bind]
      generalize deTuple rest toks' = y at h2 ⊢
      cases y with
      | ok a => exact ⟨h2.1, by have h3 := h2.2; have h4 := h1.2; simp at h4 ⊢; omega⟩
      | err => trivial
      | panic => exact h2
      | stuck => exact h2
    | .err => trivial
theorem deVariant_fine : ∀ (vs : Variants) (k : List Char) (r : Reader), deVariant vs k = some r →
    ∀ ts, Tokens ts → FineLe ts (r ts)
  | .nil, k, r, h => by simp [deVariant] at h
  | .cons name s rest, k, r, h => by
    rw [deVariant] at h
    split at h
    · cases h; exact deShape_fine name s
    · exact deVariant_fine rest k r h
theorem deShape_fine (name : List Char) : ∀ (s : Shape) (ts : List Token), Tokens ts → FineLe ts (deShape name s ts)
  | .unit, ts, h => by rw [deShape]; exact ⟨h, Nat.le_refl _⟩
  | .newtype t, ts, h => by
    rw [deShape]
    exact ((de_good t ts h).map _).le
  | .tuple tys, ts, h => by
    rw [deShape]
    show FineLe ts (Out.map _ _)
    have := (openSeq_good (visit := fun toks => (deTuple tys toks).map fun (ds, toks) => (.seq ds, toks))
      (fun toks h => by
        have := deTuple_fine tys toks h
        generalize deTuple tys toks = x at this ⊢
        cases x <;> exact this) ts h).le
    generalize openSeq _ ts = x at this ⊢
    match x with
    | .ok (d, ts') => cases d <;> exact this
    | .err => trivial
  | .struct fs, ts, h => by
    rw [deShape]
    show FineLe ts (Out.map _ _)
    have := (openMap_good (fun ts h => structLoop_fine (deField_good fs) fs _ [] ts h (Nat.lt_succ_self _)) ts h).le
    generalize openMap _ ts = x at this ⊢
    match x with
    | .ok (d, ts') => cases d <;> exact this
    | .err => trivial
end

theorem significant_tokens (s : List Char) : Tokens (significant s) := by
  intro t ht
  unfold significant at ht
  exact (run_kind (s.length + 2) (Tok.new s) (tokInv_new s) t (List.mem_filter.1 ht).1).1

/-- Reading a value from a text gives a value or an error. -/
theorem fromStyx_ends (t : Ty) (s : List Char) : (∃ d, fromStyx t s = .ok d) ∨ fromStyx t s = .err := by
  have := de_good t _ (significant_tokens s)
  unfold fromStyx
  generalize de t (significant s) = x at this ⊢
  cases x with
  | ok a => exact .inl ⟨_, rfl⟩
  | err => exact .inr rfl
  | panic => exact this.elim
  | stuck => exact this.elim

end Styx.Serde
