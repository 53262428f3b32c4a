import Verif.Cst.RelayoutValue
import Verif.Cst.Neat

/-! # The loops of the source formatter as functions of the lines they write

A list of greens is read as a list of lines, each with the number of line breaks before it. -/

namespace Styx.Cst

open Styx Styx.Spec

variable {ind : List Char}

/-- What is written on a line of its own. -/
inductive Ln where
  | com (t : List Char)
  | doc (t : List Char)
  | ent (cs : List Green)

/-- The lines, with the number of line breaks before each; `rst`: a comma starts the count again. -/
def items (rst : Bool) : Nat → List Green → List (Nat × Ln)
  | _, [] => []
  | n, .token k t :: gs =>
    match k with
    | .NEWLINE => items rst (n + 1) gs
    | .LINE_COMMENT => (n, .com t) :: items rst 0 gs
    | .DOC_COMMENT => (n, .doc t) :: items rst 0 gs
    | .COMMA => items rst (if rst then 0 else n) gs
    | _ => items rst n gs
  | n, .node _ cs :: gs => (n, .ent cs) :: items rst 0 gs

/-- A line is written. -/
def putLn (ind : List Char) (act : List Green → Fmt → Fmt) : Ln → Fmt → Fmt
  | .com t, f => f.write ind t
  | .doc t, f => f.write ind t
  | .ent cs, f => act cs f

/-- The loop of a block. -/
def runBlock (ind : List Char) (act : List Green → Fmt → Fmt) : Bool → List (Nat × Ln) → Fmt → Fmt
  | _, [], f => f
  | w, (n, l) :: ls, f => runBlock ind act true ls (putLn ind act l (f.breakLine w n))

/-- What is between brackets. -/
def Inner (g : Green) : Prop :=
  Elem g ∨ ∃ t, g = .token .L_BRACE t ∨ g = .token .R_BRACE t

/-- What is between parentheses. -/
def InnerSeq (g : Green) : Prop :=
  Elem g ∨ ∃ t, g = .token .L_PAREN t ∨ g = .token .R_PAREN t

theorem seqElem_elem {g : Green} (h : SeqElem g) : Elem g := by
  cases g with
  | token k t => rcases h with rfl | rfl | rfl <;> simp [Elem]
  | node k c => exact h.1

theorem formatBlock_items : ∀ (cs : List Green) (w : Bool) (n : Nat) (f : Fmt), (∀ g ∈ cs, Inner g) →
    formatBlock ind cs w n f = runBlock ind (fun c => formatNode ind (.node .ENTRY c)) w (items true n cs) f := by
  intro cs
  induction cs with
  | nil => intro w n f _; rw [formatBlock]; rfl
  | cons g gs ih =>
    intro w n f he
    have he' : ∀ g ∈ gs, Inner g := fun x hx => he x (by simp [hx])
    rcases he g (by simp) with hg | ⟨t, rfl | rfl⟩
    · cases g with
      | token k t =>
        rcases hg with rfl | rfl | rfl | rfl | rfl <;> simp only [formatBlock, items, runBlock, putLn, if_true] <;>
          exact ih _ _ _ he'
      | node k c =>
        obtain rfl : k = .ENTRY := hg
        simp only [formatBlock, items, runBlock, putLn, if_true]
        exact ih _ _ _ he'
    · simp only [formatBlock, items]; exact ih _ _ _ he'
    · simp only [formatBlock, items]; exact ih _ _ _ he'

theorem formatSeqBlock_items : ∀ (cs : List Green) (w : Bool) (n : Nat) (f : Fmt), (∀ g ∈ cs, InnerSeq g) →
    formatSeqBlock ind cs w n f = runBlock ind (fun c => formatItem ind c) w (items true n cs) f := by
  intro cs
  induction cs with
  | nil => intro w n f _; rw [formatSeqBlock]; rfl
  | cons g gs ih =>
    intro w n f he
    have he' : ∀ g ∈ gs, InnerSeq g := fun x hx => he x (by simp [hx])
    rcases he g (by simp) with hg | ⟨t, rfl | rfl⟩
    · cases g with
      | token k t =>
        rcases hg with rfl | rfl | rfl | rfl | rfl <;> simp only [formatSeqBlock, items, runBlock, putLn, if_true] <;>
          exact ih _ _ _ he'
      | node k c =>
        obtain rfl : k = .ENTRY := hg
        simp only [formatSeqBlock, items, runBlock, putLn, if_true]
        exact ih _ _ _ he'
    · simp only [formatSeqBlock, items]; exact ih _ _ _ he'
    · simp only [formatSeqBlock, items]; exact ih _ _ _ he'

/-! ## What else is asked about a list -/

/-- The entry of a line. -/
def Ln.entry : Ln → Option (List Green)
  | .ent cs => some cs
  | _ => none

/-- A comment. -/
def Ln.isCom : Ln → Bool
  | .com _ => true
  | _ => false

/-- A doc comment. -/
def Ln.isDoc : Ln → Bool
  | .doc _ => true
  | _ => false

theorem bracket_items {P : Green → Prop} {rst : Bool} {n : Nat} {cs : List Green}
    (hP : ∀ g, P g → Elem g ∨ ∃ k t, g = .token k t ∧ (k = .L_BRACE ∨ k = .R_BRACE ∨ k = .L_PAREN ∨ k = .R_PAREN))
    (h : ∀ g ∈ cs, P g) :
    entriesOf cs = (items rst n cs).filterMap (·.2.entry) ∧
    hasKind .LINE_COMMENT cs = (items rst n cs).any (·.2.isCom) ∧
    hasKind .DOC_COMMENT cs = (items rst n cs).any (·.2.isDoc) := by
  induction cs generalizing n with
  | nil => simp [entriesOf, nodesOf, items, hasKind]
  | cons g gs ih =>
    have ih := fun n => ih (n := n) fun x hx => h x (by simp [hx])
    have hk : ∀ k, hasKind k (g :: gs) = (decide (g.kind = k) || hasKind k gs) := fun k => by
      simp only [hasKind, List.any_cons]; congr 1
    rcases hP g (h g (by simp)) with hg | ⟨k, t, rfl, hg⟩
    · cases g with
      | token k t =>
        rcases hg with rfl | rfl | rfl | rfl | rfl <;>
          simp [entriesOf, nodesOf, items, hk, Green.kind, Ln.entry, Ln.isCom, Ln.isDoc] <;>
          first
          | exact ih _
          | exact ⟨(ih 0).1, (ih 0).2.2⟩
          | exact ⟨(ih 0).1, (ih 0).2.1⟩
      | node k c =>
        obtain rfl : k = .ENTRY := hg
        simpa [entriesOf, nodesOf, items, hk, Green.kind, Ln.entry, Ln.isCom, Ln.isDoc] using ih _
    · rcases hg with rfl | rfl | rfl | rfl <;>
        simpa [entriesOf, nodesOf, items, hk, Green.kind, Ln.entry, Ln.isCom, Ln.isDoc] using ih _

theorem inner_items {rst : Bool} {n : Nat} {cs : List Green} (h : ∀ g ∈ cs, Inner g) :
    entriesOf cs = (items rst n cs).filterMap (·.2.entry) ∧
    hasKind .LINE_COMMENT cs = (items rst n cs).any (·.2.isCom) ∧
    hasKind .DOC_COMMENT cs = (items rst n cs).any (·.2.isDoc) := by
  refine bracket_items (P := Inner) ?_ h
  rintro g (hg | ⟨t, rfl | rfl⟩)
  · exact .inl hg
  · exact .inr ⟨_, _, rfl, by simp⟩
  · exact .inr ⟨_, _, rfl, by simp⟩

theorem innerSeq_items {rst : Bool} {n : Nat} {cs : List Green} (h : ∀ g ∈ cs, InnerSeq g) :
    entriesOf cs = (items rst n cs).filterMap (·.2.entry) ∧
    hasKind .LINE_COMMENT cs = (items rst n cs).any (·.2.isCom) ∧
    hasKind .DOC_COMMENT cs = (items rst n cs).any (·.2.isDoc) := by
  refine bracket_items (P := InnerSeq) ?_ h
  rintro g (hg | ⟨t, rfl | rfl⟩)
  · exact .inl hg
  · exact .inr ⟨_, _, rfl, by simp⟩
  · exact .inr ⟨_, _, rfl, by simp⟩

/-! ## The same lines -/

/-- The same line, up to the entries. -/
inductive LnRel (R : List Green → List Green → Prop) : Nat × Ln → Nat × Ln → Prop
  | com {n t} : LnRel R (n, .com t) (n, .com t)
  | doc {n t} : LnRel R (n, .doc t) (n, .doc t)
  | ent {n c c'} : R c c' → LnRel R (n, .ent c) (n, .ent c')

/-- The elements are related, one to one. -/
inductive All2 {α β : Type} (R : α → β → Prop) : List α → List β → Prop
  | nil : All2 R [] []
  | cons {a b as bs} : R a b → All2 R as bs → All2 R (a :: as) (b :: bs)

/-- The same lines. -/
abbrev LnsRel (R : List Green → List Green → Prop) : List (Nat × Ln) → List (Nat × Ln) → Prop := All2 (LnRel R)

theorem runBlock_congr {R : List Green → List Green → Prop} {act : List Green → Fmt → Fmt}
    (hR : ∀ c c', R c c' → ∀ f, act c' f = act c f) {ls ls' : List (Nat × Ln)} (h : LnsRel R ls ls') :
    ∀ w f, runBlock ind act w ls' f = runBlock ind act w ls f := by
  induction h with
  | nil => intros; rfl
  | cons h1 _ ih =>
    intro w f
    cases h1 with
    | com => simp only [runBlock, putLn, ih]
    | doc => simp only [runBlock, putLn, ih]
    | ent h => simp only [runBlock, putLn, ih, hR _ _ h]

/-- The number of line breaks that are written. -/
def brk (w : Bool) (n : Nat) : Nat := if w then (if n ≥ 2 then 2 else 1) else 0

/-- The lines with the line breaks that are written. -/
def normB : Bool → List (Nat × Ln) → List (Nat × Ln)
  | _, [] => []
  | w, (n, l) :: ls => (brk w n, l) :: normB true ls

/-- More line breaks before the first line. -/
def bumpFirst (n : Nat) : List (Nat × Ln) → List (Nat × Ln)
  | [] => []
  | (m, l) :: ls => (n + m, l) :: ls

theorem breakLine_brk (f : Fmt) (w : Bool) (n : Nat) : f.breakLine w (brk w n) = f.breakLine w n := by
  unfold Fmt.breakLine brk
  cases w
  · rfl
  · by_cases h : n ≥ 2 <;> simp [h]

theorem runBlock_norm {act : List Green → Fmt → Fmt} : ∀ (ls : List (Nat × Ln)) (w : Bool) (f : Fmt),
    runBlock ind act w (normB w ls) f = runBlock ind act w ls f
  | [], _, _ => rfl
  | (n, l) :: ls, w, f => by
    simp only [normB, runBlock, breakLine_brk]
    exact runBlock_norm ls true _

theorem runBlock_first {act : List Green → Fmt → Fmt} (n : Nat) (ls : List (Nat × Ln)) (f : Fmt) :
    runBlock ind act false (bumpFirst n ls) f = runBlock ind act false ls f := by
  cases ls with
  | nil => rfl
  | cons l ls => simp [bumpFirst, runBlock, Fmt.breakLine]

/-! ## Documents -/

/-- The loop of a document. -/
def runDoc (ind : List Char) (schema : Bool) : DocState → List (Nat × Ln) → Fmt → Fmt
  | _, [], f => f
  | d, (n, .com t) :: ls, f =>
    runDoc ind schema { d with wrote := true, justDoc := false } ls ((f.breakLine d.wrote n).write ind t)
  | d, (n, .doc t) :: ls, f =>
    runDoc ind schema { d with wrote := true, justDoc := true } ls
      ((({ d with newlines := n } : DocState).beforeDoc schema f).write ind t)
  | d, (n, .ent cs) :: ls, f =>
    runDoc ind schema
      { newlines := 0, index := d.index + 1, wrote := true, justDoc := false, prevDoc := d.justDoc, prevBlock := isBlockEntry cs }
      ls (formatNode ind (.node .ENTRY cs) (({ d with newlines := n } : DocState).beforeEntry schema (isBlockEntry cs) f))

theorem runDoc_newlines (schema : Bool) (d : DocState) (m : Nat) (ls : List (Nat × Ln)) (f : Fmt) :
    runDoc ind schema { d with newlines := m } ls f = runDoc ind schema d ls f := by
  induction ls generalizing d f with
  | nil => rfl
  | cons l ls ih =>
    obtain ⟨n, l⟩ := l
    cases l with
    | com t => simp only [runDoc]; exact ih { d with wrote := true, justDoc := false } _
    | doc t => simp only [runDoc]; exact ih { d with wrote := true, justDoc := true } _
    | ent cs => simp only [runDoc]

theorem formatDocument_items (schema : Bool) : ∀ (cs prev : List Green) (d : DocState) (f : Fmt), (∀ g ∈ cs, Elem g) →
    DocNext d.justDoc cs → hasDocBefore prev = d.justDoc →
    formatDocument ind schema prev cs d f = runDoc ind schema d (items false d.newlines cs) f := by
  intro cs
  induction cs with
  | nil => intro prev d f _ _ _; rw [formatDocument]; rfl
  | cons g gs ih =>
    intro prev d f he hn hp
    have he' : ∀ g ∈ gs, Elem g := fun x hx => he x (by simp [hx])
    have hg := he g (by simp)
    cases g with
    | token k t =>
      rcases hg with rfl | rfl | rfl | rfl | rfl <;> simp only [formatDocument, items]
      · rw [DocNext, if_neg (by simp)] at hn
        rw [ih _ d f he' hn.2 (by simp [hasDocBefore, Green.kind, hp])]
      · rw [DocNext, if_neg (by simp)] at hn
        rw [ih _ { d with newlines := d.newlines + 1 } f he' hn.2 (by simp [hasDocBefore, Green.kind, hp])]
        exact runDoc_newlines schema d (d.newlines + 1) _ _
      · rw [DocNext, if_neg (by simp)] at hn
        have hj : d.justDoc = false := by
          cases hj : d.justDoc with
          | false => rfl
          | true => exact absurd rfl (hn.1 hj).1
        rw [ih _ d f he' hn.2 (by simp [hasDocBefore, Green.kind, hj])]
        rfl
      · rw [DocNext, if_neg (by simp)] at hn
        have hj : d.justDoc = false := by
          cases hj : d.justDoc with
          | false => rfl
          | true => exact absurd rfl (hn.1 hj).2
        rw [ih _ { d with wrote := true, newlines := 0, justDoc := false } _ he' (by rw [hj] at hn; exact hn.2)
          (by simp [hasDocBefore, Green.kind])]
        rw [runDoc]
        exact runDoc_newlines schema { d with wrote := true, justDoc := false } 0 _ _
      · rw [DocNext, if_pos rfl] at hn
        rw [ih _ { d with wrote := true, newlines := 0, justDoc := true } _ he' hn
          (by simp [hasDocBefore, Green.kind])]
        rw [runDoc]
        exact runDoc_newlines schema { d with wrote := true, justDoc := true } 0 _ _
    | node k c =>
      obtain rfl : k = .ENTRY := hg
      rw [DocNext] at hn
      rw [formatDocument]
      simp only [items, runDoc]
      rw [ih _ ⟨0, d.index + 1, true, false, hasDocBefore prev, isBlockEntry c⟩ _ he' hn
        (by simp [hasDocBefore, Green.kind]), hp]

/-- The lines with the line breaks that are written. -/
def normD (schema : Bool) : DocState → List (Nat × Ln) → List (Nat × Ln)
  | _, [] => []
  | d, (n, .com t) :: ls => (brk d.wrote n, .com t) :: normD schema { d with wrote := true, justDoc := false } ls
  | d, (n, .doc t) :: ls =>
    (if d.wrote then
      if !d.justDoc && (decide (n ≥ 2) || (d.index == 1 && schema) ||
        (decide (d.index > 0) && d.prevDoc) || (decide (d.index > 0) && d.prevBlock)) then 2 else 1
      else 0, .doc t) :: normD schema { d with wrote := true, justDoc := true } ls
  | d, (n, .ent cs) :: ls =>
    (if d.wrote then
      if !d.justDoc && (decide (n ≥ 2) || (d.index == 1 && schema) ||
        (decide (d.index > 0) && d.prevDoc) || (decide (d.index > 0) && d.prevBlock) || isBlockEntry cs) then 2 else 1
      else 0, .ent cs) ::
      normD schema
        { newlines := 0, index := d.index + 1, wrote := true, justDoc := false, prevDoc := d.justDoc, prevBlock := isBlockEntry cs }
        ls

/-- What a document asks about two entries that are the same. -/
structure DocRel (ind : List Char) (c c' : List Green) : Prop where
  fmt : ∀ f, formatNode ind (.node .ENTRY c') f = formatNode ind (.node .ENTRY c) f
  block : isBlockEntry c' = isBlockEntry c

theorem runDoc_again (schema : Bool) : ∀ (ls ls' : List (Nat × Ln)) (d : DocState) (f : Fmt),
    LnsRel (DocRel ind) (normD schema d ls) ls' → runDoc ind schema d ls' f = runDoc ind schema d ls f
  | [], ls', d, f, h => by
    simp only [normD] at h
    cases h
    rfl
  | (n, .com t) :: ls, ls', d, f, h => by
    simp only [normD] at h
    cases h with
    | cons h1 h2 =>
      cases h1
      simp only [runDoc, breakLine_brk]
      exact runDoc_again schema _ _ _ _ h2
  | (n, .doc t) :: ls, ls', d, f, h => by
    simp only [normD] at h
    cases h with
    | cons h1 h2 =>
      cases h1
      simp only [runDoc]
      rw [runDoc_again schema _ _ _ _ h2]
      congr 2
      unfold DocState.beforeDoc
      simp only
      cases hw : d.wrote
      · simp
      · cases hj : d.justDoc
        · by_cases hx : (decide (n ≥ 2) || (d.index == 1 && schema) ||
            (decide (d.index > 0) && d.prevDoc) || (decide (d.index > 0) && d.prevBlock)) = true
          · simp [hx]
          · simp only [Bool.not_eq_true] at hx
            have hx' := hx
            simp only [Bool.or_eq_false_iff] at hx'
            have hn : ¬ 2 ≤ n := by simpa using hx'.1.1.1
            simp [hn, hx'.1.1.2, hx'.1.2, hx'.2]
        · simp
  | (n, .ent cs) :: ls, ls', d, f, h => by
    simp only [normD] at h
    cases h with
    | cons h1 h2 =>
      cases h1 with
      | @ent n c c' hr =>
      simp only [runDoc]
      rw [hr.block, runDoc_again schema _ _ _ _ h2, hr.fmt]
      congr 2
      unfold DocState.beforeEntry
      simp only
      cases hw : d.wrote
      · simp
      · cases hj : d.justDoc
        · by_cases hx : (decide (n ≥ 2) || (d.index == 1 && schema) ||
            (decide (d.index > 0) && d.prevDoc) || (decide (d.index > 0) && d.prevBlock) || isBlockEntry cs) = true
          · simp [hx]
          · simp only [Bool.not_eq_true] at hx
            have hx' := hx
            simp only [Bool.or_eq_false_iff] at hx'
            have hn : ¬ 2 ≤ n := by simpa using hx'.1.1.1.1
            simp [hn, hx'.1.1.1.2, hx'.1.1.2, hx'.1.2, hx'.2]
        · simp

/-! ## Entries on one line -/

/-- The loop that puts the entries on one line. -/
def runInline (ind : List Char) (act : List Green → Fmt → Fmt) (sep : List Char) : List (List Green) → Fmt → Fmt
  | [], f => f
  | [c], f => act c f
  | c :: cs, f => runInline ind act sep cs ((act c f).write ind sep)

theorem inlineLoop_run {act : List Green → Fmt → Fmt} {sep : List Char} : ∀ (gs : List Green) (f : Fmt),
    inlineLoop ind act sep gs f = runInline ind act sep (entriesOf gs) f
  | [], f => by simp [inlineLoop, entriesOf, nodesOf, runInline]
  | .token _ _ :: gs, f => by
    rw [inlineLoop, inlineLoop_run gs]
    rfl
  | .node k cs :: gs, f => by
    rw [inlineLoop]
    by_cases hk : k = .ENTRY
    · rw [if_pos hk, inlineLoop_run gs, entriesOf, entriesOf, nodesOf, if_pos hk]
      cases h : nodesOf .ENTRY gs with
      | nil => simp [runInline]
      | cons c cs' => simp [runInline]
    · rw [if_neg hk, inlineLoop_run gs, entriesOf, entriesOf, nodesOf, if_neg hk]

theorem runInline_congr {R : List Green → List Green → Prop} {act : List Green → Fmt → Fmt} {sep : List Char}
    (hR : ∀ c c', R c c' → ∀ f, act c' f = act c f) {cs cs' : List (List Green)} (h : All2 R cs cs') :
    ∀ f, runInline ind act sep cs' f = runInline ind act sep cs f := by
  induction h with
  | nil => intros; rfl
  | cons h1 h2 ih =>
    intro f
    cases h2 with
    | nil => simp [runInline, hR _ _ h1]
    | cons h3 h4 =>
      simp only [runInline, hR _ _ h1]
      exact ih _

end Styx.Cst
