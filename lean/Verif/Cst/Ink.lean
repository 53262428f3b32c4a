import Verif.Cst.Shape
import Verif.Cst.Format

/-! # The formatter keeps the ink -/

namespace Styx.Cst

open Styx Styx.Spec

theorem singleEntriesL_iff (cs : List Green) : SingleEntriesL cs ↔ ∀ g ∈ cs, SingleEntries g := by
  induction cs with
  | nil => simp [SingleEntriesL]
  | cons g gs ih => simp [SingleEntriesL, ih]

/-- The ink of the output so far. -/
def Fmt.ink (f : Fmt) : List Char := Spec.ink f.out

theorem ink_indent {ind : List Char} (h : ink ind = []) (n : Nat) : ink (indentOf ind n) = [] := by
  induction n with
  | zero => rfl
  | succ n ih =>
    have : indentOf ind (n + 1) = ind ++ indentOf ind n := by simp [indentOf, List.replicate_succ]
    rw [this, ink_append, h, ih]; rfl

variable {ind : List Char} (hind : ink ind = [])

include hind in
theorem write_ink (f : Fmt) (s : List Char) : (f.write ind s).ink = f.ink ++ ink s := by
  unfold Fmt.write
  split
  · rename_i h
    simp [h, ink_nil]
  · simp only [Fmt.ink, ink_append, Fmt.writeIndent]
    congr 1
    split
    · rw [ink_append, ink_indent hind, List.append_nil]
    · rfl

theorem newline_ink (f : Fmt) : f.newline.ink = f.ink := by
  simp [Fmt.ink, Fmt.newline, ink_append, show ink ['\n'] = [] from rfl]

theorem breakLine_ink (f : Fmt) (w : Bool) (n : Nat) : (f.breakLine w n).ink = f.ink := by
  unfold Fmt.breakLine
  split
  · split <;> simp [newline_ink]
  · rfl

theorem level_ink (f : Fmt) (n : Nat) : ({ f with level := n } : Fmt).ink = f.ink := rfl

theorem beforeDoc_ink (d : DocState) (b : Bool) (f : Fmt) : (d.beforeDoc b f).ink = f.ink := by
  unfold DocState.beforeDoc
  split
  · split <;> simp [newline_ink]
  · rfl

theorem beforeEntry_ink (d : DocState) (b b' : Bool) (f : Fmt) : (d.beforeEntry b b' f).ink = f.ink := by
  unfold DocState.beforeEntry
  split
  · split <;> simp [newline_ink]
  · rfl

/-- The claim for a node. -/
def Keeps (ind : List Char) (g : Green) : Prop :=
  ∀ k cs, g = .node k cs → Shaped g → SingleEntries g → ∀ f, (formatNode ind g f).ink = f.ink ++ ink g.text

/-- The claim for the elements of a list that have the right shape. -/
def KeepsL (ind : List Char) (cs : List Green) : Prop :=
  ∀ g ∈ cs, ∀ k c, g = .node k c → ∀ f, (formatNode ind g f).ink = f.ink ++ ink g.text

theorem KeepsL.tail {g : Green} {gs : List Green} (h : KeepsL ind (g :: gs)) : KeepsL ind gs :=
  fun g' hg' => h g' (List.mem_cons_of_mem _ hg')

theorem KeepsL.head {k : SyntaxKind} {c gs : List Green} (h : KeepsL ind (.node k c :: gs)) (f : Fmt) :
    (formatNode ind (.node k c) f).ink = f.ink ++ ink (Green.text (.node k c)) :=
  h _ (by simp) k c rfl f

theorem texts_cons (g : Green) (gs : List Green) : Green.texts (g :: gs) = g.text ++ Green.texts gs := rfl

include hind in
theorem document_ink (schema : Bool) : ∀ (cs prev : List Green) (d : DocState) (f : Fmt),
    KeepsL ind cs → ShapedL cs → (∀ g ∈ cs, Elem g) →
    (formatDocument ind schema prev cs d f).ink = f.ink ++ ink (Green.texts cs) := by
  intro cs
  induction cs with
  | nil => intro prev d f _ _ _; simp [formatDocument, Green.texts, ink_nil]
  | cons g gs ih =>
    intro prev d f hP hS hE
    have ih' := fun prev d f => ih prev d f hP.tail hS.2 (fun g' hg' => hE g' (List.mem_cons_of_mem _ hg'))
    rw [texts_cons, ink_append]
    have hEg := hE g (by simp)
    cases g with
    | token k t =>
      have hs : TokShape k t := hS.1
      simp only [Elem] at hEg
      rcases hEg with rfl | rfl | rfl | rfl | rfl
      · simp only [formatDocument, ih', Green.text, hs.1 (by simp), List.nil_append]
      · simp only [formatDocument, ih', Green.text, hs.1 (by simp), List.nil_append]
      · simp only [formatDocument, ih', Green.text, hs.1 (by simp), List.nil_append]
      · simp only [formatDocument, ih', Green.text, write_ink hind, breakLine_ink, List.append_assoc]
      · simp only [formatDocument, ih', Green.text, write_ink hind, beforeDoc_ink, List.append_assoc]
    | node k c =>
      have hEg : k = .ENTRY := hEg
      subst hEg
      simp only [formatDocument, ih', hP.head, beforeEntry_ink, List.append_assoc]

include hind in
theorem block_ink : ∀ (mid : List Green) (w : Bool) (n : Nat) (f : Fmt) (r : List Char),
    KeepsL ind mid → ShapedL mid → (∀ g ∈ mid, Elem g) →
    (formatBlock ind (mid ++ [.token .R_BRACE r]) w n f).ink = f.ink ++ ink (Green.texts mid) := by
  intro mid
  induction mid with
  | nil => intro w n f r _ _ _; simp [formatBlock, Green.texts, ink_nil]
  | cons g gs ih =>
    intro w n f r hP hS hE
    have ih' := fun w n f => ih w n f r hP.tail hS.2 (fun g' hg' => hE g' (List.mem_cons_of_mem _ hg'))
    rw [texts_cons, ink_append, List.cons_append]
    have hEg := hE g (by simp)
    cases g with
    | token k t =>
      have hs : TokShape k t := hS.1
      simp only [Elem] at hEg
      rcases hEg with rfl | rfl | rfl | rfl | rfl
      · simp only [formatBlock, ih', Green.text, hs.1 (by simp), List.nil_append]
      · simp only [formatBlock, ih', Green.text, hs.1 (by simp), List.nil_append]
      · simp only [formatBlock, ih', Green.text, hs.1 (by simp), List.nil_append]
      · simp only [formatBlock, ih', Green.text, write_ink hind, breakLine_ink, List.append_assoc]
      · simp only [formatBlock, ih', Green.text, write_ink hind, breakLine_ink, List.append_assoc]
    | node k c =>
      have hEg : k = .ENTRY := hEg
      subst hEg
      simp only [formatBlock, if_true, ih', hP.head, breakLine_ink, List.append_assoc]

theorem hasKind_cons (k : SyntaxKind) (g : Green) (gs : List Green) :
    hasKind k (g :: gs) = (g.kind == k || hasKind k gs) := rfl

theorem hasComments_cons {g : Green} {gs : List Green} (h : hasComments (g :: gs) = false) :
    g.kind ≠ .LINE_COMMENT ∧ g.kind ≠ .DOC_COMMENT ∧ hasComments gs = false := by
  simp only [hasComments, hasKind_cons, Bool.or_eq_false_iff, beq_eq_false_iff_ne] at h ⊢
  exact ⟨h.1.1, h.2.1, h.1.2, h.2.2⟩

include hind in
theorem inline_ink : ∀ (mid : List Green) (f : Fmt) (r : List Char),
    KeepsL ind mid → ShapedL mid → (∀ g ∈ mid, Elem g) → hasComments mid = false →
    (formatInline ind (mid ++ [.token .R_BRACE r]) f).ink = f.ink ++ ink (Green.texts mid) := by
  intro mid
  induction mid with
  | nil => intro f r _ _ _ _; simp [formatInline, Green.texts, ink_nil]
  | cons g gs ih =>
    intro f r hP hS hE hC
    obtain ⟨hC1, hC2, hC'⟩ := hasComments_cons hC
    have ih' := fun f => ih f r hP.tail hS.2 (fun g' hg' => hE g' (List.mem_cons_of_mem _ hg')) hC'
    rw [texts_cons, ink_append, List.cons_append]
    have hEg := hE g (by simp)
    cases g with
    | token k t =>
      have hs : TokShape k t := hS.1
      simp only [Elem] at hEg
      rcases hEg with rfl | rfl | rfl | rfl | rfl
      · simp only [formatInline, ih', Green.text, hs.1 (by simp), List.nil_append]
      · simp only [formatInline, ih', Green.text, hs.1 (by simp), List.nil_append]
      · simp only [formatInline, ih', Green.text, hs.1 (by simp), List.nil_append]
      · exact absurd rfl hC1
      · exact absurd rfl hC2
    | node k c =>
      have hEg : k = .ENTRY := hEg
      subst hEg
      simp only [formatInline, if_true, ih']
      split
      · simp only [hP.head, List.append_assoc]
      · simp only [write_ink hind, hP.head, show ink [',', ' '] = [] from rfl, List.append_nil, List.append_assoc]

/-- An item of a sequence is formatted as the entry it is in. -/
theorem formatItem_eq {k : SyntaxKind} {c : List Green} (f : Fmt) :
    formatItem ind [.node .KEY [.node k c]] f = formatNode ind (.node .ENTRY [.node .KEY [.node k c]]) f := by
  simp [formatItem, formatNode, formatFirst, formatNodes, formatScalarTokens, entryValue, nodesOf]

include hind in
theorem seqBlock_ink : ∀ (mid : List Green) (w : Bool) (n : Nat) (f : Fmt) (r : List Char),
    KeepsL ind mid → ShapedL mid → (∀ g ∈ mid, SeqElem g) →
    (formatSeqBlock ind (mid ++ [.token .R_PAREN r]) w n f).ink = f.ink ++ ink (Green.texts mid) := by
  intro mid
  induction mid with
  | nil => intro w n f r _ _ _; simp [formatSeqBlock, Green.texts, ink_nil]
  | cons g gs ih =>
    intro w n f r hP hS hE
    have ih' := fun w n f => ih w n f r hP.tail hS.2 (fun g' hg' => hE g' (List.mem_cons_of_mem _ hg'))
    rw [texts_cons, ink_append, List.cons_append]
    have hEg := hE g (by simp)
    cases g with
    | token k t =>
      have hs : TokShape k t := hS.1
      simp only [SeqElem] at hEg
      rcases hEg with rfl | rfl | rfl
      · simp only [formatSeqBlock, ih', Green.text, hs.1 (by simp), List.nil_append]
      · simp only [formatSeqBlock, ih', Green.text, hs.1 (by simp), List.nil_append]
      · simp only [formatSeqBlock, ih', Green.text, write_ink hind, breakLine_ink, List.append_assoc]
    | node k c =>
      obtain ⟨rfl, k', c', rfl, hk⟩ : k = .ENTRY ∧ _ := hEg
      simp only [formatSeqBlock, if_true, ih', formatItem_eq, hP.head, breakLine_ink, List.append_assoc]

include hind in
theorem seqInline_ink : ∀ (mid : List Green) (f : Fmt) (r : List Char),
    KeepsL ind mid → ShapedL mid → (∀ g ∈ mid, SeqElem g) → hasComments mid = false →
    (formatSeqInline ind (mid ++ [.token .R_PAREN r]) f).ink = f.ink ++ ink (Green.texts mid) := by
  intro mid
  induction mid with
  | nil => intro f r _ _ _ _; simp [formatSeqInline, Green.texts, ink_nil]
  | cons g gs ih =>
    intro f r hP hS hE hC
    obtain ⟨hC1, hC2, hC'⟩ := hasComments_cons hC
    have ih' := fun f => ih f r hP.tail hS.2 (fun g' hg' => hE g' (List.mem_cons_of_mem _ hg')) hC'
    rw [texts_cons, ink_append, List.cons_append]
    have hEg := hE g (by simp)
    cases g with
    | token k t =>
      have hs : TokShape k t := hS.1
      simp only [SeqElem] at hEg
      rcases hEg with rfl | rfl | rfl
      · simp only [formatSeqInline, ih', Green.text, hs.1 (by simp), List.nil_append]
      · simp only [formatSeqInline, ih', Green.text, hs.1 (by simp), List.nil_append]
      · exact absurd rfl hC1
    | node k c =>
      obtain ⟨rfl, k', c', rfl, hk⟩ : k = .ENTRY ∧ _ := hEg
      simp only [formatSeqInline, if_true, ih', formatItem_eq]
      split
      · simp only [hP.head, List.append_assoc]
      · simp only [write_ink hind, hP.head, show ink [' '] = [] from rfl, List.append_nil, List.append_assoc]

theorem empty_ink : ∀ (mid : List Green), ShapedL mid → (∀ g ∈ mid, Elem g ∨ SeqElem g) →
    hasComments mid = false → entriesOf mid = [] → ink (Green.texts mid) = [] := by
  intro mid
  induction mid with
  | nil => intros; rfl
  | cons g gs ih =>
    intro hS hE hC hn
    obtain ⟨hC1, hC2, hC'⟩ := hasComments_cons hC
    have hEg := hE g (by simp)
    rw [texts_cons, ink_append]
    cases g with
    | token k t =>
      have hs : TokShape k t := hS.1
      rw [ih hS.2 (fun g' hg' => hE g' (List.mem_cons_of_mem _ hg')) hC' hn, List.append_nil, Green.text]
      simp only [Elem, SeqElem] at hEg
      apply hs.1
      simp only [Green.kind, ne_eq] at hC1 hC2
      grind
    | node k c =>
      have : k = .ENTRY := by
        rcases hEg with h | h
        · exact h
        · exact h.1
      subst this
      simp [entriesOf, nodesOf] at hn

theorem firstItem_ink : ∀ (mid : List Green) (f : Fmt) (r : List Char) (e : List Green),
    KeepsL ind mid → ShapedL mid → (∀ g ∈ mid, SeqElem g) → hasComments mid = false → entriesOf mid = [e] →
    (formatFirstItem ind (mid ++ [.token .R_PAREN r]) f).ink = f.ink ++ ink (Green.texts mid) := by
  intro mid
  induction mid with
  | nil => intro f r e _ _ _ _ h; simp [entriesOf, nodesOf] at h
  | cons g gs ih =>
    intro f r e hP hS hE hC hn
    obtain ⟨hC1, hC2, hC'⟩ := hasComments_cons hC
    rw [texts_cons, ink_append, List.cons_append]
    have hEg := hE g (by simp)
    cases g with
    | token k t =>
      have hs : TokShape k t := hS.1
      have ih' := ih f r e hP.tail hS.2 (fun g' hg' => hE g' (List.mem_cons_of_mem _ hg')) hC' hn
      simp only [SeqElem] at hEg
      rcases hEg with rfl | rfl | rfl
      · simp only [formatFirstItem, ih', Green.text, hs.1 (by simp), List.nil_append]
      · simp only [formatFirstItem, ih', Green.text, hs.1 (by simp), List.nil_append]
      · exact absurd rfl hC1
    | node k c =>
      obtain ⟨rfl, k', c', rfl, hk⟩ : k = .ENTRY ∧ _ := hEg
      have hn' : entriesOf gs = [] := by
        simp only [entriesOf, nodesOf, if_true, List.cons.injEq] at hn
        exact hn.2
      rw [empty_ink gs hS.2 (fun g' hg' => .inr (hE g' (List.mem_cons_of_mem _ hg'))) hC' hn', List.append_nil]
      simp only [formatFirstItem, if_true, formatItem_eq, hP.head]

theorem ws_ink : ∀ (ws : List Green), ShapedL ws → (∀ g ∈ ws, IsWs g) → ink (Green.texts ws) = [] := by
  intro ws
  induction ws with
  | nil => intros; rfl
  | cons g gs ih =>
    intro hS hE
    obtain ⟨t, rfl⟩ := hE g (by simp)
    have hs : TokShape .WHITESPACE t := hS.1
    rw [texts_cons, ink_append, ih hS.2 (fun g' hg' => hE g' (List.mem_cons_of_mem _ hg')), Green.text,
      hs.1 (by simp)]
    rfl

theorem nodesOf_append (k : SyntaxKind) (a b : List Green) : nodesOf k (a ++ b) = nodesOf k a ++ nodesOf k b := by
  induction a with
  | nil => rfl
  | cons g gs ih =>
    cases g with
    | token _ _ => simpa [nodesOf] using ih
    | node k' cs =>
      simp only [List.cons_append, nodesOf]
      split <;> simp [ih]

theorem formatFirst_skip {k : SyntaxKind} : ∀ (a b : List Green) (f : Fmt), nodesOf k a = [] →
    formatFirst ind k (a ++ b) f = formatFirst ind k b f := by
  intro a
  induction a with
  | nil => intros; rfl
  | cons g gs ih =>
    intro b f h
    cases g with
    | token _ _ =>
      simp only [nodesOf] at h
      simp only [List.cons_append, formatFirst]
      exact ih b f h
    | node k' cs =>
      simp only [nodesOf] at h
      split at h
      · cases h
      · rename_i hk
        simp only [List.cons_append, formatFirst, if_neg hk]
        exact ih b f h

theorem formatFirst_none {k : SyntaxKind} (a : List Green) (f : Fmt) (h : nodesOf k a = []) :
    formatFirst ind k a f = f := by
  have := formatFirst_skip (ind := ind) a [] f h
  simpa [formatFirst] using this

theorem nodesOf_ws (k : SyntaxKind) (ws : List Green) (h : ∀ g ∈ ws, IsWs g) : nodesOf k ws = [] := by
  induction ws with
  | nil => rfl
  | cons g gs ih =>
    obtain ⟨t, rfl⟩ := h g (by simp)
    exact ih (fun g' hg' => h g' (List.mem_cons_of_mem _ hg'))

theorem values_ink : ∀ (vs : List Green), KeepsL ind vs → ShapedL vs →
    (∀ g ∈ vs, IsWs g ∨ ∃ c, g = .node .VALUE c) → (nodesOf .VALUE vs).length ≤ 1 →
    (nodesOf .VALUE vs = [] ∧ ink (Green.texts vs) = []) ∨
    (nodesOf .VALUE vs ≠ [] ∧ ∀ f, (formatFirst ind .VALUE vs f).ink = f.ink ++ ink (Green.texts vs)) := by
  intro vs
  induction vs with
  | nil => intros; exact .inl ⟨rfl, rfl⟩
  | cons g gs ih =>
    intro hP hS hE hn
    have hE' : ∀ g' ∈ gs, IsWs g' ∨ ∃ c, g' = .node .VALUE c := fun g' hg' => hE g' (List.mem_cons_of_mem _ hg')
    rw [texts_cons, ink_append]
    rcases hE g (by simp) with ⟨t, rfl⟩ | ⟨c, rfl⟩
    · have hs : TokShape .WHITESPACE t := hS.1
      rw [Green.text, hs.1 (by simp), List.nil_append]
      exact ih hP.tail hS.2 hE' hn
    · right
      have hn' : nodesOf .VALUE gs = [] := by
        simp only [nodesOf, if_true, List.length_cons] at hn
        exact List.length_eq_zero_iff.1 (by omega)
      have hi : ink (Green.texts gs) = [] := by
        rcases ih hP.tail hS.2 hE' (by simp [hn']) with h | h
        · exact h.2
        · exact absurd hn' h.1
      refine ⟨by simp [nodesOf], fun f => ?_⟩
      rw [hi, List.append_nil]
      simp only [formatFirst, if_true, hP.head]

theorem nodesOf_key_values (vs : List Green) (h : ∀ g ∈ vs, IsWs g ∨ ∃ c, g = .node .VALUE c) :
    nodesOf .KEY vs = [] := by
  induction vs with
  | nil => rfl
  | cons g gs ih =>
    have ih' := ih (fun g' hg' => h g' (List.mem_cons_of_mem _ hg'))
    rcases h g (by simp) with ⟨t, rfl⟩ | ⟨c, rfl⟩
    · exact ih'
    · simpa [nodesOf] using ih'

include hind in
theorem attributes_ink : ∀ (cs : List Green) (f : Fmt), KeepsL ind cs → ShapedL cs →
    (∀ g ∈ cs, IsWs g ∨ ∃ c, g = .node .ATTRIBUTE c) →
    (formatAttributes ind cs f).ink = f.ink ++ ink (Green.texts cs) := by
  intro cs
  induction cs with
  | nil => intro f _ _ _; simp [formatAttributes, Green.texts, ink_nil]
  | cons g gs ih =>
    intro f hP hS hE
    have ih' := fun f => ih f hP.tail hS.2 (fun g' hg' => hE g' (List.mem_cons_of_mem _ hg'))
    rw [texts_cons, ink_append]
    rcases hE g (by simp) with ⟨t, rfl⟩ | ⟨c, rfl⟩
    · have hs : TokShape .WHITESPACE t := hS.1
      simp only [formatAttributes, ih', Green.text, hs.1 (by simp), List.nil_append]
    · have hh := hP.head f
      simp only [formatNode] at hh
      simp only [formatAttributes, if_true, ih']
      split
      · simp only [hh, List.append_assoc]
      · simp only [write_ink hind, hh, show ink [' '] = [] from rfl, List.append_nil, List.append_assoc]

theorem hasComments_brackets {k k' : SyntaxKind} {t t' : List Char} {mid : List Green}
    (hk : k ≠ .LINE_COMMENT ∧ k ≠ .DOC_COMMENT) (hk' : k' ≠ .LINE_COMMENT ∧ k' ≠ .DOC_COMMENT) :
    hasComments (.token k t :: mid ++ [.token k' t']) = hasComments mid := by
  simp only [hasComments, hasKind, List.cons_append, List.any_cons, List.any_append, List.any_nil, Green.kind,
    Bool.or_false]
  have e : ∀ a b : SyntaxKind, a ≠ b → (a == b) = false := fun a b h => by simpa using h
  rw [e _ _ hk.1, e _ _ hk.2, e _ _ hk'.1, e _ _ hk'.2]
  simp

theorem entriesOf_brackets {k k' : SyntaxKind} {t t' : List Char} {mid : List Green} :
    entriesOf (.token k t :: mid ++ [.token k' t']) = entriesOf mid := by
  simp [entriesOf, nodesOf, nodesOf_append]

include hind in
theorem node_ink (k : SyntaxKind) (cs : List Green) (hP : KeepsL ind cs) (hS : Shaped (.node k cs))
    (hO : SingleEntries (.node k cs)) (f : Fmt) :
    (formatNode ind (.node k cs) f).ink = f.ink ++ ink (Green.texts cs) := by
  obtain ⟨hN, hL⟩ : NodeShape k cs ∧ ShapedL cs := by simpa [Shaped] using hS
  obtain ⟨hO1, hO2⟩ : (k = .ENTRY → SingleEntry cs) ∧ SingleEntriesL cs := by simpa [SingleEntries] using hO
  cases k <;> try (exact hN.elim)
  all_goals try simp only [NodeShape] at hN
  case DOCUMENT =>
    simp only [formatNode]
    exact document_ink hind _ _ _ _ _ hP hL hN
  case ENTRY =>
    obtain ⟨hv, ha⟩ := hO1 rfl
    rcases hN with ⟨a, rfl⟩ | ⟨key, ws, vs, rfl, hk, hws, hvs⟩
    · simp [nodesOf] at ha
    · have hL' := (shapedL_iff _).1 hL
      have hPv : KeepsL ind vs := fun g hg => hP g (by simp [hg])
      have hLv : ShapedL vs := (shapedL_iff _).2 fun g hg => hL' g (by simp [hg])
      have hLw : ShapedL ws := (shapedL_iff _).2 fun g hg => hL' g (by simp [hg])
      have nk : nodesOf .VALUE key = [] := by
        rcases hk with rfl | ⟨c, rfl⟩ <;> rfl
      have nv : nodesOf .VALUE (key ++ ws ++ vs) = nodesOf .VALUE vs := by
        rw [nodesOf_append, nodesOf_append, nk, nodesOf_ws _ ws hws]; rfl
      rw [nv] at hv
      simp only [formatNode, entryValue, nv]
      have hkey : (formatFirst ind .KEY (key ++ ws ++ vs) f).ink = f.ink ++ ink (Green.texts key) := by
        have hrest : nodesOf .KEY (ws ++ vs) = [] := by
          rw [nodesOf_append, nodesOf_ws _ ws hws, nodesOf_key_values vs hvs]; rfl
        rcases hk with rfl | ⟨c, rfl⟩
        · rw [List.nil_append, formatFirst_none _ _ hrest]
          simp [Green.texts, ink_nil]
        · simp only [List.append_assoc, List.cons_append, formatFirst, if_true]
          rw [hP (.node .KEY c) (by simp) _ _ rfl]
          simp [Green.texts]
      rw [texts_append, texts_append, ink_append, ink_append, ws_ink ws hLw hws, List.append_nil]
      rcases values_ink vs hPv hLv hvs hv with ⟨h1, h2⟩ | ⟨h1, h2⟩
      · simp only [h1, List.head?_nil, Option.isSome_none, Bool.false_eq_true, if_false, h2, List.append_nil, hkey]
      · have : (nodesOf .VALUE vs).head?.isSome = true := by
          cases h : nodesOf .VALUE vs with
          | nil => exact absurd h h1
          | cons => rfl
        rw [if_pos this, formatFirst_skip (ind := ind) (key ++ ws) vs _ (by
          rw [nodesOf_append, nk, nodesOf_ws _ ws hws]; rfl), h2, write_ink hind, hkey,
          show ink [' '] = [] from rfl, List.append_nil, List.append_assoc]
  case OBJECT =>
    obtain ⟨mid, rfl, hmid⟩ := hN
    have hL' := (shapedL_iff _).1 hL
    have hPm : KeepsL ind mid := fun g hg => hP g (by simp [hg])
    have hLm : ShapedL mid := (shapedL_iff _).2 fun g hg => hL' g (by simp [hg])
    have ht : ink (Green.texts (Green.token .L_BRACE ['{'] :: mid ++ [.token .R_BRACE ['}']])) =
        '{' :: ink (Green.texts mid) ++ ['}'] := by
      rw [List.cons_append, texts_cons, texts_append, ink_append, ink_append]
      rfl
    rw [ht]
    simp only [formatNode, entriesOf_brackets, hasComments_brackets (k := .L_BRACE) (k' := .R_BRACE)
      (by simp) (by simp)]
    split
    · rename_i h
      simp only [Bool.and_eq_true, List.isEmpty_iff, Bool.not_eq_true'] at h
      simp only [write_ink hind]
      rw [empty_ink mid hLm (fun g hg => .inl (hmid g hg)) h.2 h.1]
      simp only [List.append_assoc]
      rfl
    · split
      · simp only [write_ink hind, level_ink, newline_ink]
        simp only [List.cons_append, formatBlock]
        rw [block_ink hind mid _ _ _ _ hPm hLm hmid]
        simp only [level_ink, newline_ink, write_ink hind, List.append_assoc]
        rfl
      · rename_i h
        have hc : hasComments mid = false := by
          simp only [objMultiline, hasComments_brackets (k := .L_BRACE) (k' := .R_BRACE) (t := ['{'])
            (t' := ['}']) (mid := mid) (by simp) (by simp)] at h
          cases h' : hasComments mid with
          | false => rfl
          | true => simp [h'] at h
        simp only [write_ink hind, List.cons_append, formatInline]
        rw [inline_ink hind mid _ _ hPm hLm hmid hc]
        simp only [write_ink hind, List.append_assoc]
        rfl
  case SEQUENCE =>
    obtain ⟨mid, rfl, hmid⟩ := hN
    have hL' := (shapedL_iff _).1 hL
    have hPm : KeepsL ind mid := fun g hg => hP g (by simp [hg])
    have hLm : ShapedL mid := (shapedL_iff _).2 fun g hg => hL' g (by simp [hg])
    have ht : ink (Green.texts (Green.token .L_PAREN ['('] :: mid ++ [.token .R_PAREN [')']])) =
        '(' :: ink (Green.texts mid) ++ [')'] := by
      rw [List.cons_append, texts_cons, texts_append, ink_append, ink_append]
      rfl
    have hb := hasComments_brackets (k := .L_PAREN) (k' := .R_PAREN) (t := ['(']) (t' := [')']) (mid := mid)
      (by simp) (by simp)
    have he := entriesOf_brackets (k := .L_PAREN) (k' := .R_PAREN) (t := ['(']) (t' := [')']) (mid := mid)
    rw [ht]
    simp only [formatNode, he, hb]
    split
    · rename_i h
      simp only [Bool.and_eq_true, List.isEmpty_iff, Bool.not_eq_true'] at h
      simp only [write_ink hind]
      rw [empty_ink mid hLm (fun g hg => .inr (hmid g hg)) h.2 h.1]
      simp only [List.append_assoc]
      rfl
    · split
      · rename_i h
        simp only [seqSingleTag, hb, he, Bool.and_eq_true, Bool.not_eq_true'] at h
        obtain ⟨h1, h2⟩ := h
        have : ∃ e, entriesOf mid = [e] := by
          split at h2
          · rename_i e he; exact ⟨e, he⟩
          · cases h2
        obtain ⟨e, he⟩ := this
        simp only [write_ink hind, List.cons_append, formatFirstItem]
        rw [firstItem_ink mid _ _ e hPm hLm hmid h1 he]
        simp only [write_ink hind, List.append_assoc]
        rfl
      · split
        · simp only [write_ink hind, level_ink, newline_ink]
          simp only [List.cons_append, formatSeqBlock]
          rw [seqBlock_ink hind mid _ _ _ _ hPm hLm hmid]
          simp only [level_ink, newline_ink, write_ink hind, List.append_assoc]
          rfl
        · rename_i h1 h2
          have hc : hasComments mid = false := by
            cases h' : hasComments mid with
            | false => rfl
            | true =>
              exfalso
              simp only [seqIsMultiline, seqCollapse, seqSingleTag, hb, h'] at h2
              simp at h2
          simp only [write_ink hind, List.cons_append, formatSeqInline]
          rw [seqInline_ink hind mid _ _ hPm hLm hmid hc]
          simp only [write_ink hind, List.append_assoc]
          rfl
  case KEY =>
    obtain ⟨k, c, rfl, hk⟩ := hN
    rw [formatNode]
    simp only [formatNodes, formatScalarTokens]
    rw [hP (.node k c) (by simp) _ _ rfl]
    simp [Green.texts]
  case VALUE =>
    obtain ⟨k, c, rfl, hk⟩ := hN
    rw [formatNode]
    simp only [formatNodes]
    rw [hP (.node k c) (by simp) _ _ rfl]
    simp [Green.texts]
  case SCALAR =>
    obtain ⟨k, t, rfl, hk⟩ := hN
    simp only [formatNode, formatScalarTokens, if_pos hk, write_ink hind]
    simp [Green.texts, Green.text]
  case TAG =>
    obtain ⟨t, rfl | ⟨c, rfl⟩⟩ := hN
    · simp [formatNode, formatTag, write_ink hind, Green.texts, Green.text]
    · have := hP (.node .TAG_PAYLOAD c) (by simp) _ _ rfl (f.write ind t)
      simp only [formatNode] at this
      simp only [formatNode, formatTag, if_true, this, write_ink hind]
      simp [Green.texts, Green.text, ink_append]
  case TAG_PAYLOAD =>
    obtain ⟨k, c, hk, rfl | rfl⟩ := hN
    · rw [formatNode]
      simp only [formatPayload]
      rw [hP (.node k c) (by simp) _ _ rfl]
      simp [Green.texts]
    · rw [formatNode]
      simp only [formatPayload, if_true]
      rw [hP (.node k c) (by simp) _ _ rfl, write_ink hind]
      simp only [Green.texts, Green.text, List.append_nil, ink_append, List.append_assoc]
  case UNIT =>
    subst hN
    simp [formatNode, write_ink hind, Green.texts, Green.text]
  case HEREDOC => simp only [formatNode, write_ink hind]
  case ATTRIBUTES =>
    simp only [formatNode]
    exact attributes_ink hind cs f hP hL hN
  case ATTRIBUTE =>
    obtain ⟨t, k, c, rfl, hk⟩ := hN
    rw [formatNode]
    simp only [formatAttribute, if_true]
    rw [hP (.node k c) (by simp) _ _ rfl]
    rw [if_neg (by decide)]
    simp only [write_ink hind, Green.texts, Green.text, List.append_nil, ink_append, List.append_assoc]

mutual
theorem keeps (ind : List Char) (hind : ink ind = []) : (g : Green) → Keeps ind g
  | .token k t => fun _ _ h => by cases h
  | .node k cs => fun k' cs' h hS hO f => by
    have hL : ShapedL cs := by simp only [Shaped] at hS; exact hS.2
    have hO' : SingleEntriesL cs := by simp only [SingleEntries] at hO; exact hO.2
    have := keepsL ind hind cs
    rw [Green.text]
    exact node_ink hind k cs (fun g hg k c hgc f => this g hg k c hgc ((shapedL_iff _).1 hL g hg)
      ((singleEntriesL_iff _).1 hO' g hg) f) hS hO f
theorem keepsL (ind : List Char) (hind : ink ind = []) : (gs : List Green) → ∀ g ∈ gs, Keeps ind g
  | [] => fun g hg => by cases hg
  | g :: gs => fun g' hg' => by
    have h1 := keeps ind hind g
    have h2 := keepsL ind hind gs
    rcases List.mem_cons.1 hg' with h | h
    · exact h ▸ h1
    · exact h2 g' h
end

theorem finish_ink (f : Fmt) : ink f.finish = f.ink := by
  unfold Fmt.finish
  split
  · rw [ink_append, show ink ['\n'] = [] from rfl, List.append_nil]; rfl
  · rfl

end Styx.Cst
