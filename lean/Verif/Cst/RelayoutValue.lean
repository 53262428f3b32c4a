import Verif.Cst.Relayout

/-! # What the source formatter writes for values says the same -/

namespace Styx.Cst

open Styx Styx.Spec

variable {ind : List Char} {ε : Type} {P : List ε → List Char → Prop}

/-! ## Entries on one line -/

/-- A loop that puts all entries on one line. -/
def inlineLoop (ind : List Char) (act : List Green → Fmt → Fmt) (sep : List Char) : List Green → Fmt → Fmt
  | [], f => f
  | .token _ _ :: gs, f => inlineLoop ind act sep gs f
  | .node k cs :: gs, f =>
    if k = .ENTRY then
      inlineLoop ind act sep gs (if (entriesOf gs).isEmpty then act cs f else (act cs f).write ind sep)
    else inlineLoop ind act sep gs f

theorem formatInline_eq : ∀ (gs : List Green) (f : Fmt),
    formatInline ind gs f = inlineLoop ind (fun c => formatNode ind (.node .ENTRY c)) [',', ' '] gs f
  | [], f => by rw [formatInline, inlineLoop]
  | .token _ _ :: gs, f => by rw [formatInline, inlineLoop, formatInline_eq gs]
  | .node k cs :: gs, f => by
    rw [formatInline, inlineLoop]
    split
    · rename_i h
      subst h
      exact formatInline_eq gs _
    · exact formatInline_eq gs _

theorem formatSeqInline_eq : ∀ (gs : List Green) (f : Fmt),
    formatSeqInline ind gs f = inlineLoop ind (fun c => formatItem ind c) [' '] gs f
  | [], f => by rw [formatSeqInline, inlineLoop]
  | .token _ _ :: gs, f => by rw [formatSeqInline, inlineLoop, formatSeqInline_eq gs]
  | .node k cs :: gs, f => by
    rw [formatSeqInline, inlineLoop]
    split
    · exact formatSeqInline_eq gs _
    · exact formatSeqInline_eq gs _

/-- The entries are written so that, separated by `sep` and closed by `fin`, they say `es`. -/
inductive KidsI (ind : List Char) (P : List ε → List Char → Prop) (act : List Green → Fmt → Fmt) (sep : List Char)
    (fin : Char) : List ε → List Kid → Prop
  | nil : KidsI ind P act sep fin [] []
  | cons {e es ds cs ks} : (∀ f, ∃ u, Writes ind f (act cs f) u ∧ (ds = [] →
        ∀ es rest, P es rest → (rest = [fin] ∨ ∃ r, rest = sep ++ r) → P (e :: es) (u ++ rest))) →
      KidsI ind P act sep fin es ks → KidsI ind P act sep fin (e :: es) ((ds, cs) :: ks)

theorem inlineLoop_none {act : List Green → Fmt → Fmt} {sep : List Char} : ∀ (gs : List Green) (f : Fmt),
    entriesOf gs = [] → inlineLoop ind act sep gs f = f
  | [], f, _ => by rw [inlineLoop]
  | .token _ _ :: gs, f, h => by rw [inlineLoop]; exact inlineLoop_none gs f h
  | .node k cs :: gs, f, h => by
    rw [inlineLoop]
    rw [entriesOf, nodesOf] at h
    split at h
    · cases h
    · rename_i hk
      rw [if_neg hk]
      exact inlineLoop_none gs f h

theorem inline_says {act : List Green → Fmt → Fmt} {sep : List Char} {fin : Char} (hact : ∀ f, act [] f = f)
    (hs : sep ≠ []) (hs' : sep.getLast? ≠ some '\n') (h0 : P [] [fin])
    (hsep : ∀ es t, P es t → P es (sep ++ t)) : ∀ (gs : List Green) (f : Fmt) (ks : List Kid) (es : List ε),
    hasKind .DOC_COMMENT gs = false → (∀ g ∈ gs, ∀ k c, g = .node k c → k = .ENTRY) →
    kidsOf [] gs = some ks → KidsI ind P act sep fin es ks → f.atLineStart = false →
    ∃ t, (inlineLoop ind act sep gs f).out = f.out ++ t ∧ (inlineLoop ind act sep gs f).level = f.level ∧
      (inlineLoop ind act sep gs f).atLineStart = false ∧ P es (t ++ [fin]) := by
  intro gs
  induction gs with
  | nil =>
    intro f ks es _ _ hk he hf
    rw [kidsOf] at hk
    cases hk
    cases he
    exact ⟨[], by simp [inlineLoop], rfl, hf, h0⟩
  | cons g gs ih =>
    intro f ks es hd hn hk he hf
    rw [hasKind_cons] at hd
    simp only [Bool.or_eq_false_iff] at hd
    obtain ⟨hd1, hd2⟩ := hd
    have hn' : ∀ g ∈ gs, ∀ k c, g = .node k c → k = .ENTRY := fun x hx => hn x (by simp [hx])
    cases g with
    | token k t =>
      have hkd : k ≠ .DOC_COMMENT := by simpa [Green.kind] using hd1
      rw [kidsOf, if_neg hkd] at hk
      rw [inlineLoop]
      exact ih f ks es hd2 hn' hk he hf
    | node k cs =>
      obtain rfl := hn _ (by simp) k cs rfl
      rw [inlineLoop, if_pos rfl]
      rw [kidsOf] at hk
      split at hk
      · rename_i hcs
        subst hcs
        rw [hact]
        split
        · exact ih f ks es hd2 hn' hk he hf
        · obtain ⟨w1, w2, w3, -, -⟩ := write_writes (ind := ind) f hs hs'
          rw [hf] at w1
          obtain ⟨t, o1, o2, o3, o4⟩ := ih (f.write ind sep) ks es hd2 hn' hk he w3
          refine ⟨sep ++ t, by rw [o1, w1]; simp, by rw [o2, w2], o3, ?_⟩
          rw [List.append_assoc]
          exact hsep _ _ o4
      · simp only [Option.map_eq_some_iff] at hk
        obtain ⟨ks', hk', rfl⟩ := hk
        cases he with
        | @cons e es _ _ _ h1 h2 =>
          obtain ⟨u, ⟨w1, w2, w3, -, -⟩, hu⟩ := h1 f
          rw [hf] at w1
          simp only [Bool.false_eq_true, if_false, List.nil_append] at w1
          split
          · rename_i hemp
            obtain ⟨t, o1, o2, o3, o4⟩ := ih (act cs f) ks' es hd2 hn' hk' h2 w3
            have hno := inlineLoop_none (ind := ind) (act := act) (sep := sep) gs (act cs f) (by simpa using hemp)
            rw [hno] at o1 ⊢
            have ht : t = [] := by simpa using o1
            subst ht
            exact ⟨u, w1, w2, w3, hu rfl _ _ o4 (.inl rfl)⟩
          · obtain ⟨v1, v2, v3, -, -⟩ := write_writes (ind := ind) (act cs f) hs hs'
            rw [w3] at v1
            simp only [Bool.false_eq_true, if_false, List.nil_append] at v1
            obtain ⟨t, o1, o2, o3, o4⟩ := ih ((act cs f).write ind sep) ks' es hd2 hn' hk' h2 v3
            refine ⟨u ++ (sep ++ t), by rw [o1, v1, w1]; simp, by rw [o2, v2, w2], o3, ?_⟩
            rw [List.append_assoc, List.append_assoc]
            exact hu rfl _ _ (hsep _ _ o4) (.inr ⟨_, rfl⟩)

/-! ## Good trees -/

/-- The tree has the shape of a parsed tree and leaves as their kinds say. -/
def OkG (g : Green) : Prop := Shaped g ∧ ∀ x ∈ leaves g, LeafText x.1 x.2

theorem leavesL_mem {cs : List Green} {g : Green} (h : g ∈ cs) : ∀ x ∈ leaves g, x ∈ leavesL cs := by
  induction cs with
  | nil => cases h
  | cons g' gs ih =>
    intro x hx
    rw [leavesL, List.mem_append]
    rcases List.mem_cons.1 h with rfl | h
    · exact .inl hx
    · exact .inr (ih h x hx)

theorem OkG.shape {k : SyntaxKind} {cs : List Green} (h : OkG (.node k cs)) : NodeShape k cs := by
  obtain ⟨h1, -⟩ := h
  rw [Shaped] at h1
  exact h1.1

theorem OkG.kids {k : SyntaxKind} {cs : List Green} (h : OkG (.node k cs)) : ∀ g ∈ cs, OkG g := by
  obtain ⟨h1, h2⟩ := h
  rw [Shaped] at h1
  rw [leaves] at h2
  intro g hg
  exact ⟨(shapedL_iff _).1 h1.2 g hg, fun x hx => h2 x (leavesL_mem hg x hx)⟩

theorem OkG.leaf {k : SyntaxKind} {t : List Char} (h : OkG (.token k t)) : LeafText k t := by
  have := h.2 (k, t) (by simp [leaves])
  exact this

theorem kidsOf_mem : ∀ {gs : List Green} {pend : List (List Char)} {ks : List Kid}, kidsOf pend gs = some ks →
    ∀ x ∈ ks, ∃ k, .node k x.2 ∈ gs := by
  intro gs
  induction gs with
  | nil =>
    intro pend ks h
    rw [kidsOf] at h
    split at h <;> cases h
    simp
  | cons g gs ih =>
    intro pend ks h x hx
    cases g with
    | token k t =>
      rw [kidsOf] at h
      have : ∃ k', .node k' x.2 ∈ gs := by split at h <;> exact ih h x hx
      obtain ⟨k', hk'⟩ := this
      exact ⟨k', by simp [hk']⟩
    | node k cs =>
      rw [kidsOf] at h
      split at h
      · obtain ⟨k', hk'⟩ := ih h x hx
        exact ⟨k', by simp [hk']⟩
      · simp only [Option.map_eq_some_iff] at h
        obtain ⟨ks', h', rfl⟩ := h
        rcases List.mem_cons.1 hx with rfl | hx
        · exact ⟨k, by simp⟩
        · obtain ⟨k', hk'⟩ := ih h' x hx
          exact ⟨k', by simp [hk']⟩

theorem nodesOf_mem {k : SyntaxKind} : ∀ {gs : List Green}, ∀ x ∈ nodesOf k gs, .node k x ∈ gs := by
  intro gs
  induction gs with
  | nil => intro x hx; simp [nodesOf] at hx
  | cons g gs ih =>
    intro x hx
    cases g with
    | token _ _ => rw [nodesOf] at hx; simp [ih x hx]
    | node k' cs =>
      rw [nodesOf] at hx
      split at hx
      · rename_i h
        subst h
        rcases List.mem_cons.1 hx with rfl | hx
        · simp
        · simp [ih x hx]
      · simp [ih x hx]

/-- Texts that do not end with a line break. -/
theorem leaf_last {k : SyntaxKind} {t : List Char} (h : LeafText k t) (hk : ScalarTok k ∨ k = .TAG_TOKEN) :
    t ≠ [] ∧ t.getLast? ≠ some '\n' := by
  rcases hk with (rfl | rfl | rfl) | rfl
  · obtain ⟨h1, h2⟩ := h
    refine ⟨h1, fun hl => ?_⟩
    have := h2 _ (List.mem_of_getLast? hl)
    simp [isWhitespace] at this
  · obtain ⟨body, rfl, -⟩ := h
    refine ⟨by simp, fun hl => ?_⟩
    rw [List.getLast?_append] at hl
    simp at hl
  · obtain ⟨n, body, rfl⟩ := h
    refine ⟨by simp, fun hl => ?_⟩
    rw [List.getLast?_append] at hl
    cases hm : min n 255 with
    | zero => simp [hm] at hl
    | succ m => simp [hm, List.getLast?_cons, List.getLast?_replicate] at hl
  · obtain ⟨n, rfl, c, r, rfl, h1, h2⟩ := h
    refine ⟨by simp, fun hl => ?_⟩
    have := List.mem_of_getLast? hl
    simp at this
    rcases this with rfl | hm
    · simp [Char.isAlpha, Char.isUpper, Char.isLower] at h1
    · have := h2 _ hm
      simp [Char.isAlphanum, Char.isAlpha, Char.isUpper, Char.isLower, Char.isDigit] at this

/-! ## Keys and entries -/

theorem writes_scalar (f : Fmt) {k : SyntaxKind} {t : List Char} (hk : ScalarTok k) (hl : LeafText k t) :
    Writes ind f (formatNode ind (.node .SCALAR [.token k t]) f) t := by
  obtain ⟨h1, h2⟩ := leaf_last hl (.inl hk)
  rw [formatNode]
  simp only [formatScalarTokens]
  unfold ScalarTok at hk
  rw [if_pos hk]
  exact write_writes f h1 h2

theorem writes_tag (f : Fmt) {t : List Char} (hl : LeafText .TAG_TOKEN t) : Writes ind f (f.write ind t) t := by
  obtain ⟨h1, h2⟩ := leaf_last hl (.inr rfl)
  exact write_writes f h1 h2

theorem writes_key (f : Fmt) {kt : List Char} {gk : Green} (h : KeyNode kt gk) (hg : OkG gk) :
    Writes ind f (formatNode ind gk f) kt := by
  cases h with
  | scalar hk _ => exact writes_scalar f hk (hg.kids _ (by simp)).leaf
  | unit => rw [formatNode]; exact write_writes f (by simp) (by simp)
  | @tag n _ =>
    have h1 := (hg.kids _ (List.mem_singleton.2 rfl)).leaf
    rw [formatNode]
    simp only [formatTag, if_true]
    exact writes_tag f h1
  | @tagged n k t hk _ _ =>
    have h1 := (hg.kids (.token .TAG_TOKEN ('@' :: n)) (by simp)).leaf
    have h2 := hg.kids (.node .TAG_PAYLOAD [.node .SCALAR [.token k t]]) (by simp)
    have h3 := ((h2.kids _ (List.mem_singleton.2 rfl)).kids _ (List.mem_singleton.2 rfl)).leaf
    rw [formatNode]
    simp only [formatTag, if_true, formatPayload]
    exact (writes_tag f h1).trans (writes_scalar _ hk h3)

theorem keyNode_node {kt : List Char} {gk : Green} (h : KeyNode kt gk) : ∃ k c, gk = .node k c := by
  cases h <;> exact ⟨_, _, rfl⟩

/-- The key and the value that an entry says. -/
def EntrySays (k v : Value) (e : Tail) (u : List Char) : Prop :=
  (∃ ke kt b s, u = kt ++ b ++ s ∧ KeyText k ke kt ∧ Blanks b ∧ b ≠ [] ∧ ValueText v e s) ∨
    (v = .mk none none none ∧ KeyText k e u)

/-- The same at the root. -/
def RootSays (ks : List Value) (path : List (List Char)) (v : Value) (e : Tail) (u : List Char) : Prop :=
  (∃ ke kt b s, u = kt ++ b ++ s ∧ RootKeyText ks path ke kt ∧ Blanks b ∧ b ≠ [] ∧ ValueText v e s) ∨
    (v = .mk none none none ∧ RootKeyText ks path e u)

theorem follows_newline (e : Tail) (r : List Char) : Follows e ('\n' :: r) := by
  induction e with
  | closed => trivial
  | word => exact .inr ⟨_, _, rfl, by simp⟩
  | line => exact .inr (.inl ⟨_, rfl⟩)
  | attrs e ih => exact ⟨ih, [], _, rfl, by simp [Blanks], .inl (.inr (.inl ⟨_, rfl⟩))⟩

theorem entryEnd_newline (r : List Char) : EntryEnd [] ('\n' :: r) := by
  rw [EntryEnd, if_pos rfl]
  exact ⟨[], _, rfl, by simp [Blanks], .inl (.inr (.inl ⟨_, rfl⟩))⟩

theorem entry_text {k v : Value} {e : Tail} {u : List Char} (h : EntrySays k v e u) {ls : List (List Char)}
    {g dl : List Char} (hg : Gap true g) (hd : DocLines ls dl) {es : List Entry} {rest : List Char}
    (hr : EntriesText es rest) (hf : Follows e rest) (he : EntryEnd [] rest) :
    EntriesText (.mk k v (docOf ls) :: es) (g ++ dl ++ u ++ rest) := by
  rcases h with ⟨ke, kt, b, s, rfl, h1, h2, h3, h4⟩ | ⟨rfl, h1⟩
  · have := EntriesText.cons hg hd h1 h2 h3 h4 .none hr (by simpa using hf) he
    simpa using this
  · have := EntriesText.lone hg hd h1 .none hr (by simpa using hf) he
    simpa using this

theorem root_text {ks : List Value} {path : List (List Char)} {v : Value} {e : Tail} {u : List Char}
    (h : RootSays ks path v e u) {ls : List (List Char)}
    {g dl : List Char} (hg : Gap true g) (hd : DocLines ls dl) {es : List RootEntry} {rest : List Char}
    (hr : RootText es rest) (hf : Follows e rest) (he : EntryEnd [] rest) :
    RootText (⟨ks, path, v, docOf ls⟩ :: es) (g ++ dl ++ u ++ rest) := by
  rcases h with ⟨ke, kt, b, s, rfl, h1, h2, h3, h4⟩ | ⟨rfl, h1⟩
  · have := RootText.cons hg hd h1 h2 h3 h4 .none hr (by simpa using hf) he
    simpa using this
  · have := RootText.lone hg hd h1 .none hr (by simpa using hf) he
    simpa using this

/-- What is written for the node says the value. -/
def FmtVal (ind : List Char) (v : Value) (e : Tail) (g : Green) : Prop :=
  ∀ f, ∃ u, Writes ind f (formatNode ind g f) u ∧ ValueText v e u ∧ ∀ n, PayloadNode n g → PayloadStart n u

/-- The entry is written with its key and its value. -/
theorem pair_writes' {kt : List Char} {gk gv : Green} {cs : List Green} {T : List Char → Prop} (hk : KeyNode kt gk)
    (hv : ∀ f, ∃ u, Writes ind f (formatNode ind gv f) u ∧ T u) (hp : PairNode gk gv cs) (hs : ∃ k c, gv = .node k c) (hg : OkG gk) (f : Fmt) :
    ∃ s, Writes ind f (formatNode ind (.node .ENTRY cs) f) (kt ++ [' '] ++ s) ∧ T s := by
  obtain ⟨ws, ws', rfl, h1, h2⟩ := hp
  obtain ⟨kk, kc, rfl⟩ := keyNode_node hk
  obtain ⟨vk, vc, rfl⟩ := hs
  have e1 : entryValue (.node .KEY [.node kk kc] :: ws ++ .node .VALUE [.node vk vc] :: ws') = some [.node vk vc] := by
    rw [entryValue, List.cons_append, nodesOf, if_neg (by simp), nodesOf_append, nodesOf_ws _ ws h1, nodesOf]
    simp
  have e2 : ∀ f, formatFirst ind .VALUE (.node .KEY [.node kk kc] :: ws ++ .node .VALUE [.node vk vc] :: ws') f =
      formatNode ind (.node vk vc) f := by
    intro f
    rw [formatFirst_skip (.node .KEY [.node kk kc] :: ws) _ f (by rw [nodesOf, if_neg (by simp)]; exact nodesOf_ws _ ws h1)]
    rw [formatFirst, if_pos rfl, formatNode]
    simp [formatNodes]
  have e3 : ∀ f, formatFirst ind .KEY (.node .KEY [.node kk kc] :: ws ++ .node .VALUE [.node vk vc] :: ws') f =
      formatNode ind (.node kk kc) f := by
    intro f
    rw [List.cons_append, formatFirst, if_pos rfl, formatNode]
    simp [formatNodes, formatScalarTokens]
  have w1 := writes_key (ind := ind) f hk hg
  have w2 := write_writes (ind := ind) (formatNode ind (.node kk kc) f) (s := [' ']) (by simp) (by simp)
  obtain ⟨s, w3, h3⟩ := hv ((formatNode ind (.node kk kc) f).write ind [' '])
  refine ⟨s, ?_, h3⟩
  rw [formatNode.eq_def]
  simp only [e1, e2, e3, Option.isSome_some, if_true]
  exact (w1.trans w2).trans w3

theorem pair_writes {kt : List Char} {gk gv : Green} {cs : List Green} {v : Value} {e : Tail} (hk : KeyNode kt gk)
    (hv : FmtVal ind v e gv) (hp : PairNode gk gv cs) (hs : ∃ k c, gv = .node k c) (hg : OkG gk) (f : Fmt) :
    ∃ s, Writes ind f (formatNode ind (.node .ENTRY cs) f) (kt ++ [' '] ++ s) ∧ ValueText v e s := by
  obtain ⟨s, h1, h2, -⟩ := pair_writes' hk hv hp hs hg f
  exact ⟨s, h1, h2⟩

theorem lone_format {kk : SyntaxKind} {kc cs : List Green} (hp : LoneNode (.node kk kc) cs) (f : Fmt) :
    formatNode ind (.node .ENTRY cs) f = formatNode ind (.node kk kc) f := by
  obtain ⟨ws, rfl, h1⟩ := hp
  have e1 : entryValue (.node .KEY [.node kk kc] :: ws) = none := by
    rw [entryValue, nodesOf, if_neg (by simp), nodesOf_ws _ ws h1]
    simp
  have e3 : ∀ f, formatFirst ind .KEY (.node .KEY [.node kk kc] :: ws) f = formatNode ind (.node kk kc) f := by
    intro f
    rw [formatFirst, if_pos rfl, formatNode]
    simp [formatNodes, formatScalarTokens]
  rw [formatNode.eq_def]
  simp only [e1, e3, Option.isSome_none, Bool.false_eq_true, if_false]

theorem lone_writes {kt : List Char} {gk : Green} {cs : List Green} (hk : KeyNode kt gk) (hp : LoneNode gk cs)
    (hg : OkG gk) (f : Fmt) : Writes ind f (formatNode ind (.node .ENTRY cs) f) kt := by
  obtain ⟨kk, kc, rfl⟩ := keyNode_node hk
  rw [lone_format hp]
  exact writes_key f hk hg

/-! ## Objects -/

/-- The entries are written so that they say the entries of an object; `nl`: there may be a heredoc. -/
inductive KidsF (ind : List Char) (nl : Bool) : List Entry → List Kid → Prop
  | nil : KidsF ind nl [] []
  | cons {k v ls ds cs es ks} : DocTexts ls ds →
      (∀ f, ∃ u, Writes ind f (formatNode ind (.node .ENTRY cs) f) u ∧
        ∃ e, EntrySays k v e u ∧ (lineTail e = true → nl = true)) →
      KidsF ind nl es ks → KidsF ind nl (.mk k v (docOf ls) :: es) ((ds, cs) :: ks)

theorem kids_block {nl : Bool} {es : List Entry} {ks : List Kid} (h : KidsF ind nl es ks) :
    Kids ind EntriesText true (fun c => formatNode ind (.node .ENTRY c)) es ks := by
  induction h with
  | nil => exact .nil
  | cons h1 h2 _ ih =>
    refine .cons (fun f => ?_) ih
    obtain ⟨u, w, e, hs, -⟩ := h2 f
    refine ⟨u, w, ?_⟩
    intro es rest hr dt hd
    obtain ⟨g, dl, rfl, hg, hl⟩ := docDone_lines hd h1
    have := entry_text hs hg hl hr (follows_newline e rest) (entryEnd_newline rest)
    simpa using this

theorem follows_sep {e : Tail} (h : lineTail e = false) {c : Char} {r : List Char} (hc : c = ',' ∨ c = '}' ∨ c = ')') :
    Follows e (c :: r) := by
  induction e with
  | closed => trivial
  | word => exact .inr ⟨_, _, rfl, by rcases hc with rfl | rfl | rfl <;> simp⟩
  | line => simp [lineTail] at h
  | attrs e ih =>
    exact ⟨ih h, [], _, rfl, by simp [Blanks], .inr (.inl ⟨_, _, rfl, by rcases hc with rfl | rfl | rfl <;> simp⟩)⟩

theorem follows_blank {e : Tail} (h : lineTail e = false) (ha : e.notAttrs) (r : List Char) : Follows e (' ' :: r) := by
  cases e with
  | closed => trivial
  | word => exact .inr ⟨_, _, rfl, by simp⟩
  | line => simp [lineTail] at h
  | attrs e => exact ha.elim

theorem kids_inline {es : List Entry} {ks : List Kid} (h : KidsF ind false es ks) :
    KidsI ind EntriesText (fun c => formatNode ind (.node .ENTRY c)) [',', ' '] '}' es ks := by
  induction h with
  | nil => exact .nil
  | cons h1 h2 _ ih =>
    refine .cons (fun f => ?_) ih
    obtain ⟨u, w, e, hs, hl⟩ := h2 f
    refine ⟨u, w, ?_⟩
    rintro rfl es rest hr hrest
    cases h1
    have hlt : lineTail e = false := by
      cases h : lineTail e
      · rfl
      · simp [h] at hl
    have : Follows e rest ∧ EntryEnd [] rest := by
      rcases hrest with rfl | ⟨r, rfl⟩
      · refine ⟨follows_sep hlt (by simp), ?_⟩
        rw [EntryEnd, if_pos rfl]
        exact ⟨[], _, rfl, by simp [Blanks], .inr ⟨_, _, rfl, .inr rfl⟩⟩
      · refine ⟨follows_sep hlt (by simp), ?_⟩
        rw [EntryEnd, if_pos rfl]
        exact ⟨[], _, rfl, by simp [Blanks], .inr ⟨_, _, rfl, .inl rfl⟩⟩
    have := entry_text hs (g := []) (dl := []) .nil .nil hr this.1 this.2
    simpa using this

theorem entriesText_gap {es : List Entry} {g t : List Char} (hg : Gap true g) (h : EntriesText es t) :
    EntriesText es (g ++ t) := by
  cases h with
  | nil h => rw [← List.append_assoc]; exact .nil (gap_append hg h)
  | cons h1 h2 h3 h4 h5 h6 h7 h8 h9 h10 =>
    have := EntriesText.cons (gap_append hg h1) h2 h3 h4 h5 h6 h7 h8 h9 h10
    simpa using this
  | lone h1 h2 h3 h7 h8 h9 h10 =>
    have := EntriesText.lone (gap_append hg h1) h2 h3 h7 h8 h9 h10
    simpa using this

theorem kidsOf_noEntries : ∀ {gs : List Green} {pend : List (List Char)} {ks : List Kid}, kidsOf pend gs = some ks →
    (∀ g ∈ gs, ∀ k c, g = .node k c → k = .ENTRY) → entriesOf gs = [] → ks = [] := by
  intro gs
  induction gs with
  | nil =>
    intro pend ks h _ _
    rw [kidsOf] at h
    split at h <;> cases h
    rfl
  | cons g gs ih =>
    intro pend ks h hn he
    have hn' : ∀ g ∈ gs, ∀ k c, g = .node k c → k = .ENTRY := fun x hx => hn x (by simp [hx])
    cases g with
    | token k t =>
      rw [kidsOf] at h
      split at h <;> exact ih h hn' he
    | node k cs =>
      obtain rfl := hn _ (by simp) k cs rfl
      simp [entriesOf, nodesOf] at he

theorem docDone_nil {cm : Bool} {dt : List Char} (h : DocDone cm [] dt) : Gap cm dt := by
  generalize hds : ([] : List (List Char)) = ds at h
  cases h with
  | nil h => exact h
  | snoc _ _ => simp at hds

/-- Brackets around lines. -/
theorem close_block {act : List Green → Fmt → Fmt} {cm : Bool} {fin : Char} (hi : Blanks ind) (hact : ∀ f, act [] f = f)
    {gs : List Green} {f1 f3 : Fmt} (h1 : f1.atLineStart = false)
    (h : BlockRun ind act gs false { f1.newline with level := f1.level + 1 } f3)
    (hl : ∀ g ∈ gs, OkG g) {ks : List Kid} {es : List ε} (hk : kidsOf [] gs = some ks) (hes : Kids ind P cm act es ks)
    (hend : ∀ g, Gap cm g → P [] (g ++ [fin])) (hfin : fin ≠ '\n') :
    ∃ u, Writes ind f1 (({ f3.newline with level := f3.newline.level - 1 } : Fmt).write ind [fin]) u ∧ P es u := by
  obtain ⟨t, o1, o2, -, o4⟩ := run_post (P := P) (cm := cm) hi hact h (fun h => by simp [Fmt.newline] at h)
    (fun k t ht => (hl _ ht).leaf) hk hes
  have hp : Post P cm [] [] (indentOf ind f1.level ++ [fin]) := by
    intro dt hd
    rw [← List.append_assoc]
    exact hend _ (gap_append (docDone_nil hd) (blanks_gap (blanks_indent hi _) cm))
  have hz := o4 ('\n' :: (indentOf ind f1.level ++ [fin])) (by
    unfold Rest
    split
    · exact hp.newline
    · exact ⟨_, rfl, hp⟩)
  have hz' : Post P cm [] es (t ++ '\n' :: (indentOf ind f1.level ++ [fin])) := hz
  have := hz' ['\n'] (.nil (gap_newline .nil))
  have lv : f3.newline.level - 1 = f1.level := by
    simp only [Fmt.newline] at o2 ⊢
    rw [o2]
    simp
  obtain ⟨w1, w2, w3, -, -⟩ := write_writes (ind := ind) ({ f3.newline with level := f3.newline.level - 1 } : Fmt)
    (s := [fin]) (by simp) (by simpa using hfin)
  refine ⟨_, ⟨?_, ?_, w3, ?_, ?_⟩, this⟩
  · rw [w1, h1]
    simp only [Fmt.newline] at o1 lv ⊢
    rw [o1, lv]
    simp
  · rw [w2]
    exact lv
  · simp
  · rw [show (['\n'] ++ (t ++ '\n' :: (indentOf ind f1.level ++ [fin]))) =
      (['\n'] ++ (t ++ '\n' :: (indentOf ind f1.level))) ++ [fin] by simp, List.getLast?_append]
    simpa using hfin

theorem close_inline {f1 f2 : Fmt} {t : List Char} {fin : Char} (h1 : f1.atLineStart = false) (h2 : f2.out = f1.out ++ t)
    (h3 : f2.level = f1.level) (h4 : f2.atLineStart = false) (hfin : fin ≠ '\n') :
    Writes ind f1 (f2.write ind [fin]) (t ++ [fin]) := by
  obtain ⟨w1, w2, w3, -, -⟩ := write_writes (ind := ind) f2 (s := [fin]) (by simp) (by simpa using hfin)
  refine ⟨by rw [w1, h1, h2, h4]; simp, by rw [w2, h3], w3, by simp, ?_⟩
  rw [List.getLast?_append]
  simpa using hfin

theorem formatEntry_nil (f : Fmt) : formatNode ind (.node .ENTRY []) f = f := by
  rw [formatNode.eq_def]
  simp [formatFirst, entryValue, nodesOf]

/-- What an object is written as. -/
theorem object_writes (hi : Blanks ind) {cs : List Green} {es : List Entry} {ks : List Kid} (hg : OkG (.node .OBJECT cs))
    (hk : kidsOf [] cs = some ks) (h : KidsF ind (hasToken .NEWLINE cs) es ks) (f : Fmt) :
    ∃ u, Writes ind f (formatNode ind (.node .OBJECT cs) f) ('{' :: u) ∧ EntriesText es u := by
  have w0 := write_writes (ind := ind) f (s := ['{']) (by simp) (by simp)
  suffices hs : ∃ u, Writes ind (f.write ind ['{']) (formatNode ind (.node .OBJECT cs) f) u ∧ EntriesText es u by
    obtain ⟨u, w, hu⟩ := hs
    exact ⟨u, w0.trans w, hu⟩
  have hel : ∀ g ∈ cs, Elem g ∨ ∃ t, g = .token .L_BRACE t ∨ g = .token .R_BRACE t := by
    obtain ⟨mid, rfl, hm⟩ := hg.shape
    intro g hg
    simp only [List.cons_append, List.mem_cons, List.mem_append, List.not_mem_nil, or_false] at hg
    rcases hg with rfl | hg | rfl
    · exact .inr ⟨_, .inl rfl⟩
    · exact .inl (hm g hg)
    · exact .inr ⟨_, .inr rfl⟩
  have hen : ∀ g ∈ cs, ∀ k c, g = .node k c → k = .ENTRY := by
    rintro g hg k c rfl
    rcases hel _ hg with h | ⟨t, h | h⟩
    · exact h
    · cases h
    · cases h
  rw [formatNode.eq_def]
  simp only
  obtain ⟨-, -, o3, -, -⟩ := w0
  generalize f.write ind ['{'] = f1 at *
  split
  · rename_i he
    simp only [Bool.and_eq_true, List.isEmpty_iff] at he
    obtain rfl := kidsOf_noEntries hk hen he.1
    cases h
    exact ⟨['}'], write_writes _ (by simp) (by simp), .nil (g := []) .nil⟩
  · split
    · exact close_block (act := fun c => formatNode ind (.node .ENTRY c)) hi formatEntry_nil o3
        (formatBlock_run cs false 0 _ hel) hg.kids hk (kids_block h) (fun g hg => .nil hg) (by simp)
    · rename_i hm
      simp only [objMultiline, Bool.or_eq_true, bne_iff_ne, ne_eq, not_or] at hm
      obtain ⟨⟨⟨hsep, hcom⟩, -⟩, -⟩ := hm
      have hnl : hasToken .NEWLINE cs = false := by
        cases hn : hasToken .NEWLINE cs with
        | false => rfl
        | true =>
          exfalso
          apply hsep
          rw [separator, hn]
          cases hasToken .COMMA cs <;> simp
      rw [hnl] at h
      rw [formatInline_eq]
      have hdoc : hasKind .DOC_COMMENT cs = false := by
        cases hh : hasKind .DOC_COMMENT cs with
        | false => rfl
        | true => simp [hasComments, hh] at hcom
      obtain ⟨t, q1, q2, q3, q4⟩ := inline_says (P := EntriesText) (fin := '}') formatEntry_nil (sep := [',', ' ']) (by simp)
        (by simp) (.nil (g := []) .nil) (fun es t h => entriesText_gap (g := [',', ' ']) (.comma rfl (.blank (.inl rfl) .nil)) h)
        cs f1 ks es hdoc hen hk (kids_inline h) o3
      exact ⟨t ++ ['}'], close_inline o3 q1 q2 q3 (by simp), q4⟩

theorem object_fmt (hi : Blanks ind) {cs : List Green} {es : List Entry} {ks : List Kid} (hg : OkG (.node .OBJECT cs))
    (hk : kidsOf [] cs = some ks) (h : KidsF ind (hasToken .NEWLINE cs) es ks) (hd : DistinctKeys es) :
    FmtVal ind (.mk none (some (.object es none)) none) .closed (.node .OBJECT cs) := by
  intro f
  obtain ⟨u, w, hu⟩ := object_writes hi hg hk h f
  exact ⟨'{' :: u, w, .object hu hd, fun n _ => ⟨'{', u, rfl, .inr (.inl rfl)⟩⟩

/-! ## Sequences -/

/-- The nodes are written so that they say the items of a sequence; `nl`: there may be a heredoc. -/
inductive ItemsF (ind : List Char) (nl : Bool) : List Value → List Green → Prop
  | nil : ItemsF ind nl [] []
  | cons {v e k c vs gs} : FmtVal ind v e (.node k c) → e.notAttrs → (lineTail e = true → nl = true) →
      ItemsF ind nl vs gs → ItemsF ind nl (v :: vs) (.node k c :: gs)

/-- The entries of a sequence. -/
def itemKids (gs : List Green) : List Kid := gs.map fun g => ([], [.node .KEY [g]])

theorem kidsOf_seq : ∀ (gs : List Green), (∀ g ∈ gs, SeqElem g ∨ ∃ t, g = .token .L_PAREN t ∨ g = .token .R_PAREN t) →
    kidsOf [] gs = some (itemKids (itemsOf gs)) := by
  intro gs
  induction gs with
  | nil => intro _; simp [kidsOf, itemsOf, itemKids]
  | cons g gs ih =>
    intro h
    have ih := ih fun x hx => h x (by simp [hx])
    have tok : ∀ k t, k ≠ .DOC_COMMENT → kidsOf [] (.token k t :: gs) = some (itemKids (itemsOf (.token k t :: gs))) := by
      intro k t hk
      rw [kidsOf, if_neg hk, itemsOf, ih]
    rcases h g (by simp) with h1 | ⟨t, rfl | rfl⟩
    · cases g with
      | token k t => exact tok k t (by rcases h1 with rfl | rfl | rfl <;> simp)
      | node k cs =>
        obtain ⟨rfl, k', cs', rfl, -⟩ := h1
        rw [kidsOf, if_neg (by simp), ih, itemsOf]
        rfl
    · exact tok _ _ (by simp)
    · exact tok _ _ (by simp)

theorem formatItem_key {k : SyntaxKind} {c : List Green} (f : Fmt) :
    formatItem ind [.node .KEY [.node k c]] f = formatNode ind (.node k c) f := by
  simp [formatItem, formatNodes]

theorem items_block {nl : Bool} {vs : List Value} {gs : List Green} (h : ItemsF ind nl vs gs) :
    Kids ind ItemsText false (fun c => formatItem ind c) vs (itemKids gs) := by
  induction h with
  | nil => exact .nil
  | cons h1 _ _ _ ih =>
    refine .cons (fun f => ?_) ih
    obtain ⟨u, w, hv, -⟩ := h1 f
    rw [← formatItem_key] at w
    refine ⟨u, w, ?_⟩
    intro es rest hr dt hd
    have := ItemsText.cons (docDone_nil hd) hv hr (follows_newline _ rest)
    simpa using this

theorem items_inline {vs : List Value} {gs : List Green} (h : ItemsF ind false vs gs) :
    KidsI ind ItemsText (fun c => formatItem ind c) [' '] ')' vs (itemKids gs) := by
  induction h with
  | nil => exact .nil
  | @cons v e k c vs gs h1 h2 h3 _ ih =>
    refine .cons (fun f => ?_) ih
    obtain ⟨u, w, hv, -⟩ := h1 f
    rw [← formatItem_key] at w
    refine ⟨u, w, ?_⟩
    rintro - es rest hr hrest
    have hlt : lineTail e = false := by
      cases h : lineTail e
      · rfl
      · simp [h] at h3
    have hf : Follows e rest := by
      rcases hrest with rfl | ⟨r, rfl⟩
      · exact follows_sep hlt (by simp)
      · exact follows_blank hlt h2 r
    have := ItemsText.cons (g := []) .nil hv hr hf
    simpa using this

theorem itemsText_gap {vs : List Value} {g t : List Char} (hg : Gap false g) (h : ItemsText vs t) :
    ItemsText vs (g ++ t) := by
  cases h with
  | nil h => rw [← List.append_assoc]; exact .nil (gap_append hg h)
  | cons h1 h2 h3 h4 =>
    have := ItemsText.cons (gap_append hg h1) h2 h3 h4
    simpa using this

theorem itemsOf_entries : ∀ (gs : List Green),
    (∀ g ∈ gs, SeqElem g ∨ ∃ t, g = .token .L_PAREN t ∨ g = .token .R_PAREN t) →
    entriesOf gs = (itemsOf gs).map fun g => [.node .KEY [g]] := by
  intro gs
  induction gs with
  | nil => intro _; simp [entriesOf, nodesOf, itemsOf]
  | cons g gs ih =>
    intro h
    have ih := ih fun x hx => h x (by simp [hx])
    rw [entriesOf] at ih ⊢
    cases g with
    | token k t => rw [nodesOf, itemsOf, ih]
    | node k cs =>
      rcases h (.node k cs) (by simp) with ⟨rfl, k', cs', rfl, -⟩ | ⟨t, h1 | h1⟩
      · rw [nodesOf, if_pos rfl, itemsOf, ih]
        rfl
      · cases h1
      · cases h1

theorem formatFirstItem_eq : ∀ (gs : List Green) (f : Fmt) (e : List Green), entriesOf gs = [e] →
    formatFirstItem ind gs f = formatItem ind e f
  | [], f, e, h => by simp [entriesOf, nodesOf] at h
  | .token _ _ :: gs, f, e, h => by rw [formatFirstItem]; exact formatFirstItem_eq gs f e h
  | .node k cs :: gs, f, e, h => by
    rw [formatFirstItem]
    rw [entriesOf, nodesOf] at h
    split at h
    · rename_i hk
      rw [if_pos hk]
      simp only [List.cons.injEq] at h
      rw [h.1]
    · rename_i hk
      rw [if_neg hk]
      exact formatFirstItem_eq gs f e h

/-- What a sequence is written as.  A heredoc must not be its only item. -/
theorem sequence_fmt (hi : Blanks ind) {cs : List Green} {vs : List Value} (hg : OkG (.node .SEQUENCE cs))
    (h : ItemsF ind (hasToken .NEWLINE cs) vs (itemsOf cs))
    (hl : (itemsOf cs).length = 1 → ItemsF ind false vs (itemsOf cs)) :
    FmtVal ind (.mk none (some (.sequence vs none)) none) .closed (.node .SEQUENCE cs) := by
  intro f
  have w0 := write_writes (ind := ind) f (s := ['(']) (by simp) (by simp)
  suffices hs : ∃ u, Writes ind (f.write ind ['(']) (formatNode ind (.node .SEQUENCE cs) f) u ∧ ItemsText vs u by
    obtain ⟨u, w, hu⟩ := hs
    refine ⟨['('] ++ u, w0.trans w, .sequence hu, fun n _ => ⟨'(', u, rfl, .inl rfl⟩⟩
  have hel : ∀ g ∈ cs, SeqElem g ∨ ∃ t, g = .token .L_PAREN t ∨ g = .token .R_PAREN t := by
    obtain ⟨mid, rfl, hm⟩ := hg.shape
    intro g hg
    simp only [List.cons_append, List.mem_cons, List.mem_append, List.not_mem_nil, or_false] at hg
    rcases hg with rfl | hg | rfl
    · exact .inr ⟨_, .inl rfl⟩
    · exact .inl (hm g hg)
    · exact .inr ⟨_, .inr rfl⟩
  have hen : ∀ g ∈ cs, ∀ k c, g = .node k c → k = .ENTRY := by
    rintro g hg k c rfl
    rcases hel _ hg with h | ⟨t, h | h⟩
    · exact h.1
    · cases h
    · cases h
  have hkids := kidsOf_seq cs hel
  have hent := itemsOf_entries cs hel
  rw [formatNode.eq_def]
  simp only
  obtain ⟨-, -, o3, -, -⟩ := w0
  generalize f.write ind ['('] = f1 at *
  split
  · rename_i he
    simp only [Bool.and_eq_true, List.isEmpty_iff] at he
    rw [he.1] at hent
    have : itemsOf cs = [] := by simpa using hent.symm
    rw [this] at h
    cases h
    exact ⟨[')'], write_writes _ (by simp) (by simp), .nil (g := []) .nil⟩
  · split
    · rename_i hst
      have hone : ∃ e, entriesOf cs = [e] := by
        unfold seqSingleTag at hst
        simp only [Bool.and_eq_true] at hst
        have := hst.2
        split at this
        · exact ⟨_, ‹_›⟩
        · cases this
      obtain ⟨e, he⟩ := hone
      rw [formatFirstItem_eq cs f1 e he]
      rw [he] at hent
      have hlen : (itemsOf cs).length = 1 := by
        have := congrArg List.length hent
        simpa using this.symm
      have h' := items_inline (hl hlen)
      cases hit : itemsOf cs with
      | nil => rw [hit] at hlen; simp at hlen
      | cons g gs =>
        rw [hit] at h' hent hlen
        obtain rfl : gs = [] := by simpa using hlen
        simp only [List.map_cons, List.map_nil, List.cons.injEq, and_true] at hent
        subst hent
        cases h' with
        | cons a b =>
          cases b
          obtain ⟨u, w, hu⟩ := a f1
          exact ⟨u ++ [')'], w.trans (write_writes _ (by simp) (by simp)), hu rfl _ _ (.nil (g := []) .nil) (.inl rfl)⟩
    · split
      · exact close_block (act := fun c => formatItem ind c) hi (fun f => by simp [formatItem]) o3
          (formatSeqBlock_run cs false 0 _ hel) hg.kids hkids (items_block h) (fun g hg => .nil hg) (by simp)
      · rename_i hst hm
        have hF : ItemsF ind false vs (itemsOf cs) := by
          cases hc : seqCollapse cs with
          | true =>
            apply hl
            unfold seqCollapse at hc
            simp only [Bool.and_eq_true] at hc
            have := hc.2
            split at this
            · rename_i e he
              rw [he] at hent
              have := congrArg List.length hent
              simpa using this.symm
            · cases this
          | false =>
            simp only [seqIsMultiline, hc, seqMultiline] at hm
            have hnl : hasToken .NEWLINE cs = false := by
              cases hn : hasToken .NEWLINE cs with
              | false => rfl
              | true => simp [hn] at hm; exact absurd hm hst
            rwa [hnl] at h
        rw [formatSeqInline_eq]
        have hdoc : hasKind .DOC_COMMENT cs = false := by
          cases hh : hasKind .DOC_COMMENT cs with
          | false => rfl
          | true =>
            exfalso
            simp only [hasKind, List.any_eq_true, beq_iff_eq] at hh
            obtain ⟨g, h1, h2⟩ := hh
            rcases hel g h1 with h3 | ⟨t, rfl | rfl⟩
            · cases g with
              | token k t => simp only [Green.kind] at h2; subst h2; simp [SeqElem] at h3
              | node k c => simp only [Green.kind] at h2; subst h2; simp [SeqElem] at h3
            · cases h2
            · cases h2
        obtain ⟨t, q1, q2, q3, q4⟩ := inline_says (P := ItemsText) (fin := ')') (fun f => by simp [formatItem]) (sep := [' ']) (by simp)
          (by simp) (.nil (g := []) .nil) (fun es t h => itemsText_gap (g := [' ']) (.blank (.inl rfl) .nil) h)
          cs f1 _ vs hdoc hen hkids (items_inline hF) o3
        exact ⟨t ++ [')'], close_inline o3 q1 q2 q3 (by simp), q4⟩

/-! ## Attributes -/

theorem formatAttributes_none : ∀ (gs : List Green) (f : Fmt), nodesOf .ATTRIBUTE gs = [] →
    formatAttributes ind gs f = f
  | [], f, _ => by rw [formatAttributes]
  | .token _ _ :: gs, f, h => by rw [formatAttributes]; exact formatAttributes_none gs f h
  | .node k cs :: gs, f, h => by
    rw [formatAttributes]
    rw [nodesOf] at h
    split at h
    · cases h
    · rename_i hk
      rw [if_neg hk]
      exact formatAttributes_none gs f h

theorem formatAttributes_cons {a : List Green} {as : List (List Green)} : ∀ (gs : List Green) (f : Fmt),
    nodesOf .ATTRIBUTE gs = a :: as → ∃ gs', nodesOf .ATTRIBUTE gs' = as ∧
      formatAttributes ind gs f =
        formatAttributes ind gs' (if as.isEmpty then formatAttribute ind a f else (formatAttribute ind a f).write ind [' '])
  | [], f, h => by simp [nodesOf] at h
  | .token _ _ :: gs, f, h => by rw [formatAttributes]; exact formatAttributes_cons gs f h
  | .node k cs :: gs, f, h => by
    rw [formatAttributes]
    rw [nodesOf] at h
    split at h
    · rename_i hk
      rw [if_pos hk]
      simp only [List.cons.injEq] at h
      refine ⟨gs, h.2, ?_⟩
      rw [h.2, h.1]
    · rename_i hk
      rw [if_neg hk]
      exact formatAttributes_cons gs f h

theorem attribute_writes' {k : List Char} {gk : SyntaxKind} {gc : List Green} {T : List Char → Prop}
    (hl : LeafText .BARE_SCALAR k) (hv : ∀ f, ∃ u, Writes ind f (formatNode ind (.node gk gc) f) u ∧ T u) (f : Fmt) :
    ∃ s, Writes ind f (formatAttribute ind [.token .BARE_SCALAR k, .token .GT ['>'], .node gk gc] f) (k ++ '>' :: s) ∧
      T s := by
  simp only [formatAttribute, if_true, if_neg (show ¬ SyntaxKind.GT = .BARE_SCALAR by simp)]
  obtain ⟨h1, h2⟩ := leaf_last hl (.inl (.inl rfl))
  have w1 := write_writes (ind := ind) f h1 h2
  have w2 := write_writes (ind := ind) (f.write ind k) (s := ['>']) (by simp) (by simp)
  obtain ⟨s, w3, h3⟩ := hv ((f.write ind k).write ind ['>'])
  refine ⟨s, ?_, h3⟩
  have := (w1.trans w2).trans w3
  simpa using this

theorem attribute_writes {k : List Char} {gk : SyntaxKind} {gc : List Green} {v : Value} {e : Tail}
    (hl : LeafText .BARE_SCALAR k) (hv : FmtVal ind v e (.node gk gc)) (f : Fmt) :
    ∃ s, Writes ind f (formatAttribute ind [.token .BARE_SCALAR k, .token .GT ['>'], .node gk gc] f) (k ++ '>' :: s) ∧
      ValueText v e s := by
  obtain ⟨s, h1, h2, -⟩ := attribute_writes' hl hv f
  exact ⟨s, h1, h2⟩

/-! ## Values -/

theorem valueNode_node {v : Value} {e : Tail} {g : Green} (h : ValueNode v e g) : ∃ k c, g = .node k c := by
  cases h <;> exact ⟨_, _, rfl⟩

/-- Only heredocs need the end of the line. -/
theorem lineTail_heredoc {v : Value} {e : Tail} {g : Green} (h : ValueNode v e g) (ha : e.notAttrs)
    (hl : lineTail e = true) : ∃ x, v = scalarValue x .heredoc := by
  cases h with
  | scalar h1 h2 _ => cases h1 <;> simp_all [lineTail]
  | heredoc h1 _ _ => exact ⟨_, rfl⟩
  | unit => simp [lineTail] at hl
  | tag _ => simp [lineTail] at hl
  | tagged _ h1 h2 =>
    exfalso
    rcases h2 with ⟨k, t, rfl, -⟩ | ⟨cs, rfl⟩ | ⟨cs, rfl⟩
    · generalize hv : Value.mk none (some _) none = w at h1
      cases h1 with
      | scalar h1 h2 _ => cases h1 <;> simp_all [lineTail]
    · cases h1; simp [lineTail] at hl
    · cases h1; simp [lineTail] at hl
  | sequence _ => simp [lineTail] at hl
  | object _ _ _ => simp [lineTail] at hl
  | attributes _ => exact ha.elim

theorem heredoc_last {v : List Char} {e : Tail} {s : List Char} (h : ScalarText v .heredoc e s) :
    s ≠ [] ∧ s.getLast? ≠ some '\n' := by
  cases h with
  | heredoc hd _ _ _ _ =>
    obtain ⟨c, r, rfl, h1, h2, -⟩ := hd
    refine ⟨by simp, fun hl => ?_⟩
    rw [List.getLast?_append] at hl
    have hm : (c :: r).getLast? = some '\n' := by
      cases h : (c :: r).getLast? with
      | none => simp at h
      | some x => simpa [h] using hl
    have := List.mem_of_getLast? hm
    simp at this
    rcases this with rfl | hm
    · simp [Char.isUpper] at h1
    · have := h2 _ hm
      simp [Char.isUpper, Char.isDigit] at this

theorem itemsOf_ok {cs : List Green} (h : ∀ g ∈ cs, OkG g) : ∀ g ∈ itemsOf cs, OkG g := by
  induction cs with
  | nil => intro g hg; simp [itemsOf] at hg
  | cons g' gs ih =>
    have ih := ih fun x hx => h x (by simp [hx])
    intro g hg
    cases g' with
    | token _ _ => rw [itemsOf] at hg; exact ih g hg
    | node k cs =>
      rw [itemsOf.eq_def] at hg
      simp only [List.mem_append] at hg
      rcases hg with hg | hg
      · have hok := h (.node k cs) (by simp)
        split at hg
        · rename_i k' g''
          simp only [List.mem_singleton] at hg
          subst hg
          exact (hok.kids _ (List.mem_singleton.2 rfl)).kids _ (List.mem_singleton.2 rfl)
        · simp at hg
      · exact ih g hg

theorem itemsF_mono {nl : Bool} {vs : List Value} {gs : List Green} (h : ItemsF ind nl vs gs) :
    ItemsF ind true vs gs := by
  induction h with
  | nil => exact .nil
  | cons h1 h2 _ _ ih => exact .cons h1 h2 (fun _ => rfl) ih

theorem value_fmt (hi : Blanks ind) {v : Value} {e : Tail} {g : Green} (h : ValueNode v e g) :
    NoLoneHeredoc v → OkG g → FmtVal ind v e g := by
  refine ValueNode.rec
    (motive_1 := fun v e g _ => NoLoneHeredoc v → OkG g → FmtVal ind v e g)
    (motive_2 := fun nl vs gs _ => NoLoneItems vs → (∀ g ∈ gs, OkG g) →
      ItemsF ind nl vs gs ∧ (gs.length = 1 → ¬ LoneHeredoc vs → ItemsF ind false vs gs))
    (motive_3 := fun nl es ks _ => NoLoneEntries es → (∀ x ∈ ks, ∀ g ∈ x.2, OkG g) → KidsF ind nl es ks)
    (motive_4 := fun es e as _ => NoLoneEntries es → (∀ a ∈ as, ∀ g ∈ a, OkG g) →
      ∀ cs, nodesOf .ATTRIBUTE cs = as → ∀ f, ∃ u, Writes ind f (formatAttributes ind cs f) u ∧ AttrsText es e u)
    ?scalar ?heredoc ?unit ?tag ?tagged ?sequence ?object ?attributes ?inil ?icons ?knil ?kpair ?klone ?aone ?acons h
  case scalar =>
    intro v k e t tk h1 h2 h3 _ hg f
    refine ⟨t, writes_scalar f h3 (hg.kids _ (by simp)).leaf, .scalar h1, ?_⟩
    rintro n (⟨k', t', he, hp⟩ | ⟨cs, he⟩ | ⟨cs, he⟩)
    · cases he; exact hp
    · cases he
    · cases he
  case heredoc =>
    intro v e cs h1 _ _ _ hg f
    obtain ⟨h2, h3⟩ := heredoc_last h1
    refine ⟨Green.texts cs, ?_, .scalar h1, ?_⟩
    · rw [formatNode]
      exact write_writes f h2 h3
    · rintro n (⟨k', t', he, hp⟩ | ⟨cs, he⟩ | ⟨cs, he⟩) <;> cases he
  case unit =>
    intro _ hg f
    refine ⟨['@'], ?_, .unit, ?_⟩
    · rw [formatNode]
      exact write_writes f (by simp) (by simp)
    · rintro n (⟨k', t', he, hp⟩ | ⟨cs, he⟩ | ⟨cs, he⟩) <;> cases he
  case tag =>
    intro n hn _ hg f
    refine ⟨'@' :: n, ?_, .tag hn, ?_⟩
    · have h1 := (hg.kids _ (List.mem_singleton.2 rfl)).leaf
      rw [formatNode]
      simp only [formatTag, if_true]
      exact writes_tag f h1
    · rintro n (⟨k', t', he, hp⟩ | ⟨cs, he⟩ | ⟨cs, he⟩) <;> cases he
  case tagged =>
    intro n p e g hn hv hp ih hl hg f
    obtain ⟨k, c, rfl⟩ := valueNode_node hv
    have h1 := (hg.kids (.token .TAG_TOKEN ('@' :: n)) (by simp)).leaf
    have h2 := hg.kids (.node .TAG_PAYLOAD [.node k c]) (by simp)
    have h3 := h2.kids _ (List.mem_singleton.2 rfl)
    have hl' : NoLoneHeredoc (.mk none (some p) none) := by
      cases p with
      | scalar _ _ _ => simp [NoLoneHeredoc]
      | sequence _ _ => simpa only [NoLoneHeredoc] using hl
      | object _ _ => simpa only [NoLoneHeredoc] using hl
    obtain ⟨u, w, hu, hpu⟩ := ih hl' h3 (f.write ind ('@' :: n))
    refine ⟨'@' :: n ++ u, ?_, .tagged hn hu (hpu n hp), ?_⟩
    · rw [formatNode]
      simp only [formatTag, if_true, formatPayload]
      exact (writes_tag f h1).trans w
    · rintro n (⟨k', t', he, hp⟩ | ⟨cs, he⟩ | ⟨cs, he⟩) <;> cases he
  case sequence =>
    intro vs cs hn ih hl hg
    rw [NoLoneHeredoc] at hl
    obtain ⟨h1, h2⟩ := ih hl.2 (itemsOf_ok hg.kids)
    exact sequence_fmt hi hg h1 fun h => h2 h hl.1
  case object =>
    intro es ks cs hk hn hd ih hl hg
    rw [NoLoneHeredoc] at hl
    refine object_fmt hi hg hk (ih hl fun x hx => ?_) hd
    obtain ⟨k, hk'⟩ := kidsOf_mem hk x hx
    exact (hg.kids _ hk').kids
  case attributes =>
    intro es e cs hn ih hl hg f
    rw [NoLoneHeredoc] at hl
    obtain ⟨u, w, hu⟩ := ih hl (fun a ha => (hg.kids _ (nodesOf_mem a ha)).kids) cs rfl f
    refine ⟨u, ?_, .attributes hu, ?_⟩
    · rw [formatNode]
      exact w
    · rintro n (⟨k', t', he, hp⟩ | ⟨cs, he⟩ | ⟨cs, he⟩) <;> cases he
  case inil => intro nl _ _; exact ⟨.nil, fun h => by simp at h⟩
  case icons =>
    intro nl v e g vs gs hv ha hl _ ih1 ih2 hn hg
    rw [NoLoneItems] at hn
    obtain ⟨k, c, rfl⟩ := valueNode_node hv
    have h1 := ih1 hn.1 (hg _ (by simp))
    obtain ⟨h2, h3⟩ := ih2 hn.2 fun x hx => hg x (by simp [hx])
    refine ⟨.cons h1 ha hl h2, ?_⟩
    intro hlen hlone
    obtain rfl : gs = [] := by simpa using hlen
    cases h2
    refine .cons h1 ha (fun hlt => ?_) .nil
    obtain ⟨x, rfl⟩ := lineTail_heredoc hv ha hlt
    simp [LoneHeredoc, scalarValue] at hlone
  case knil => intro nl _ _; exact .nil
  case kpair =>
    intro nl ls ds k ke kt gk v e gv cs es ks hd hk hkn hv hl hp _ ih1 ih2 hn hg
    rw [NoLoneEntries] at hn
    have hok := hg (ds, cs) (by simp)
    have hgk : OkG gk := by
      obtain ⟨ws, ws', rfl, -, -⟩ := hp
      exact (hok (.node .KEY [gk]) (by simp)).kids _ (by simp)
    have hgv : OkG gv := by
      obtain ⟨ws, ws', rfl, -, -⟩ := hp
      exact (hok (.node .VALUE [gv]) (by simp)).kids _ (by simp)
    refine .cons hd (fun f => ?_) (ih2 hn.2 fun x hx => hg x (by simp [hx]))
    obtain ⟨s, w, hs⟩ := pair_writes hkn (ih1 hn.1 hgv) hp (valueNode_node hv) hgk f
    exact ⟨_, w, e, .inl ⟨ke, kt, [' '], s, rfl, hk, by simp [Blanks, Blank], by simp, hs⟩, hl⟩
  case klone =>
    intro nl ls ds k ke kt gk cs es ks hd hk hkn hp _ ih2 hn hg
    rw [NoLoneEntries] at hn
    have hok := hg (ds, cs) (by simp)
    have hgk : OkG gk := by
      obtain ⟨ws, rfl, -⟩ := hp
      exact (hok (.node .KEY [gk]) (by simp)).kids _ (by simp)
    refine .cons hd (fun f => ?_) (ih2 hn.2 fun x hx => hg x (by simp [hx]))
    exact ⟨_, lone_writes hkn hp hgk f, ke, .inr ⟨rfl, hk⟩, fun h => by rcases keyText_tail hk with rfl | rfl <;> simp [lineTail] at h⟩
  case aone =>
    intro k v e g hk hv ha ih hn hg cs hcs f
    rw [NoLoneEntries] at hn
    obtain ⟨gk, gc, rfl⟩ := valueNode_node hv
    have hok := hg _ (List.mem_singleton.2 rfl)
    have hl := (hok (.token .BARE_SCALAR k) (by simp)).leaf
    obtain ⟨gs', e1, e2⟩ := formatAttributes_cons (ind := ind) cs f hcs
    rw [e2, formatAttributes_none _ _ e1]
    obtain ⟨s, w, hs⟩ := attribute_writes hl (ih hn.1 (hok _ (by simp))) f
    exact ⟨_, w, .one hk hs ha⟩
  case acons =>
    intro k v e g es e' as hk hv ha hl _ ih ih2 hn hg cs hcs f
    rw [NoLoneEntries] at hn
    obtain ⟨gk, gc, rfl⟩ := valueNode_node hv
    have hok := hg _ (List.mem_cons_self ..)
    have hleaf := (hok (.token .BARE_SCALAR k) (by simp)).leaf
    obtain ⟨gs', e1, e2⟩ := formatAttributes_cons (ind := ind) cs f hcs
    obtain ⟨s, w, hs⟩ := attribute_writes hleaf (ih hn.1 (hok (.node gk gc) (by simp))) f
    have hne : as.isEmpty = false := by
      rename_i h
      cases h <;> rfl
    rw [e2, hne]
    simp only [Bool.false_eq_true, if_false]
    have w2 := write_writes (ind := ind) (formatAttribute ind [.token .BARE_SCALAR k, .token .GT ['>'], .node gk gc] f)
      (s := [' ']) (by simp) (by simp)
    obtain ⟨u, w3, hu⟩ := ih2 hn.2 (fun a ha => hg a (by simp [ha])) gs' e1 _
    refine ⟨_, (w.trans w2).trans w3, ?_⟩
    have := AttrsText.cons (b := [' ']) hk hs ha (by simp [Blanks, Blank]) hu (follows_blank hl ha u)
    simpa using this

/-! ## Documents -/

theorem root_kids (hi : Blanks ind) {es : List RootEntry} {ks : List Kid} (h : RootNodes es ks) :
    (∀ e ∈ es, NoLoneHeredoc e.value) → (∀ x ∈ ks, ∀ g ∈ x.2, OkG g) →
    Kids ind RootText true (fun c => formatNode ind (.node .ENTRY c)) es ks := by
  induction h with
  | nil => intro _ _; exact .nil
  | @pair ls ds ks path ke kt gk v e gv cs es kids hd hk hkn hv hp _ ih =>
    intro hn hg
    have hok := hg (ds, cs) (by simp)
    have hgk : OkG gk := by
      obtain ⟨ws, ws', rfl, -, -⟩ := hp
      exact (hok (.node .KEY [gk]) (by simp)).kids _ (by simp)
    have hgv : OkG gv := by
      obtain ⟨ws, ws', rfl, -, -⟩ := hp
      exact (hok (.node .VALUE [gv]) (by simp)).kids _ (by simp)
    refine .cons (fun f => ?_) (ih (fun x hx => hn x (by simp [hx])) fun x hx => hg x (by simp [hx]))
    obtain ⟨s, w, hs⟩ := pair_writes hkn (value_fmt hi hv (hn _ (List.mem_cons_self ..)) hgv) hp (valueNode_node hv) hgk f
    refine ⟨_, w, fun es rest hr dt hdt => ?_⟩
    obtain ⟨g, dl, rfl, h1, h2⟩ := docDone_lines hdt hd
    have := root_text (.inl ⟨ke, kt, [' '], s, rfl, hk, by simp [Blanks, Blank], by simp, hs⟩) h1 h2 hr
      (follows_newline e rest) (entryEnd_newline rest)
    simpa using this
  | @lone ls ds ks path ke kt gk cs es kids hd hk hkn hp _ ih =>
    intro hn hg
    have hok := hg (ds, cs) (by simp)
    have hgk : OkG gk := by
      obtain ⟨ws, rfl, -⟩ := hp
      exact (hok (.node .KEY [gk]) (by simp)).kids _ (by simp)
    refine .cons (fun f => ?_) (ih (fun x hx => hn x (by simp [hx])) fun x hx => hg x (by simp [hx]))
    refine ⟨_, lone_writes hkn hp hgk f, fun es rest hr dt hdt => ?_⟩
    obtain ⟨g, dl, rfl, h1, h2⟩ := docDone_lines hdt hd
    have := root_text (.inr ⟨rfl, hk⟩) h1 h2 hr (follows_newline ke rest) (entryEnd_newline rest)
    simpa using this

theorem document_fmt (hi : Blanks ind) {es : List RootEntry} {ks : List Kid} {cs : List Green} (h : RootNodes es ks)
    (hk : kidsOf [] cs = some ks) (hg : OkG (.node .DOCUMENT cs)) (hn : ∀ e ∈ es, NoLoneHeredoc e.value) :
    RootText es (formatCst ind (.node .DOCUMENT cs)) := by
  rw [formatCst, formatNode]
  have hkids := root_kids hi h hn fun x hx => by
    obtain ⟨k, hk'⟩ := kidsOf_mem hk x hx
    exact (hg.kids _ hk').kids
  have hrun := formatDocument_run (ind := ind) (match entriesOf cs with | e :: _ => isSchemaDeclaration e | [] => false)
    cs [] {} {} hg.shape
  generalize formatDocument ind _ [] cs {} {} = f' at hrun ⊢
  obtain ⟨t, o1, -, o3, o4⟩ := run_post (P := RootText) (cm := true) hi formatEntry_nil hrun
    (fun h => by simp at h) (fun k t ht => (hg.kids _ ht).leaf) hk hkids
  have hL : Lines f' := o3 (by simp [Lines])
  have hnil : Post RootText true [] [] [] := by
    intro dt hd
    rw [List.append_nil]
    exact .nil (docDone_nil hd)
  have o1 : f'.out = t := by simpa using o1
  unfold Lines at hL
  unfold Fmt.finish
  cases ha : f'.atLineStart with
  | true =>
    rw [ha] at hL
    simp only [if_true] at hL
    rw [if_neg (by rcases hL with h | h <;> simp [h]), o1]
    have hz := o4 [] (by rw [ha]; exact hnil)
    have := hz [] (.nil .nil)
    simpa using this
  | false =>
    rw [ha] at hL
    simp only [Bool.false_eq_true, if_false] at hL
    rw [if_pos ⟨hL.2, hL.1⟩, o1]
    have hz := o4 ['\n'] (by rw [ha]; exact ⟨[], rfl, hnil⟩)
    have := hz [] (.nil .nil)
    simpa using this

end Styx.Cst
