import Verif.Cst.Read

/-! # How the parser for concrete syntax trees reads keys, attributes, values and entries -/

namespace Styx.Cst

open Styx Styx.Spec

/-! ## Keys -/

theorem payload_head {p : Payload} {e : Tail} {s rest n : List Char} (hv : ValueText (.mk none (some p) none) e s)
    (hp : PayloadStart n s) (hf : Follows e rest) : ∀ t ts q, toksAt (s ++ rest) q = t :: ts → t.start = q ∧
      (t.kind = .lbrace ∨ t.kind = .lparen ∨ t.kind = .quotedScalar ∨ t.kind = .rawScalar) := by
  have bare : ∀ k r : List Char, BareText k → ¬ (∃ x, r = '>' :: x) ∧ r ≠ [] ∨ PayloadStart n (k ++ r) → r = [] ∨ (∃ x, r = '>' :: x) → False := by
    intro k r hk hps hr
    rcases hps with ⟨h1, h2⟩ | ⟨c, x, e, hc⟩
    · rcases hr with hr | hr
      · exact h2 hr
      · exact h1 hr
    · obtain ⟨hall, d, y, rfl, -, -, h3, -⟩ := hk
      simp only [List.cons_append, List.cons.injEq] at e
      obtain ⟨rfl, rfl⟩ := e
      have hd := (hall d (by simp)).1
      rcases hc with rfl | rfl | ⟨rfl, -⟩ | ⟨rfl, h⟩
      · simp [bareForbidden] at hd
      · simp [bareForbidden] at hd
      · simp [bareForbidden] at hd
      · cases y with
        | nil => rcases hr with rfl | ⟨z, rfl⟩ <;> simp at h
        | cons z y =>
          simp only [List.cons_append, List.head?_cons, Option.some.injEq] at h
          rcases h with rfl | rfl
          · exact h3 ⟨rfl, by simp⟩
          · have := (hall '"' (by simp)).1
            simp [bareForbidden] at this
  intro t ts q h
  generalize hval : Value.mk none (some p) none = v at hv
  cases hv with
  | scalar hs =>
    rename_i v k
    by_cases hk : k = .heredoc
    · subst hk
      cases hs with
      | heredoc =>
        obtain ⟨c, x, e, hc⟩ := hp
        simp only [List.cons_append, List.cons.injEq] at e
        obtain ⟨rfl, -⟩ := e
        simp at hc
    · obtain ⟨tk, h1, h2⟩ := toks_scalar hs hk hf q
      rw [h1] at h
      cases h
      refine ⟨rfl, ?_⟩
      rcases h2 with ⟨-, -, hb⟩ | rfl | rfl
      · exact (bare _ [] hb (.inr (by simpa using hp)) (.inl rfl)).elim
      · simp
      · simp
  | unit => cases hval
  | tag => cases hval
  | tagged => cases hval
  | sequence _ =>
    rw [List.cons_append, toks_lparen] at h
    cases h
    simp
  | object _ _ =>
    rw [List.cons_append, toks_lbrace] at h
    cases h
    simp
  | attributes ha =>
    obtain ⟨k, s', hk, rfl⟩ := attrs_head ha
    exact (bare _ _ hk (.inr hp) (.inr ⟨_, rfl⟩)).elim

theorem payload_notHeredoc {n v k e s} (hs : ScalarText v k e s) (hp : PayloadStart n s) : k ≠ .heredoc := by
  rintro rfl
  cases hs with
  | heredoc =>
    obtain ⟨c, x, e, hc⟩ := hp
    simp only [List.cons_append, List.cons.injEq] at e
    obtain ⟨rfl, -⟩ := e
    simp at hc

theorem key_tail {k : Value} {e : Tail} {s : List Char} (h : KeyText k e s) : e = .word ∨ e = .closed := by
  have sc : ∀ {v k e s}, ScalarText v k e s → k ≠ .heredoc → e = .word ∨ e = .closed := by
    intro v k e s h hk
    cases h with
    | bare _ => simp
    | quoted _ _ => simp
    | raw _ _ => simp
    | heredoc => exact absurd rfl hk
  cases h with
  | scalar hs hk => exact sc hs hk
  | unit => simp
  | tag _ => simp
  | tagged _ hs hp _ => exact sc hs (payload_notHeredoc hs hp)

theorem key_follows {k : Value} {e : Tail} {s rest : List Char} (h : KeyText k e s)
    (hr : Follows .word rest) : Follows e rest := by
  rcases key_tail h with rfl | rfl
  · exact hr
  · trivial

theorem follows_blanks {b s : List Char} (hb : Blanks b) (hne : b ≠ []) : Follows .word (b ++ s) := by
  cases b with
  | nil => exact absurd rfl hne
  | cons c b =>
    refine .inr ⟨c, b ++ s, rfl, ?_⟩
    rcases hb c (by simp) with rfl | rfl <;> simp

theorem scalar_head {v k e s} (hs : ScalarText v k e s) (hk : k ≠ .heredoc) : s.head? ≠ some '@' := by
  cases hs with
  | bare h =>
    obtain ⟨-, c, r, rfl, h, -⟩ := h
    simp only [List.head?_cons, ne_eq, Option.some.injEq]
    rintro rfl
    simp at h
  | quoted _ _ => simp
  | raw _ _ => simp
  | heredoc => exact absurd rfl hk

theorem atom_key {source : List Char} {k : Value} {e : Tail} {s rest : List Char} {n p er gs st}
    (hk : KeyText k e s) (hf : Follows e rest)
    (h : parseAtom source n ⟨toksAt (s ++ rest) p, er⟩ = some (gs, st)) :
    ∃ g, gs = [g] ∧ KeyNode s g ∧ st = ⟨toksAt rest (p + utf8Len s), er⟩ := by
  cases hk with
  | scalar hs hk =>
    obtain ⟨tk, h1, rfl, rfl⟩ := atom_scalar hs hk hf h
    exact ⟨_, rfl, .scalar h1 (scalar_head hs hk), rfl⟩
  | unit =>
    obtain ⟨rfl, rfl⟩ := atom_unit hf h
    exact ⟨_, rfl, .unit, rfl⟩
  | tag hn =>
    obtain ⟨rfl, rfl⟩ := atom_tag hn hf h
    exact ⟨_, rfl, .tag hn, rfl⟩
  | tagged hn hs hp _ =>
    rw [List.append_assoc] at h
    obtain ⟨m, g, h1, rfl⟩ := atom_tagged hn hp (payload_head (.scalar hs) hp hf) h
    obtain ⟨tk, h2, rfl, rfl⟩ := atom_scalar hs (payload_notHeredoc hs hp) hf h1
    exact ⟨_, rfl, .tagged h2 hn hp, by rw [utf8Len_append, Nat.add_assoc]⟩

/-! ## Values -/

/-- What reading the atom `s` gives. -/
def AtomReads (s : List Char) (e : Tail) (q : Green → Prop) : Prop :=
  ∀ source rest n p gs st, Follows e rest → Here source (s ++ rest) p →
    parseAtom source n ⟨toksAt (s ++ rest) p, []⟩ = some (gs, st) → st.errors = [] →
    ∃ g, gs = [g] ∧ q g ∧ st = ⟨toksAt rest (p + utf8Len s), []⟩

/-- The closing token is that of an object, or there is none. -/
def Closing (c : Option TokenKind) : Prop := c = none ∨ c = some .rbrace

/-- No blank first. -/
def NoBlank (u : List Char) : Prop := ∀ c r, u = c :: r → isBlank c = false

/-- An entry ends before `u`. -/
def EndAt (c : Option TokenKind) (u : List Char) : Prop := ∀ p er, St.atEntryEnd ⟨toksAt u p, er⟩ c = true

theorem EndAt.peek {c : Option TokenKind} (hc : Closing c) {u : List Char} (h : EndAt c u) (p : Nat) (er : List PErr) :
    let k := St.peek ⟨toksAt u p, er⟩
    k = .eof ∨ k = .newline ∨ k = .lineComment ∨ k = .comma ∨ k = .rbrace ∧ c = some .rbrace := by
  have := h p er
  simp only [St.atEntryEnd, Bool.or_eq_true, beq_iff_eq] at this
  rcases hc with rfl | rfl
  · simp at this ⊢; simp_all [or_assoc]
  · simp only [Option.some.injEq] at this ⊢
    rcases this with (((h | h) | h) | h) | h
    · simp [h]
    · simp [h]
    · simp [h]
    · simp [h]
    · simp [h.symm]

theorem EndAt.noGt {c : Option TokenKind} (hc : Closing c) {u : List Char} (h : EndAt c u) : gtFollows u = false := by
  have hp := h.peek hc 0 []
  apply gtFollows_of_head
  intro x r e
  refine ⟨notBlank_of_peek (p := 0) (e := []) (fun h' => ?_) x r e, ?_⟩
  · rw [h'] at hp; simp at hp
  · rintro rfl
    rw [e, gt_peek] at hp
    simp at hp

theorem EndAt.notBare {c : Option TokenKind} (hc : Closing c) {u : List Char} (h : EndAt c u) (p : Nat)
    (er : List PErr) : St.peek ⟨toksAt u p, er⟩ ≠ .bareScalar := by
  have hp := h.peek hc p er
  intro h'
  rw [h'] at hp
  simp at hp

theorem atomStart_notEnd {st : St} {c : Option TokenKind} (hc : Closing c) (h : AtomStart st.peek) :
    st.atEntryEnd c = false := by
  rcases hc with rfl | rfl <;> rcases h with h | h | h | h | h | h | h | h <;> simp [St.atEntryEnd, h]

theorem head_peek {s : List Char} {p : Nat} {er : List PErr} {t : Token} {ts : List Token}
    (h : toksAt s p = t :: ts) : St.peek ⟨toksAt s p, er⟩ = t.kind := by
  simp [St.peek, h]

theorem atomStart_noBlank {s : List Char} {p : Nat} {er : List PErr} (h : AtomStart (St.peek ⟨toksAt s p, er⟩)) :
    NoBlank s ∧ gtFollows s = false := by
  have h1 : NoBlank s := by
    apply notBlank_of_peek (p := p) (e := er)
    intro h'
    rw [h'] at h
    simp [AtomStart] at h
  refine ⟨h1, gtFollows_of_head fun c r e => ⟨h1 c r e, ?_⟩⟩
  rintro rfl
  rw [e, gt_peek] at h
  simp [AtomStart] at h

/-- What reading the value `s` of an entry gives. -/
def ValReads (c : Option TokenKind) (s : List Char) (e : Tail) (q : Green → Prop) : Prop :=
  ∀ source b u n p gs st, Blanks b → NoBlank u → EndAt c u → Follows e (b ++ u) → Here source (s ++ (b ++ u)) p →
    parseValues source n c 0 ⟨toksAt (s ++ (b ++ u)) p, []⟩ = some (gs, st) → st.errors = [] →
    ∃ gv ws, gs = .node .VALUE [gv] :: ws ∧ (∀ g ∈ ws, IsWs g) ∧ q gv ∧
      st = ⟨toksAt u (p + utf8Len s + utf8Len b), []⟩

theorem values_done {source : List Char} {n : Nat} {c : Option TokenKind} {k : Nat} {st : St} {r : List Green × St}
    (he : st.atEntryEnd c = true) (h : parseValues source n c k st = some r) : r = ([], st) := by
  cases n with
  | zero => simp [parseValues] at h
  | succ n =>
    rw [parseValues, if_pos he] at h
    cases h
    rfl

theorem val_of_atom {c : Option TokenKind} (hc : Closing c) {v : Value} {e : Tail} {s : List Char} {q : Green → Prop}
    (hv : ValueText v e s) (hn : e.notAttrs) (ha : AtomReads s e q) : ValReads c s e q := by
  intro source b u n p gs st hb hu he hf hh h herr
  cases n with
  | zero => simp [parseValues] at h
  | succ n =>
    obtain ⟨t, ts, h1, h2, h3, h4⟩ := value_head hv hf p
    have hp : AtomStart (St.peek ⟨toksAt (s ++ (b ++ u)) p, []⟩) := by rw [head_peek h1]; exact h2
    rw [parseValues, if_neg (by rw [atomStart_notEnd hc hp]; simp),
      if_neg (by rw [not_attribute h1 (h4 hn) hh (by rw [gtFollows_blanks hb, he.noGt hc])]; simp)] at h
    simp only [Nat.lt_irrefl, gt_iff_lt, false_and, and_false, if_false, Option.bind_eq_bind, Option.bind_eq_some_iff,
      Prod.exists, Option.some.injEq, Prod.mk.injEq] at h
    obtain ⟨g1, st1, ⟨g, st', h5, rfl, rfl⟩, g3, st3, h6, rfl, rfl⟩ := h
    have e1 : st'.skipWs.2.errors = [] := (allClean source n).2.2.1 _ _ _ _ h6 herr
    have e2 : st'.errors = [] := e1
    obtain ⟨g, rfl, hq, rfl⟩ := ha _ _ _ _ _ _ hf hh h5 e2
    obtain ⟨ws, hw, hws, -⟩ := skipWs_at (p := p + utf8Len s) (e := []) hb hu
    rw [hw] at h6
    have := values_done (he _ _) h6
    cases this
    exact ⟨g, ws, by simp [hw], hws, hq, rfl⟩

/-! ## Attributes -/

/-- What reading the attributes `s` gives. -/
def AttrReads (s : List Char) (e : Tail) (q : List Green → Prop) : Prop :=
  ∀ source c b u n p gs st, Closing c → Blanks b → NoBlank u → (∀ p er, St.peek ⟨toksAt u p, er⟩ ≠ .bareScalar) →
    Follows e (b ++ u) → Here source (s ++ (b ++ u)) p →
    parseAttributes source n c ⟨toksAt (s ++ (b ++ u)) p, []⟩ = some (gs, st) → st.errors = [] →
    q gs ∧ st = ⟨toksAt u (p + utf8Len s + utf8Len b), []⟩

theorem notBare_notAttribute {source : List Char} {st : St} (h : st.peek ≠ .bareScalar) : st.atAttribute source = false := by
  cases ha : st.atAttribute source with
  | false => rfl
  | true => exact absurd (atAttribute_peek ha) h

/-- One attribute. -/
theorem attribute_reads {k s : List Char} {v : Value} {e : Tail} {q : Green → Prop} (hk : BareText k)
    (hv : ValueText v e s) (ha : AtomReads s e q) {source rest : List Char} {n p g st}
    (hf : Follows e rest) (hh : Here source (k ++ '>' :: (s ++ rest)) p)
    (h : parseAttribute source n ⟨toksAt (k ++ '>' :: (s ++ rest)) p, []⟩ = some (g, st)) (herr : st.errors = []) :
    ∃ gv, g = .node .ATTRIBUTE [.token .BARE_SCALAR k, .token .GT ['>'], gv] ∧ q gv ∧
      st = ⟨toksAt rest (p + utf8Len k + 1 + utf8Len s), []⟩ := by
  cases n with
  | zero => simp [parseAttribute] at h
  | succ n =>
    rw [parseAttribute, toks_bare hk (by simp; rfl) (by simp) p, toks_gt] at h
    obtain ⟨t, ts, h1, h2, h3, h4⟩ := value_head hv hf (p + utf8Len k + 1)
    have hp : AtomStart (St.peek ⟨toksAt (s ++ rest) (p + utf8Len k + 1), []⟩) := by rw [head_peek h1]; exact h2
    have hp' : ¬ (St.peek ⟨toksAt (s ++ rest) (p + utf8Len k + 1), []⟩ = .whitespace ∨
        St.peek ⟨toksAt (s ++ rest) (p + utf8Len k + 1), []⟩ = .newline) := by
      rintro (h | h) <;> simp [h, AtomStart] at hp
    have hg : St.peek ⟨⟨TokenKind.gt, p + utf8Len k, p + utf8Len k + 1, ['>']⟩ ::
        toksAt (s ++ rest) (p + utf8Len k + 1), []⟩ = .gt := rfl
    simp only [St.bump, hg, if_true, if_neg hp', SyntaxKind.ofToken] at h
    simp only [Option.bind_eq_bind, Option.bind_eq_some_iff, Prod.exists, Option.some.injEq, Prod.mk.injEq] at h
    obtain ⟨g4, st4, h5, rfl, rfl⟩ := h
    have hh' : Here source (s ++ rest) (p + utf8Len k + 1) := hh.tail.cons
    obtain ⟨gv, rfl, hq, rfl⟩ := ha _ _ _ _ _ _ hf hh' h5 herr
    exact ⟨gv, rfl, hq, rfl⟩

theorem nodesOf_blank {ws : List Green} (h : ∀ g ∈ ws, IsWs g) (k : SyntaxKind) : nodesOf k ws = [] := by
  induction ws with
  | nil => rfl
  | cons g gs ih =>
    obtain ⟨t, rfl⟩ := h g (by simp)
    rw [nodesOf]
    exact ih (fun g hg => h g (by simp [hg]))

theorem nodesOf_app (k : SyntaxKind) (a b : List Green) : nodesOf k (a ++ b) = nodesOf k a ++ nodesOf k b := by
  induction a with
  | nil => rfl
  | cons g gs ih =>
    cases g with
    | token k' t => simpa [nodesOf] using ih
    | node k' cs =>
      simp only [List.cons_append, nodesOf]
      split <;> simp [ih]

theorem attrs_one' {k s : List Char} {v : Value} {e : Tail} {q : Green → Prop} (hk : BareText k) (hv : ValueText v e s)
    (ha : AtomReads s e q) : AttrReads (k ++ '>' :: s) e fun gs => ∃ gv ws,
      gs = .node .ATTRIBUTE [.token .BARE_SCALAR k, .token .GT ['>'], gv] :: ws ∧ (∀ g ∈ ws, IsWs g) ∧ q gv := by
  intro source c b u n p gs st hc hb hu hbare hf hh h herr
  cases n with
  | zero => simp [parseAttributes] at h
  | succ n =>
    have e0 : k ++ '>' :: s ++ (b ++ u) = k ++ '>' :: (s ++ (b ++ u)) := by simp
    rw [e0] at hh h
    rw [parseAttributes, if_pos (is_attribute hk hh)] at h
    simp only [Option.bind_eq_bind, Option.bind_eq_some_iff, Prod.exists] at h
    obtain ⟨g1, st1, h1, h⟩ := h
    have e1 : st1.errors = [] := by
      split at h
      · cases h; exact herr
      · simp only [Option.bind_eq_some_iff, Prod.exists, Option.some.injEq, Prod.mk.injEq] at h
        obtain ⟨g3, st3, h3, rfl, rfl⟩ := h
        have := (allClean source n).2.2.2.1 _ _ _ h3 herr
        exact this
    obtain ⟨gv, rfl, hq, rfl⟩ := attribute_reads hk hv ha hf hh h1 e1
    obtain ⟨ws, hw, hws, -⟩ := skipWs_at (p := p + utf8Len k + 1 + utf8Len s) (e := []) hb hu
    rw [hw] at h
    have epos : p + utf8Len k + 1 + utf8Len s + utf8Len b = p + utf8Len (k ++ '>' :: s) + utf8Len b := by
      rw [utf8Len_append, utf8Len_cons, show '>'.utf8Size = 1 from rfl]; omega
    simp only at h
    split at h
    · cases h
      exact ⟨⟨gv, ws, rfl, hws, hq⟩, by rw [epos]⟩
    · simp only [Option.bind_eq_some_iff, Prod.exists, Option.some.injEq, Prod.mk.injEq] at h
      obtain ⟨g3, st3, h3, rfl, rfl⟩ := h
      cases n with
      | zero => simp [parseAttributes] at h3
      | succ n =>
        rw [parseAttributes, if_neg (by rw [notBare_notAttribute (hbare _ _)]; simp)] at h3
        cases h3
        exact ⟨⟨gv, ws, by simp, hws, hq⟩, by rw [epos]⟩

theorem attrs_one {k s : List Char} {v : Value} {e : Tail} (hk : BareText k) (hv : ValueText v e s) (hn : e.notAttrs)
    (ha : AtomReads s e (ValueNode v e)) : AttrReads (k ++ '>' :: s) e fun gs =>
      AttrNodes [.mk (scalarValue k .bare) v none] e (nodesOf .ATTRIBUTE gs) := by
  intro source c b u n p gs st hc hb hu hbare hf hh h herr
  obtain ⟨⟨gv, ws, rfl, hws, hq⟩, h2⟩ := attrs_one' hk hv ha _ _ _ _ _ _ _ _ hc hb hu hbare hf hh h herr
  refine ⟨?_, h2⟩
  show AttrNodes _ _ _
  rw [nodesOf, if_pos rfl, nodesOf_blank hws]
  exact .one hk hq hn

theorem attrs_cons' {k s b t : List Char} {v : Value} {e e' : Tail} {es : List Entry} {q : Green → Prop}
    {r : List Green → Prop} (hk : BareText k)
    (hv : ValueText v e s) (hn : e.notAttrs) (hb : Blanks b) (ht : AttrsText es e' t) (hfe : Follows e (b ++ t))
    (ha : AtomReads s e q) (hr : AttrReads t e' r) :
    AttrReads (k ++ '>' :: s ++ b ++ t) e' fun gs => ∃ gv ws g3,
      gs = .node .ATTRIBUTE [.token .BARE_SCALAR k, .token .GT ['>'], gv] :: ws ++ g3 ∧ (∀ g ∈ ws, IsWs g) ∧ q gv ∧
        r g3 ∧ lineTail e = false := by
  intro source c b' u n p gs st hc hb' hu hbare hf hh h herr
  cases n with
  | zero => simp [parseAttributes] at h
  | succ n =>
    have e0 : k ++ '>' :: s ++ b ++ t ++ (b' ++ u) = k ++ '>' :: (s ++ (b ++ (t ++ (b' ++ u)))) := by simp
    rw [e0] at hh h
    obtain ⟨k2, s2, hk2, rfl⟩ := attrs_head ht
    obtain ⟨x, r, hx1, hx2⟩ : ∃ x r, k2 = x :: r ∧ isBareChar x = true := by
      obtain ⟨hall, d, y, rfl, -⟩ := hk2
      exact ⟨d, y, rfl, (isBareChar_iff d).2 (hall d (by simp))⟩
    have hnb : NoBlank (k2 ++ '>' :: s2 ++ (b' ++ u)) := by
      intro c r' e
      rw [hx1] at e
      simp only [List.cons_append, List.cons.injEq] at e
      obtain ⟨rfl, -⟩ := e
      cases hb : isBlank x with
      | false => rfl
      | true =>
        rcases (blank_iff x).2 hb with rfl | rfl <;> exact absurd hx2 (by decide)
    have hfs : ∀ e, Follows e (b ++ (k2 ++ '>' :: s2)) → e.notAttrs →
        Follows e (b ++ (k2 ++ '>' :: s2 ++ (b' ++ u))) ∧ lineTail e = false := by
      intro e h hn
      cases e with
      | closed => exact ⟨trivial, rfl⟩
      | word =>
        refine ⟨?_, rfl⟩
        rcases h with h | ⟨c, r, h, hc⟩
        · simp [hx1] at h
        · exact .inr ⟨c, r ++ (b' ++ u), by rw [← List.append_assoc, h]; rfl, hc⟩
      | line =>
        exfalso
        cases b with
        | nil =>
          rw [hx1] at h
          rcases h with h | ⟨y, h⟩ | ⟨y, h⟩
          · simp at h
          · simp at h; rw [h.1] at hx2; exact absurd hx2 (by decide)
          · simp at h; rw [h.1] at hx2; exact absurd hx2 (by decide)
        | cons z b =>
          have := hb z (by simp)
          rcases h with h | ⟨y, h⟩ | ⟨y, h⟩
          · simp at h
          · simp at h; rw [h.1] at this; rcases this with h | h <;> simp at h
          · simp at h; rw [h.1] at this; rcases this with h | h <;> simp at h
      | attrs e => cases hn
    obtain ⟨hf1, hl⟩ := hfs e hfe hn
    rw [parseAttributes, if_pos (is_attribute hk hh)] at h
    simp only [Option.bind_eq_bind, Option.bind_eq_some_iff, Prod.exists] at h
    obtain ⟨g1, st1, h1, h⟩ := h
    have e1 : st1.errors = [] := by
      split at h
      · cases h; exact herr
      · simp only [Option.bind_eq_some_iff, Prod.exists, Option.some.injEq, Prod.mk.injEq] at h
        obtain ⟨g3, st3, h3, rfl, rfl⟩ := h
        have := (allClean source n).2.2.2.1 _ _ _ h3 herr
        exact this
    obtain ⟨gv, rfl, hq, rfl⟩ := attribute_reads hk hv ha hf1 hh h1 e1
    obtain ⟨ws, hw, hws, -⟩ := skipWs_at (p := p + utf8Len k + 1 + utf8Len s) (e := []) hb hnb
    rw [hw] at h
    have hh2 : Here source (k2 ++ '>' :: s2 ++ (b' ++ u)) (p + utf8Len k + 1 + utf8Len s + utf8Len b) :=
      hh.tail.cons.tail.tail
    have hpk : AtomStart (St.peek ⟨toksAt (k2 ++ '>' :: s2 ++ (b' ++ u)) (p + utf8Len k + 1 + utf8Len s + utf8Len b), []⟩) := by
      rw [List.append_assoc, List.cons_append, toks_bare hk2 (by simp; rfl) (by simp)]
      simp [St.peek, AtomStart]
    simp only [atomStart_notEnd hc hpk, Bool.false_eq_true, if_false] at h
    simp only [Option.bind_eq_some_iff, Prod.exists, Option.some.injEq, Prod.mk.injEq] at h
    obtain ⟨g3, st3, h3, rfl, rfl⟩ := h
    obtain ⟨h4, rfl⟩ := hr _ _ _ _ _ _ _ _ hc hb' hu hbare hf hh2 h3 herr
    refine ⟨?_, ?_⟩
    · exact ⟨gv, ws, g3, by simp, hws, hq, h4, hl⟩
    · congr 2
      simp only [utf8Len_append, utf8Len_cons, show '>'.utf8Size = 1 from rfl]
      omega

theorem attrs_cons {k s b t : List Char} {v : Value} {e e' : Tail} {es : List Entry} (hk : BareText k)
    (hv : ValueText v e s) (hn : e.notAttrs) (hb : Blanks b) (ht : AttrsText es e' t) (hfe : Follows e (b ++ t))
    (ha : AtomReads s e (ValueNode v e)) (hr : AttrReads t e' fun gs => AttrNodes es e' (nodesOf .ATTRIBUTE gs)) :
    AttrReads (k ++ '>' :: s ++ b ++ t) e' fun gs =>
      AttrNodes (.mk (scalarValue k .bare) v none :: es) e' (nodesOf .ATTRIBUTE gs) := by
  intro source c b' u n p gs st hc hb' hu hbare hf hh h herr
  obtain ⟨⟨gv, ws, g3, rfl, hws, hq, h4, hl⟩, h2⟩ := attrs_cons' hk hv hn hb ht hfe ha hr _ _ _ _ _ _ _ _ hc hb' hu hbare hf hh h herr
  refine ⟨?_, h2⟩
  show AttrNodes _ _ _
  rw [nodesOf_app, nodesOf, if_pos rfl, nodesOf_blank hws, List.singleton_append]
  exact .cons hk hq hn hl h4

theorem val_of_attrs' {c : Option TokenKind} (hc : Closing c) {es : List Entry} {e : Tail} {s : List Char}
    {r : List Green → Prop} (ht : AttrsText es e s) (hr : AttrReads s e r) :
    ValReads c s (.attrs e) fun g => ∃ gs, g = .node .ATTRIBUTES gs ∧ r gs := by
  intro source b u n p gs st hb hu he hf hh h herr
  cases n with
  | zero => simp [parseValues] at h
  | succ n =>
    obtain ⟨t, ts, h1, h2, h3, -⟩ := value_head (.attributes ht) hf p
    have hp : AtomStart (St.peek ⟨toksAt (s ++ (b ++ u)) p, []⟩) := by rw [head_peek h1]; exact h2
    obtain ⟨k, s', hk, rfl⟩ := attrs_head ht
    have hat : St.atAttribute source ⟨toksAt (k ++ '>' :: s' ++ (b ++ u)) p, []⟩ = true := by
      rw [List.append_assoc] at hh ⊢
      exact is_attribute hk hh
    rw [parseValues, if_neg (by rw [atomStart_notEnd hc hp]; simp), if_pos hat] at h
    simp only [Option.bind_eq_bind, Option.bind_eq_some_iff,
      Prod.exists, Option.some.injEq, Prod.mk.injEq] at h
    obtain ⟨g1, st1, ⟨g, st', h5, rfl, rfl⟩, g3, st3, h6, rfl, rfl⟩ := h
    have e1 : st'.skipWs.2.errors = [] := (allClean source n).2.2.1 _ _ _ _ h6 herr
    have e2 : st'.errors = [] := e1
    obtain ⟨hq, rfl⟩ := hr _ _ _ _ _ _ _ _ hc hb hu (he.notBare hc) hf.1 hh h5 e2
    obtain ⟨ws, hw, hws, -⟩ := skipWs_at (b := []) (p := p + utf8Len (k ++ '>' :: s') + utf8Len b) (e := [])
      (by simp [Blanks]) hu
    simp only [List.nil_append, utf8Len, Nat.add_zero] at hw
    rw [hw] at h6
    have := values_done (he _ _) h6
    cases this
    exact ⟨_, ws, by rw [hw]; simp, hws, ⟨_, rfl, hq⟩, rfl⟩

theorem val_of_attrs {c : Option TokenKind} (hc : Closing c) {es : List Entry} {e : Tail} {s : List Char}
    (ht : AttrsText es e s) (hr : AttrReads s e fun gs => AttrNodes es e (nodesOf .ATTRIBUTE gs)) :
    ValReads c s (.attrs e) (ValueNode (.mk none (some (.object es none)) none) (.attrs e)) := by
  intro source b u n p gs st hb hu he hf hh h herr
  obtain ⟨gv, ws, h1, h2, ⟨gs', rfl, h3⟩, h4⟩ := val_of_attrs' hc ht hr _ _ _ _ _ _ _ hb hu he hf hh h herr
  exact ⟨_, ws, h1, h2, .attributes h3, h4⟩

/-! ## Entries -/

theorem entry_pair {c : Option TokenKind} (hc : Closing c) {k : Value} {ke : Tail} {kt : List Char}
    (hk : KeyText k ke kt) {b : List Char} (hb : Blanks b) (hne : b ≠ []) {v : Value} {e : Tail} {s : List Char}
    (hv : ValueText v e s) {q : Green → Prop} (hr : ValReads c s e q) {source b2 u : List Char} (hb2 : Blanks b2)
    (hu : NoBlank u) (he : EndAt c u) (hf : Follows e (b2 ++ u)) {p n g st}
    (hh : Here source (kt ++ (b ++ (s ++ (b2 ++ u)))) p)
    (h : parseEntry source n c ⟨toksAt (kt ++ (b ++ (s ++ (b2 ++ u)))) p, []⟩ = some (g, st)) (herr : st.errors = []) :
    ∃ gk gv cs, g = .node .ENTRY cs ∧ KeyNode kt gk ∧ q gv ∧ PairNode gk gv cs ∧
      st = ⟨toksAt u (p + utf8Len kt + utf8Len b + utf8Len s + utf8Len b2), []⟩ := by
  cases n with
  | zero => simp [parseEntry] at h
  | succ n =>
    obtain ⟨t, ts, h1, h2, h3⟩ := key_head hk (key_follows hk (follows_blanks (s := s ++ (b2 ++ u)) hb hne)) p
    have hp : AtomStart (St.peek ⟨toksAt (kt ++ (b ++ (s ++ (b2 ++ u)))) p, []⟩) := by rw [head_peek h1]; exact h2
    obtain ⟨t', ts', h1', h2', -⟩ := value_head hv hf (p + utf8Len kt + utf8Len b)
    have hs := atomStart_noBlank (s := s ++ (b2 ++ u)) (p := p + utf8Len kt + utf8Len b) (er := [])
      (by rw [head_peek h1']; exact h2')
    rw [parseEntry, if_neg (by rw [not_attribute h1 h3 hh (by rw [gtFollows_blanks hb]; exact hs.2)]; simp),
      if_neg (by rw [atomStart_notEnd hc hp]; simp)] at h
    simp only [Option.bind_eq_bind, Option.bind_eq_some_iff,
      Prod.exists, Option.some.injEq, Prod.mk.injEq] at h
    obtain ⟨g1, st1, ⟨g, st', h5, rfl, rfl⟩, g3, st3, h6, rfl, rfl⟩ := h
    obtain ⟨gk, rfl, hkn, rfl⟩ := atom_key hk (key_follows hk (follows_blanks hb hne)) h5
    obtain ⟨ws, hw, hws, -⟩ := skipWs_at (p := p + utf8Len kt) (e := []) hb hs.1
    rw [hw] at h6
    obtain ⟨gv, ws', rfl, hws', hq, rfl⟩ := hr _ _ _ _ _ _ _ hb2 hu he hf hh.tail.tail h6 herr
    exact ⟨gk, gv, _, rfl, hkn, hq, ⟨ws, ws', by simp [hw], hws, hws'⟩, rfl⟩

theorem entry_lone {c : Option TokenKind} (hc : Closing c) {k : Value} {ke : Tail} {kt : List Char}
    (hk : KeyText k ke kt) {source b2 u : List Char} (hb2 : Blanks b2)
    (hu : NoBlank u) (he : EndAt c u) (hf : Follows ke (b2 ++ u)) {p n g st}
    (hh : Here source (kt ++ (b2 ++ u)) p)
    (h : parseEntry source n c ⟨toksAt (kt ++ (b2 ++ u)) p, []⟩ = some (g, st)) :
    ∃ gk cs, g = .node .ENTRY cs ∧ KeyNode kt gk ∧ LoneNode gk cs ∧
      st = ⟨toksAt u (p + utf8Len kt + utf8Len b2), []⟩ := by
  cases n with
  | zero => simp [parseEntry] at h
  | succ n =>
    obtain ⟨t, ts, h1, h2, h3⟩ := key_head hk hf p
    have hp : AtomStart (St.peek ⟨toksAt (kt ++ (b2 ++ u)) p, []⟩) := by rw [head_peek h1]; exact h2
    rw [parseEntry, if_neg (by rw [not_attribute h1 h3 hh (by rw [gtFollows_blanks hb2, he.noGt hc])]; simp),
      if_neg (by rw [atomStart_notEnd hc hp]; simp)] at h
    simp only [Option.bind_eq_bind, Option.bind_eq_some_iff,
      Prod.exists, Option.some.injEq, Prod.mk.injEq] at h
    obtain ⟨g1, st1, ⟨g, st', h5, rfl, rfl⟩, g3, st3, h6, rfl, rfl⟩ := h
    obtain ⟨gk, rfl, hkn, rfl⟩ := atom_key hk hf h5
    obtain ⟨ws, hw, hws, -⟩ := skipWs_at (p := p + utf8Len kt) (e := []) hb2 hu
    rw [hw] at h6
    have := values_done (he _ _) h6
    cases this
    exact ⟨gk, _, rfl, hkn, ⟨ws, by simp [hw], hws⟩, rfl⟩

end Styx.Cst
