import Verif.Cst.ReadValue
import Verif.Tree.SpanSpec

/-!
# The parser for concrete syntax trees reports no errors in the texts of the grammar

Except in sequences with a run of attributes as an item.
-/

namespace Styx.Spec

/-- No item of a sequence in `v` is an object without a tag. -/
def NoObjectItems (v : Value) : Prop :=
  ∀ t items psp sp, Node (.mk t (some (.sequence items psp)) sp) v → ∀ es o sp', .mk none (some (.object es o)) sp' ∉ items

end Styx.Spec

namespace Styx.Cst.Sound

open Styx Styx.Spec Styx.Cst

/-! ## Values -/

/-- Reading the atom `s` succeeds. -/
def AtomOk (s : List Char) (e : Tail) : Prop :=
  ∀ source rest n p gs st, Follows e rest → Here source (s ++ rest) p →
    parseAtom source n ⟨toksAt (s ++ rest) p, []⟩ = some (gs, st) → st = ⟨toksAt rest (p + utf8Len s), []⟩

/-- Reading the value `s` of an entry succeeds. -/
def ValOk (c : Option TokenKind) (s : List Char) (e : Tail) : Prop :=
  ∀ source b u n p gs st, Blanks b → NoBlank u → EndAt c u → Follows e (b ++ u) → Here source (s ++ (b ++ u)) p →
    parseValues source n c 0 ⟨toksAt (s ++ (b ++ u)) p, []⟩ = some (gs, st) →
      st = ⟨toksAt u (p + utf8Len s + utf8Len b), []⟩

/-- Reading the attributes `s` succeeds. -/
def AttrOk (s : List Char) (e : Tail) : Prop :=
  ∀ source c b u n p gs st, Closing c → Blanks b → NoBlank u → (∀ p er, St.peek ⟨toksAt u p, er⟩ ≠ .bareScalar) →
    Follows e (b ++ u) → Here source (s ++ (b ++ u)) p →
    parseAttributes source n c ⟨toksAt (s ++ (b ++ u)) p, []⟩ = some (gs, st) →
      st = ⟨toksAt u (p + utf8Len s + utf8Len b), []⟩

theorem val_of_atom {c : Option TokenKind} (hc : Closing c) {v : Value} {e : Tail} {s : List Char}
    (hv : ValueText v e s) (hn : e.notAttrs) (ha : AtomOk s e) : ValOk c s e := by
  intro source b u n p gs st hb hu he hf hh h
  cases n with
  | zero => simp [parseValues] at h
  | succ n =>
    obtain ⟨t, ts, h1, h2, h3, h4⟩ := value_head hv hf p
    have hp : AtomStart (St.peek ⟨toksAt (s ++ (b ++ u)) p, []⟩) := by rw [head_peek h1]; exact h2
    rw [parseValues, if_neg (by rw [atomStart_notEnd hc hp]; simp),
      if_neg (by rw [not_attribute h1 (h4 hn) hh (by rw [gtFollows_blanks hb, he.noGt hc])]; simp)] at h
    simp only [Nat.lt_irrefl, gt_iff_lt, false_and, and_false, if_false, Option.bind_eq_bind, Option.bind_eq_some_iff,
      Prod.exists, Option.some.injEq, Prod.mk.injEq] at h
    obtain ⟨g1, st1, ⟨g, st', h5, rfl, rfl⟩, g3, st3, h6, rfl, rfl⟩ := h
    obtain rfl := ha _ _ _ _ _ _ hf hh h5
    obtain ⟨ws, hw, hws, -⟩ := skipWs_at (p := p + utf8Len s) (e := []) hb hu
    rw [hw] at h6
    have := values_done (he _ _) h6
    cases this
    rfl

theorem attribute_reads {k s : List Char} {v : Value} {e : Tail} (hk : BareText k)
    (hv : ValueText v e s) (ha : AtomOk s e) {source rest : List Char} {n p g st}
    (hf : Follows e rest) (hh : Here source (k ++ '>' :: (s ++ rest)) p)
    (h : parseAttribute source n ⟨toksAt (k ++ '>' :: (s ++ rest)) p, []⟩ = some (g, st)) :
    st = ⟨toksAt rest (p + utf8Len k + 1 + utf8Len s), []⟩ := by
  cases n with
  | zero => simp [parseAttribute] at h
  | succ n =>
    rw [parseAttribute, toks_bare hk (by simp; rfl) (by simp) p, toks_gt] at h
    obtain ⟨t, ts, h1, h2, h3, h4⟩ := value_head hv hf (p + utf8Len k + 1)
    have hp : AtomStart (St.peek ⟨toksAt (s ++ rest) (p + utf8Len k + 1), []⟩) := by rw [head_peek h1]; exact h2
    have hp' : ¬ (St.peek ⟨toksAt (s ++ rest) (p + utf8Len k + 1), []⟩ = .whitespace ∨
        St.peek ⟨toksAt (s ++ rest) (p + utf8Len k + 1), []⟩ = .newline) := by
      rintro (h | h) <;> simp [h, AtomStart] at hp
    have hg : St.peek ⟨⟨TokenKind.gt, p + utf8Len k, p + utf8Len k + 1, ['>']⟩ ::
        toksAt (s ++ rest) (p + utf8Len k + 1), []⟩ = .gt := rfl
    simp only [St.bump, hg, if_true, if_neg hp', SyntaxKind.ofToken] at h
    simp only [Option.bind_eq_bind, Option.bind_eq_some_iff, Prod.exists, Option.some.injEq, Prod.mk.injEq] at h
    obtain ⟨g4, st4, h5, rfl, rfl⟩ := h
    have hh' : Here source (s ++ rest) (p + utf8Len k + 1) := hh.tail.cons
    exact ha _ _ _ _ _ _ hf hh' h5

theorem attrs_one {k s : List Char} {v : Value} {e : Tail} (hk : BareText k) (hv : ValueText v e s)
    (ha : AtomOk s e) : AttrOk (k ++ '>' :: s) e := by
  intro source c b u n p gs st hc hb hu hbare hf hh h
  cases n with
  | zero => simp [parseAttributes] at h
  | succ n =>
    have e0 : k ++ '>' :: s ++ (b ++ u) = k ++ '>' :: (s ++ (b ++ u)) := by simp
    rw [e0] at hh h
    rw [parseAttributes, if_pos (is_attribute hk hh)] at h
    simp only [Option.bind_eq_bind, Option.bind_eq_some_iff, Prod.exists] at h
    obtain ⟨g1, st1, h1, h⟩ := h
    obtain rfl := attribute_reads hk hv ha hf hh h1
    obtain ⟨ws, hw, hws, -⟩ := skipWs_at (p := p + utf8Len k + 1 + utf8Len s) (e := []) hb hu
    rw [hw] at h
    have epos : p + utf8Len k + 1 + utf8Len s + utf8Len b = p + utf8Len (k ++ '>' :: s) + utf8Len b := by
      rw [utf8Len_append, utf8Len_cons, show '>'.utf8Size = 1 from rfl]; omega
    simp only at h
    split at h
    · cases h
      rw [epos]
    · simp only [Option.bind_eq_some_iff, Prod.exists, Option.some.injEq, Prod.mk.injEq] at h
      obtain ⟨g3, st3, h3, rfl, rfl⟩ := h
      cases n with
      | zero => simp [parseAttributes] at h3
      | succ n =>
        rw [parseAttributes, if_neg (by rw [notBare_notAttribute (hbare _ _)]; simp)] at h3
        cases h3
        rw [epos]

theorem attrs_cons {k s b t : List Char} {v : Value} {e e' : Tail} {es : List Entry} (hk : BareText k)
    (hv : ValueText v e s) (hn : e.notAttrs) (hb : Blanks b) (ht : AttrsText es e' t) (hfe : Follows e (b ++ t))
    (ha : AtomOk s e) (hr : AttrOk t e') : AttrOk (k ++ '>' :: s ++ b ++ t) e' := by
  intro source c b' u n p gs st hc hb' hu hbare hf hh h
  cases n with
  | zero => simp [parseAttributes] at h
  | succ n =>
    have e0 : k ++ '>' :: s ++ b ++ t ++ (b' ++ u) = k ++ '>' :: (s ++ (b ++ (t ++ (b' ++ u)))) := by simp
    rw [e0] at hh h
    obtain ⟨k2, s2, hk2, rfl⟩ := attrs_head ht
    obtain ⟨x, r, hx1, hx2⟩ : ∃ x r, k2 = x :: r ∧ isBareChar x = true := by
      obtain ⟨hall, d, y, rfl, -⟩ := hk2
      exact ⟨d, y, rfl, (isBareChar_iff d).2 (hall d (by simp))⟩
    have hnb : NoBlank (k2 ++ '>' :: s2 ++ (b' ++ u)) := by
      intro c r' e
      rw [hx1] at e
      simp only [List.cons_append, List.cons.injEq] at e
      obtain ⟨rfl, -⟩ := e
      cases hb : isBlank x with
      | false => rfl
      | true =>
        rcases (blank_iff x).2 hb with rfl | rfl <;> exact absurd hx2 (by decide)
    have hfs : ∀ e, Follows e (b ++ (k2 ++ '>' :: s2)) → e.notAttrs →
        Follows e (b ++ (k2 ++ '>' :: s2 ++ (b' ++ u))) := by
      intro e h hn
      cases e with
      | closed => trivial
      | word =>
        rcases h with h | ⟨c, r, h, hc⟩
        · simp [hx1] at h
        · exact .inr ⟨c, r ++ (b' ++ u), by rw [← List.append_assoc, h]; rfl, hc⟩
      | line =>
        exfalso
        cases b with
        | nil =>
          rw [hx1] at h
          rcases h with h | ⟨y, h⟩ | ⟨y, h⟩
          · simp at h
          · simp at h; rw [h.1] at hx2; exact absurd hx2 (by decide)
          · simp at h; rw [h.1] at hx2; exact absurd hx2 (by decide)
        | cons z b =>
          have := hb z (by simp)
          rcases h with h | ⟨y, h⟩ | ⟨y, h⟩
          · simp at h
          · simp at h; rw [h.1] at this; rcases this with h | h <;> simp at h
          · simp at h; rw [h.1] at this; rcases this with h | h <;> simp at h
      | attrs e => cases hn
    have hf1 := hfs e hfe hn
    rw [parseAttributes, if_pos (is_attribute hk hh)] at h
    simp only [Option.bind_eq_bind, Option.bind_eq_some_iff, Prod.exists] at h
    obtain ⟨g1, st1, h1, h⟩ := h
    obtain rfl := attribute_reads hk hv ha hf1 hh h1
    obtain ⟨ws, hw, hws, -⟩ := skipWs_at (p := p + utf8Len k + 1 + utf8Len s) (e := []) hb hnb
    rw [hw] at h
    have hh2 : Here source (k2 ++ '>' :: s2 ++ (b' ++ u)) (p + utf8Len k + 1 + utf8Len s + utf8Len b) :=
      hh.tail.cons.tail.tail
    have hpk : AtomStart (St.peek ⟨toksAt (k2 ++ '>' :: s2 ++ (b' ++ u)) (p + utf8Len k + 1 + utf8Len s + utf8Len b), []⟩) := by
      rw [List.append_assoc, List.cons_append, toks_bare hk2 (by simp; rfl) (by simp)]
      simp [St.peek, AtomStart]
    simp only [atomStart_notEnd hc hpk, Bool.false_eq_true, if_false] at h
    simp only [Option.bind_eq_some_iff, Prod.exists, Option.some.injEq, Prod.mk.injEq] at h
    obtain ⟨g3, st3, h3, rfl, rfl⟩ := h
    obtain rfl := hr _ _ _ _ _ _ _ _ hc hb' hu hbare hf hh2 h3
    congr 2
    simp only [utf8Len_append, utf8Len_cons, show '>'.utf8Size = 1 from rfl]
    omega

theorem val_of_attrs {c : Option TokenKind} (hc : Closing c) {es : List Entry} {e : Tail} {s : List Char}
    (ht : AttrsText es e s) (hr : AttrOk s e) : ValOk c s (.attrs e) := by
  intro source b u n p gs st hb hu he hf hh h
  cases n with
  | zero => simp [parseValues] at h
  | succ n =>
    obtain ⟨t, ts, h1, h2, h3, -⟩ := value_head (.attributes ht) hf p
    have hp : AtomStart (St.peek ⟨toksAt (s ++ (b ++ u)) p, []⟩) := by rw [head_peek h1]; exact h2
    obtain ⟨k, s', hk, rfl⟩ := attrs_head ht
    have hat : St.atAttribute source ⟨toksAt (k ++ '>' :: s' ++ (b ++ u)) p, []⟩ = true := by
      rw [List.append_assoc] at hh ⊢
      exact is_attribute hk hh
    rw [parseValues, if_neg (by rw [atomStart_notEnd hc hp]; simp), if_pos hat] at h
    simp only [Option.bind_eq_bind, Option.bind_eq_some_iff,
      Prod.exists, Option.some.injEq, Prod.mk.injEq] at h
    obtain ⟨g1, st1, ⟨g, st', h5, rfl, rfl⟩, g3, st3, h6, rfl, rfl⟩ := h
    obtain rfl := hr _ _ _ _ _ _ _ _ hc hb hu (he.notBare hc) hf.1 hh h5
    obtain ⟨ws, hw, hws, -⟩ := skipWs_at (b := []) (p := p + utf8Len (k ++ '>' :: s') + utf8Len b) (e := [])
      (by simp [Blanks]) hu
    simp only [List.nil_append, utf8Len, Nat.add_zero] at hw
    rw [hw] at h6
    have := values_done (he _ _) h6
    cases this
    rfl

/-! ## Entries -/

theorem entry_pair {c : Option TokenKind} (hc : Closing c) {k : Value} {ke : Tail} {kt : List Char}
    (hk : KeyText k ke kt) {b : List Char} (hb : Blanks b) (hne : b ≠ []) {v : Value} {e : Tail} {s : List Char}
    (hv : ValueText v e s) (hr : ValOk c s e) {source b2 u : List Char} (hb2 : Blanks b2)
    (hu : NoBlank u) (he : EndAt c u) (hf : Follows e (b2 ++ u)) {p n g st}
    (hh : Here source (kt ++ (b ++ (s ++ (b2 ++ u)))) p)
    (h : parseEntry source n c ⟨toksAt (kt ++ (b ++ (s ++ (b2 ++ u)))) p, []⟩ = some (g, st)) :
    st = ⟨toksAt u (p + utf8Len kt + utf8Len b + utf8Len s + utf8Len b2), []⟩ := by
  cases n with
  | zero => simp [parseEntry] at h
  | succ n =>
    obtain ⟨t, ts, h1, h2, h3⟩ := key_head hk (key_follows hk (follows_blanks (s := s ++ (b2 ++ u)) hb hne)) p
    have hp : AtomStart (St.peek ⟨toksAt (kt ++ (b ++ (s ++ (b2 ++ u)))) p, []⟩) := by rw [head_peek h1]; exact h2
    obtain ⟨t', ts', h1', h2', -⟩ := value_head hv hf (p + utf8Len kt + utf8Len b)
    have hs := atomStart_noBlank (s := s ++ (b2 ++ u)) (p := p + utf8Len kt + utf8Len b) (er := [])
      (by rw [head_peek h1']; exact h2')
    rw [parseEntry, if_neg (by rw [not_attribute h1 h3 hh (by rw [gtFollows_blanks hb]; exact hs.2)]; simp),
      if_neg (by rw [atomStart_notEnd hc hp]; simp)] at h
    simp only [Option.bind_eq_bind, Option.bind_eq_some_iff,
      Prod.exists, Option.some.injEq, Prod.mk.injEq] at h
    obtain ⟨g1, st1, ⟨g, st', h5, rfl, rfl⟩, g3, st3, h6, rfl, rfl⟩ := h
    obtain ⟨gk, rfl, hkn, rfl⟩ := atom_key hk (key_follows hk (follows_blanks hb hne)) h5
    obtain ⟨ws, hw, hws, -⟩ := skipWs_at (p := p + utf8Len kt) (e := []) hb hs.1
    rw [hw] at h6
    exact hr _ _ _ _ _ _ _ hb2 hu he hf hh.tail.tail h6

/-- Reading the entries that begin with the tokens `ts` succeeds and leaves the tokens `fin`. -/
def Reads (source : List Char) (c : Option TokenKind) (ts fin : List Token) : Prop :=
  ∀ n g st, parseEntries source n c ⟨ts, []⟩ = some (g, st) → st = ⟨fin, []⟩

variable {source : List Char} {c : Option TokenKind} {fin : List Token}

theorem reads_trivia {t : Token} {ts : List Token} (ht : isTrivia t.kind = true)
    (h : Reads source c ts fin) : Reads source c (t :: ts) fin := by
  intro n g st hp
  rw [peel_trivia _ _ _ _ _ _ ht, Option.map_eq_some_iff] at hp
  obtain ⟨⟨g', st'⟩, h1, h2⟩ := hp
  cases h2
  exact h n g' _ h1

theorem reads_unws {t : Token} {ts : List Token} (ht : t.kind = .whitespace)
    (h : Reads source c (t :: ts) fin) : Reads source c ts fin := by
  intro n g st hp
  exact h n (tokG t :: g) st (by rw [peel_trivia _ _ _ _ _ _ (by rw [ht]; rfl), hp]; rfl)

theorem reads_comma (hc : Closing c) {t : Token} {ts : List Token} (ht : t.kind = .comma)
    (h : Reads source c ts fin) : Reads source c (t :: ts) fin := by
  intro n g st hp
  have hp' := entries_mono source (Nat.le_add_right n 3) hp
  rw [peel_comma _ _ _ _ _ _ ht (by rcases hc with rfl | rfl <;> simp), Option.map_eq_some_iff] at hp'
  obtain ⟨⟨g', st'⟩, h1, h2⟩ := hp'
  cases h2
  exact h _ g' _ h1

theorem reads_doc (hc : Closing c) {t : Token} {ts : List Token} (ht : t.kind = .docComment)
    (h : Reads source c ts fin) : Reads source c (t :: ts) fin := by
  intro n g st hp
  obtain ⟨m, g', h1, h2, h3⟩ := peel_doc (by rcases hc with rfl | rfl <;> simp) ht hp
  exact h m g' st h1

theorem reads_blank {x : Char} (hx : Blank x) {s : List Char} {p : Nat}
    (h : Reads source c (toksAt s (p + 1)) fin) : Reads source c (toksAt (x :: s) p) fin := by
  obtain ⟨b, s', h1, h2, h3, h4, h5⟩ := toks_blank hx s p
  rw [h4]
  refine reads_trivia rfl ?_
  rcases h5 with h5 | ⟨b', h5⟩
  · rwa [h5] at h
  · rw [h5] at h
    exact reads_unws rfl h

theorem reads_blanks {b : List Char} (hb : Blanks b) : ∀ {s : List Char} {p : Nat},
    Reads source c (toksAt s (p + utf8Len b)) fin → Reads source c (toksAt (b ++ s) p) fin := by
  induction b with
  | nil => intro s p h; exact h
  | cons x b ih =>
    intro s p h
    have hx := hb x (by simp)
    refine reads_blank hx (ih (fun y hy => hb y (by simp [hy])) ?_)
    rwa [utf8Len_cons, blank_size hx, ← Nat.add_assoc] at h

theorem reads_gap (hc : Closing c) {g : List Char} (hg : Gap true g) : ∀ {s : List Char} {p : Nat},
    Reads source c (toksAt s (p + utf8Len g)) fin → Reads source c (toksAt (g ++ s) p) fin := by
  induction hg with
  | nil => intro s p h; exact h
  | blank hx _ ih =>
    intro s p h
    refine reads_blank hx (ih ?_)
    rwa [utf8Len_cons, blank_size hx, ← Nat.add_assoc] at h
  | newline hn _ ih =>
    intro s p h
    rw [List.append_assoc, toks_newline hn]
    refine reads_trivia rfl (ih ?_)
    rwa [utf8Len_append, ← Nat.add_assoc] at h
  | comment ht hn _ ih =>
    intro s p h
    rw [List.append_assoc, List.append_assoc, toks_comment ht (lineBreak_atEnd hn _), toks_newline hn]
    refine reads_trivia rfl (reads_trivia rfl (ih ?_))
    rwa [utf8Len_append, utf8Len_append, ← Nat.add_assoc, ← Nat.add_assoc] at h
  | comma _ _ ih =>
    intro s p h
    rw [List.cons_append, toks_comma]
    refine reads_comma hc rfl (ih ?_)
    rwa [utf8Len_cons, show ','.utf8Size = 1 from rfl, ← Nat.add_assoc] at h

theorem reads_docs (hc : Closing c) {ls : List (List Char)} {dt : List Char} (hd : DocLines ls dt) :
    ∀ {s : List Char} {p : Nat},
      Reads source c (toksAt s (p + utf8Len dt)) fin → Reads source c (toksAt (dt ++ s) p) fin := by
  induction hd with
  | nil => intro s p h; exact h
  | @cons l body n g ls t h1 h2 hn hg _ ih =>
    have hbody : ∀ c ∈ body, c ≠ '\n' ∧ c ≠ '\r' := by
      rcases h1 with rfl | ⟨rfl, -⟩
      · intro c hc
        rcases List.mem_cons.1 hc with rfl | hc
        · decide
        · exact h2 c hc
      · exact h2
    intro s p h
    have e0 : '/' :: '/' :: '/' :: body ++ n ++ g ++ t ++ s = '/' :: '/' :: '/' :: body ++ (n ++ (g ++ (t ++ s))) := by
      simp
    rw [e0, toks_doc hbody (lineBreak_atEnd hn _), toks_newline hn]
    refine reads_doc hc rfl (reads_trivia rfl (reads_gap hc hg (ih ?_)))
    simp only [utf8Len_append, Nat.add_assoc] at h ⊢
    exact h

theorem reads_trailing {tr t : List Char} (ht : Trailing tr) (he : EntryEnd tr t)
    {p : Nat} (h : Reads source c (toksAt t (p + utf8Len tr)) fin) : Reads source c (toksAt (tr ++ t) p) fin := by
  cases ht with
  | none => exact h
  | @comment b cm hb hc =>
    have hne : b ++ cm ≠ [] := by
      obtain ⟨r, rfl, -⟩ := hc
      simp
    rw [EntryEnd, if_neg hne] at he
    rw [List.append_assoc]
    refine reads_blanks hb ?_
    rw [toks_comment hc he]
    refine reads_trivia rfl ?_
    rwa [utf8Len_append, ← Nat.add_assoc] at h

theorem after_entry (hc : Closing c) {b u : List Char} {p : Nat} (hb : Blanks b) (hu : NoBlank u)
    (h : Reads source c (toksAt (b ++ u) p) fin) {n : Nat} {g : List Green} {st : St}
    (hp : parseEntries source n c (if St.peek ⟨toksAt u (p + utf8Len b), []⟩ = .comma ∨
      St.peek ⟨toksAt u (p + utf8Len b), []⟩ = .newline then St.bump ⟨toksAt u (p + utf8Len b), []⟩
        else ([], ⟨toksAt u (p + utf8Len b), []⟩)).2 = some (g, st)) : st = ⟨fin, []⟩ := by
  have h' : Reads source c (toksAt u (p + utf8Len b)) fin := by
    by_cases hne : b = []
    · subst hne; exact h
    · rw [toks_blanks hb hne hu] at h
      exact reads_unws rfl h
  obtain ⟨t, ts, hts⟩ : ∃ t ts, toksAt u (p + utf8Len b) = t :: ts := by
    cases u with
    | nil => exact ⟨_, _, toksAt_nil _⟩
    | cons x r =>
      obtain ⟨t, ts, -, h1, -⟩ := toks_head x r (p + utf8Len b)
      exact ⟨t, ts, h1⟩
  rw [hts] at h' hp
  have hpk : St.peek ⟨t :: ts, []⟩ = t.kind := rfl
  simp only [hpk, St.bump] at hp
  by_cases h1 : t.kind = .comma
  · simp only [h1, true_or, if_true] at hp
    exact h' (n + 3) (.node .ENTRY [] :: tokG t :: g) st (by
      rw [peel_comma _ _ _ _ _ _ h1 (by rcases hc with rfl | rfl <;> simp),
        entries_mono source (Nat.le_add_right n 2) hp]
      rfl)
  · by_cases h2 : t.kind = .newline
    · simp only [h2, or_true, if_true] at hp
      exact h' n (tokG t :: g) st (by rw [peel_trivia _ _ _ _ _ _ (by rw [h2]; rfl), hp]; rfl)
    · simp only [h1, h2, or_self, if_false] at hp
      exact h' n g st hp

/-- An entry and what follows. -/
theorem reads_entry (hc : Closing c) {s b u : List Char} {p : Nat}
    (hs : AtomStart (St.peek ⟨toksAt (s ++ (b ++ u)) p, []⟩)) (hb : Blanks b)
    (hu : NoBlank u) (h : Reads source c (toksAt (b ++ u) (p + utf8Len s)) fin)
    (hr : ∀ n g st, parseEntry source n c ⟨toksAt (s ++ (b ++ u)) p, []⟩ = some (g, st) →
      st = ⟨toksAt u (p + utf8Len s + utf8Len b), []⟩) :
    Reads source c (toksAt (s ++ (b ++ u)) p) fin := by
  intro n g st hp
  cases n with
  | zero => simp [parseEntries] at hp
  | succ n =>
    obtain ⟨t, ts, hts⟩ : ∃ t ts, toksAt (s ++ (b ++ u)) p = t :: ts := by
      cases ht : toksAt (s ++ (b ++ u)) p with
      | nil => rw [ht] at hs; simp [St.peek, AtomStart] at hs
      | cons t ts => exact ⟨t, ts, rfl⟩
    have hk : AtomStart t.kind := by rw [hts] at hs; exact hs
    have h1 : St.skipTrivia ⟨t :: ts, []⟩ = ([], ⟨t :: ts, []⟩) := skipTrivia_id (atomStart_notTrivia hk)
    have h2 : bumpDocs false (t :: ts) = ([], t :: ts) := by
      rcases hk with h | h | h | h | h | h | h | h <;> simp [bumpDocs, h]
    have h3 : (St.atEof ⟨t :: ts, []⟩ || c == some (St.peek ⟨t :: ts, []⟩)) = false := by
      rcases hc with rfl | rfl <;> rcases hk with h | h | h | h | h | h | h | h <;> simp [St.atEof, St.peek, h]
    rw [parseEntries_cont, hts] at hp
    simp only [h1, h2] at hp
    rw [cont, if_neg (by rw [h3]; simp)] at hp
    simp only [Option.map_eq_some_iff, Option.bind_eq_some_iff, Prod.exists, Option.some.injEq, Prod.mk.injEq] at hp
    obtain ⟨g', st', ⟨g3, st3, h4, g6, st6, h6, rfl, rfl⟩, rfl, rfl⟩ := hp
    rw [← hts] at h4
    obtain rfl := hr _ _ _ h4
    obtain ⟨ws, hw, hws, hwn⟩ := skipWs_at (b := []) (p := p + utf8Len s + utf8Len b) (e := [])
      (by simp [Blanks]) hu
    simp only [List.nil_append, utf8Len, Nat.add_zero] at hw
    rw [hw] at h6
    exact after_entry hc hb hu h h6

theorem reads_pair (hc : Closing c) {g dt kt b s tr t : List Char}
    {ls : List (List Char)} {k v : Value} {ke e : Tail} {p : Nat}
    (hg : Gap true g) (hd : DocLines ls dt) (hk : KeyText k ke kt) (hb : Blanks b) (hne : b ≠ []) (hv : ValueText v e s)
    (hval : ValOk c s e) (htr : Trailing tr) (hend : EntryEnd tr t)
    (hcl : ∀ b u, t = b ++ '}' :: u → Blanks b → c = some .rbrace) (hf : Follows e (tr ++ t))
    (hh : Here source (g ++ (dt ++ (kt ++ (b ++ (s ++ (tr ++ t)))))) p)
    (h : Reads source c (toksAt t (p + utf8Len (g ++ (dt ++ (kt ++ (b ++ (s ++ tr))))))) fin) :
    Reads source c (toksAt (g ++ (dt ++ (kt ++ (b ++ (s ++ (tr ++ t)))))) p) fin := by
  refine reads_gap hc hg (reads_docs hc hd ?_)
  obtain ⟨b2, u, e1, hb2, hu, he⟩ := entry_rest (c := c) htr hend hcl
  have hrest : Reads source c (toksAt (b2 ++ u) (p + utf8Len g + utf8Len dt + utf8Len (kt ++ (b ++ s)))) fin := by
    rw [← e1]
    refine reads_trailing htr hend ?_
    simpa only [utf8Len_append, Nat.add_assoc] using h
  have hh := hh.tail.tail
  rw [e1] at hh hf ⊢
  obtain ⟨t', ts', h3, h4, -⟩ := key_head hk (key_follows hk (follows_blanks (s := s ++ (b2 ++ u)) hb hne))
    (p + utf8Len g + utf8Len dt)
  have e2 : kt ++ (b ++ (s ++ (b2 ++ u))) = (kt ++ (b ++ s)) ++ (b2 ++ u) := by simp
  have key := reads_entry (fin := fin) hc (s := kt ++ (b ++ s)) (b := b2) (u := u)
    (p := p + utf8Len g + utf8Len dt) (by rw [← e2, head_peek h3]; exact h4) hb2 hu hrest ?_
  · rwa [← e2] at key
  · intro n g st hp
    rw [← e2] at hp
    obtain rfl := entry_pair hc hk hb hne hv hval hb2 hu he hf hh hp
    congr 2
    simp only [utf8Len_append]; omega

theorem reads_lone (hc : Closing c) {g dt kt tr t : List Char}
    {ls : List (List Char)} {k : Value} {ke : Tail} {p : Nat}
    (hg : Gap true g) (hd : DocLines ls dt) (hk : KeyText k ke kt) (htr : Trailing tr) (hend : EntryEnd tr t)
    (hcl : ∀ b u, t = b ++ '}' :: u → Blanks b → c = some .rbrace) (hf : Follows ke (tr ++ t))
    (hh : Here source (g ++ (dt ++ (kt ++ (tr ++ t)))) p)
    (h : Reads source c (toksAt t (p + utf8Len (g ++ (dt ++ (kt ++ tr))))) fin) :
    Reads source c (toksAt (g ++ (dt ++ (kt ++ (tr ++ t)))) p) fin := by
  refine reads_gap hc hg (reads_docs hc hd ?_)
  obtain ⟨b2, u, e1, hb2, hu, he⟩ := entry_rest (c := c) htr hend hcl
  have hrest : Reads source c (toksAt (b2 ++ u) (p + utf8Len g + utf8Len dt + utf8Len kt)) fin := by
    rw [← e1]
    refine reads_trailing htr hend ?_
    simpa only [utf8Len_append, Nat.add_assoc] using h
  have hh := hh.tail.tail
  rw [e1] at hh hf ⊢
  obtain ⟨t', ts', h3, h4, -⟩ := key_head hk hf (p + utf8Len g + utf8Len dt)
  refine reads_entry hc (s := kt) (b := b2) (u := u)
    (p := p + utf8Len g + utf8Len dt) (by rw [head_peek h3]; exact h4) hb2 hu hrest ?_
  intro n g st hp
  obtain ⟨gk, cs, rfl, h5, h7, rfl⟩ := entry_lone hc hk hb2 hu he hf hh hp
  rfl

/-! ## Items -/

/-- Reading the items that begin with the tokens `ts` succeeds and leaves the tokens `fin`. -/
def IReads (source : List Char) (ts fin : List Token) : Prop :=
  ∀ n g st, parseItems source n ⟨ts, []⟩ = some (g, st) → st = ⟨fin, []⟩

theorem ireads_trivia {t : Token} {ts : List Token} (ht : isTrivia t.kind = true)
    (h : IReads source ts fin) : IReads source (t :: ts) fin := by
  intro n g st hp
  rw [items_trivia _ _ _ _ _ ht, Option.map_eq_some_iff] at hp
  obtain ⟨⟨g', st'⟩, h1, h2⟩ := hp
  cases h2
  exact h n g' _ h1

theorem ireads_unws {t : Token} {ts : List Token} (ht : t.kind = .whitespace)
    (h : IReads source (t :: ts) fin) : IReads source ts fin := by
  intro n g st hp
  exact h n (tokG t :: g) st (by rw [items_trivia _ _ _ _ _ (by rw [ht]; rfl), hp]; rfl)

theorem ireads_gap {g : List Char} (hg : Gap false g) : ∀ {s : List Char} {p : Nat},
    IReads source (toksAt s (p + utf8Len g)) fin → IReads source (toksAt (g ++ s) p) fin := by
  induction hg with
  | nil => intro s p h; exact h
  | blank hx _ ih =>
    rename_i x g' _
    intro s p h
    rw [utf8Len_cons, blank_size hx, ← Nat.add_assoc] at h
    have h := ih h
    obtain ⟨b, s', h1, h2, h3, h4, h5⟩ := toks_blank hx (g' ++ s) p
    rw [List.cons_append, h4]
    refine ireads_trivia rfl ?_
    rcases h5 with h5 | ⟨b', h5⟩
    · rwa [h5] at h
    · rw [h5] at h
      exact ireads_unws rfl h
  | newline hn _ ih =>
    intro s p h
    rw [List.append_assoc, toks_newline hn]
    refine ireads_trivia rfl (ih ?_)
    rwa [utf8Len_append, ← Nat.add_assoc] at h
  | comment ht hn _ ih =>
    intro s p h
    rw [List.append_assoc, List.append_assoc, toks_comment ht (lineBreak_atEnd hn _), toks_newline hn]
    refine ireads_trivia rfl (ireads_trivia rfl (ih ?_))
    rwa [utf8Len_append, utf8Len_append, ← Nat.add_assoc, ← Nat.add_assoc] at h
  | comma h _ _ => cases h

/-- An item and what follows. -/
theorem ireads_item {v : Value} {e : Tail} {s rest : List Char} {p : Nat} (hv : ValueText v e s)
    (ha : AtomOk s e) (hf : Follows e rest) (hh : Here source (s ++ rest) p)
    (h : IReads source (toksAt rest (p + utf8Len s)) fin) : IReads source (toksAt (s ++ rest) p) fin := by
  intro n gs st hp
  cases n with
  | zero => simp [parseItems] at hp
  | succ n =>
    obtain ⟨t, ts, h1, h2, h3, -⟩ := value_head hv hf p
    rw [parseItems, h1, skipTrivia_id (atomStart_notTrivia h2)] at hp
    have h4 : St.atEof ⟨t :: ts, []⟩ = false := by
      rcases h2 with h | h | h | h | h | h | h | h <;> simp [St.atEof, St.peek, h]
    have h5 : ¬ St.peek ⟨t :: ts, []⟩ = .rparen := by
      rcases h2 with h | h | h | h | h | h | h | h <;> simp [St.peek, h]
    simp only [h4, Bool.false_eq_true, if_false, h5, Option.bind_eq_bind, Option.bind_eq_some_iff, Prod.exists,
      Option.some.injEq, Prod.mk.injEq] at hp
    obtain ⟨g2, st2, h6, g4, st4, h7, rfl, rfl⟩ := hp
    rw [← h1] at h6
    obtain rfl := ha _ _ _ _ _ _ hf hh h6
    have h8 : parseItems source n ⟨toksAt rest (p + utf8Len s), []⟩ =
        some ((St.skipWs ⟨toksAt rest (p + utf8Len s), []⟩).1 ++ g4, st4) := by
      rw [items_skipWs, h7]; rfl
    exact h _ _ _ h8

/-! ## All values -/

/-- Reading the items of a sequence succeeds. -/
def ItemsOk (t : List Char) : Prop :=
  ∃ t', t = t' ++ [')'] ∧ ∀ source rest p, Here source (t' ++ ')' :: rest) p →
    IReads source (toksAt (t' ++ ')' :: rest) p) (toksAt (')' :: rest) (p + utf8Len t'))

/-- Reading the entries of an object succeeds. -/
def EntriesOk (t : List Char) : Prop :=
  ∃ t', t = t' ++ ['}'] ∧ ∀ source rest p, Here source (t' ++ '}' :: rest) p →
    Reads source (some .rbrace) (toksAt (t' ++ '}' :: rest) p) (toksAt ('}' :: rest) (p + utf8Len t'))

theorem atom_sequence {t : List Char} (h : ItemsOk t) : AtomOk ('(' :: t) .closed := by
  obtain ⟨t', rfl, h⟩ := h
  intro source rest n p gs st _ hh hp
  cases n with
  | zero => simp [parseAtom] at hp
  | succ n =>
    have e0 : '(' :: (t' ++ [')']) ++ rest = '(' :: (t' ++ ')' :: rest) := by simp
    rw [e0] at hh hp
    rw [toks_lparen] at hp
    rw [parseAtom.eq_def] at hp
    have hpk : St.peek ⟨⟨TokenKind.lparen, p, p + 1, ['(']⟩ :: toksAt (t' ++ ')' :: rest) (p + 1), []⟩ = .lparen := rfl
    have hbp : St.bump ⟨⟨TokenKind.lparen, p, p + 1, ['(']⟩ :: toksAt (t' ++ ')' :: rest) (p + 1), []⟩ =
      ([.token .L_PAREN ['(']], ⟨toksAt (t' ++ ')' :: rest) (p + 1), []⟩) := rfl
    simp only [hpk, hbp, Option.bind_eq_bind,
      Option.bind_eq_some_iff, Prod.exists, Option.some.injEq, Prod.mk.injEq] at hp
    obtain ⟨g2, st2, h1, h2, h3⟩ := hp
    obtain rfl := h _ _ _ hh.cons _ _ _ h1
    rw [toks_rparen] at h3
    simp only [St.peek, St.bump, List.head?_cons, Option.map_some, Option.getD_some, if_true, SyntaxKind.ofToken] at h3
    subst h3
    congr 2
    simp only [utf8Len_append, utf8Len, show '('.utf8Size = 1 from rfl, show ')'.utf8Size = 1 from rfl]
    omega

theorem atom_object {t : List Char} (h : EntriesOk t) : AtomOk ('{' :: t) .closed := by
  obtain ⟨t', rfl, h⟩ := h
  intro source rest n p gs st _ hh hp
  cases n with
  | zero => simp [parseAtom] at hp
  | succ n =>
    have e0 : '{' :: (t' ++ ['}']) ++ rest = '{' :: (t' ++ '}' :: rest) := by simp
    rw [e0] at hh hp
    rw [toks_lbrace] at hp
    rw [parseAtom.eq_def] at hp
    have hpk : St.peek ⟨⟨TokenKind.lbrace, p, p + 1, ['{']⟩ :: toksAt (t' ++ '}' :: rest) (p + 1), []⟩ = .lbrace := rfl
    have hbp : St.bump ⟨⟨TokenKind.lbrace, p, p + 1, ['{']⟩ :: toksAt (t' ++ '}' :: rest) (p + 1), []⟩ =
      ([.token .L_BRACE ['{']], ⟨toksAt (t' ++ '}' :: rest) (p + 1), []⟩) := rfl
    simp only [hpk, hbp, Option.bind_eq_bind,
      Option.bind_eq_some_iff, Prod.exists, Option.some.injEq, Prod.mk.injEq] at hp
    obtain ⟨g2, st2, h1, h2, h3⟩ := hp
    obtain rfl := h _ _ _ hh.cons _ _ _ h1
    rw [toks_rbrace, skipTrivia_id rfl] at h3
    simp only [St.peek, St.bump, List.head?_cons, Option.map_some, Option.getD_some, if_true,
      SyntaxKind.ofToken] at h3
    subst h3
    congr 2
    simp only [utf8Len_append, utf8Len, show '{'.utf8Size = 1 from rfl, show '}'.utf8Size = 1 from rfl]
    omega

theorem items_end {rest : List Char} {p : Nat} : IReads source (toksAt (')' :: rest) p) (toksAt (')' :: rest) p) := by
  intro n g st hp
  cases n with
  | zero => simp [parseItems] at hp
  | succ n =>
    rw [toks_rparen] at hp ⊢
    rw [parseItems, skipTrivia_id rfl] at hp
    simp only [St.atEof, St.peek, List.head?_cons, Option.map_some, Option.getD_some, if_true, beq_iff_eq,
      reduceCtorEq, if_false, Option.some.injEq, Prod.mk.injEq] at hp
    exact hp.2.symm

theorem entries_end {rest : List Char} {p : Nat} :
    Reads source (some .rbrace) (toksAt ('}' :: rest) p) (toksAt ('}' :: rest) p) := by
  intro n g st hp
  cases n with
  | zero => simp [parseEntries] at hp
  | succ n =>
    rw [toks_rbrace] at hp ⊢
    rw [parseEntries_cont, skipTrivia_id rfl] at hp
    simp only [bumpDocs, reduceCtorEq, and_false, or_self, if_false, Bool.false_eq_true] at hp
    rw [cont, if_pos (by simp [St.peek])] at hp
    cases hp
    rfl

theorem atom_of_scalar {v k e s} (hs : ScalarText v k e s) : AtomOk s e := by
  intro source rest n p gs st hf _ hp
  by_cases hk : k = .heredoc
  · subst hk
    obtain ⟨cs, rfl, rfl, ht, rfl, -⟩ := atom_heredoc hs hf hp
    rfl
  · obtain ⟨tk, h1, rfl, rfl⟩ := atom_scalar hs hk hf hp
    rfl

theorem atom_of_tagged {n s : List Char} {p : Payload} {e : Tail} (hn : TagName n)
    (hv : ValueText (.mk none (some p) none) e s) (hp : PayloadStart n s) (ha : AtomOk s e) :
    AtomOk ('@' :: n ++ s) e := by
  intro source rest m q gs st hf hh h
  rw [List.append_assoc] at hh h
  obtain ⟨m', g, h1, rfl⟩ := atom_tagged hn hp (payload_head hv hp hf) h
  obtain rfl := ha _ _ _ _ _ _ hf hh.tail h1
  rw [utf8Len_append, Nat.add_assoc]

/-- The condition on the text `s` of a value `v`: no attributes at all, or no sequence with an object as an item. -/
def Plain (s : List Char) (v : Value) : Prop := '>' ∉ s ∨ NoObjectItems v

theorem node_trans {x y z : Value} (h : Node x y) (g : Node y z) : Node x z := by
  induction g with
  | self => exact h
  | inside hc _ ih => exact .inside hc ih

theorem Plain.child {s s' : List Char} {v w : Value} (h : Plain s v) (hs : ∀ c ∈ s', c ∈ s) (hc : Child w v) :
    Plain s' w := by
  rcases h with h | h
  · exact .inl fun hm => h (hs _ hm)
  · exact .inr fun t items psp sp hn => h t items psp sp (node_trans hn (.inside hc .self))

theorem Plain.payload {s s' : List Char} {t : Option Tag} {p : Payload} {sp : Option Span} (hs : ∀ c ∈ s', c ∈ s)
    (h : Plain s (.mk t (some p) sp)) : Plain s' (.mk none (some p) sp) := by
  rcases h with h | h
  · exact .inl fun hm => h (hs _ hm)
  · refine .inr fun t' items psp sp' hn => ?_
    cases hn with
    | self => exact h t items psp sp .self
    | inside hc hn =>
      refine h t' items psp sp' (.inside ?_ hn)
      cases hc with
      | item hm => exact .item hm
      | key hm => exact .key hm
      | value hm => exact .value hm

/-- The parser reports nothing in the text of a value. -/
theorem value_ok {v : Value} {e : Tail} {s : List Char} (h : ValueText v e s) :
    Plain s v → (e.notAttrs → AtomOk s e) ∧ ∀ c, Closing c → ValOk c s e := by
  have fin : ∀ {v e s}, ValueText v e s → e.notAttrs → AtomOk s e →
      (e.notAttrs → AtomOk s e) ∧ ∀ c, Closing c → ValOk c s e :=
    fun hv hn ha => ⟨fun _ => ha, fun _ hc => val_of_atom hc hv hn ha⟩
  refine ValueText.rec
    (motive_1 := fun v e s _ => Plain s v → (e.notAttrs → AtomOk s e) ∧ ∀ c, Closing c → ValOk c s e)
    (motive_2 := fun vs t _ => ('>' ∉ t ∨ (∀ v ∈ vs, NoObjectItems v) ∧
      ∀ es o sp', Value.mk none (some (.object es o)) sp' ∉ vs) → ItemsOk t)
    (motive_3 := fun es t _ => ('>' ∉ t ∨ ∀ k v d, Entry.mk k v d ∈ es → NoObjectItems v) → EntriesOk t)
    (motive_4 := fun es e t _ => (∀ k v d, Entry.mk k v d ∈ es → NoObjectItems v) → AttrOk t e)
    ?_ ?_ ?_ ?_ ?_ ?_ ?_ ?_ ?_ ?_ ?_ ?_ ?_ ?_ h
  · -- scalar
    intro v k e s hs _
    exact fin (.scalar hs) (by cases hs <;> trivial) (atom_of_scalar hs)
  · -- unit
    intro _
    refine fin .unit trivial ?_
    intro source rest n p gs st hf _ hp
    obtain ⟨rfl, rfl⟩ := atom_unit hf hp
    rfl
  · -- tag
    intro n hn _
    refine fin (.tag hn) trivial ?_
    intro source rest m p gs st hf _ hp
    obtain ⟨rfl, rfl⟩ := atom_tag hn hf hp
    rfl
  · -- tagged
    intro n p e s hn hv hp ih hpl
    have hne : e.notAttrs := by
      generalize hval : Value.mk none (some p) none = v at hv
      cases hv with
      | scalar hs => cases hs <;> trivial
      | unit => trivial
      | tag _ => trivial
      | tagged _ _ _ => cases hval
      | sequence _ => trivial
      | object _ _ => trivial
      | attributes ht =>
        obtain ⟨k, s', hk, rfl⟩ := attrs_head ht
        exact (bareText_no_payload hk (x := '>' :: s') (by simp) hp).elim
    exact fin (.tagged hn hv hp) hne (atom_of_tagged hn hv hp ((ih (hpl.payload (by simp +contextual))).1 hne))
  · -- sequence
    intro vs t ht ih hpl
    refine fin (.sequence ht) trivial (atom_sequence (ih ?_))
    rcases hpl with h | h
    · exact .inl fun hm => h (by simp [hm])
    · exact .inr ⟨fun v hv t items psp sp hn => h t items psp sp (.inside (.item hv) hn),
        fun es o sp' => h _ _ _ _ .self es o sp'⟩
  · -- object
    intro es t ht hd ih hpl
    refine fin (.object ht hd) trivial (atom_object (ih ?_))
    rcases hpl with h | h
    · exact .inl fun hm => h (by simp [hm])
    · exact .inr fun k v d hm t items psp sp hn => h t items psp sp (.inside (.value hm) hn)
  · -- attributes
    intro es e t ht ih hpl
    refine ⟨fun h => h.elim, fun c hc => val_of_attrs hc ht (ih ?_)⟩
    rcases hpl with h | h
    · obtain ⟨k, s', hk, rfl⟩ := attrs_head ht
      exact absurd (by simp) h
    · exact fun k v d hm t items psp sp hn => h t items psp sp (.inside (.value hm) hn)
  · -- no items
    intro g hg _
    refine ⟨g, rfl, fun source rest p _ => ?_⟩
    exact ireads_gap hg items_end
  · -- an item
    intro g v e s vs t hg hv ht hf ihv iht hpl
    have hn : e.notAttrs := by
      cases e with
      | attrs e' =>
        exfalso
        have hobj : ∃ es, v = .mk none (some (.object es none)) none ∧ '>' ∈ s := by
          cases hv with
          | scalar hs => cases hs
          | tagged _ hv hp =>
            cases hv with
            | scalar hs => cases hs
            | attributes ht =>
              obtain ⟨k, s', hk, rfl⟩ := attrs_head ht
              exact (bareText_no_payload hk (x := '>' :: s') (by simp) hp).elim
          | attributes ht =>
            obtain ⟨k, s', hk, rfl⟩ := attrs_head ht
            exact ⟨_, rfl, by simp⟩
        obtain ⟨es, rfl, hm⟩ := hobj
        rcases hpl with h | ⟨-, h⟩
        · exact h (by simp [hm])
        · exact h es none none (by simp)
      | _ => trivial
    obtain ⟨t', rfl, hrd⟩ := iht (by
      rcases hpl with h | ⟨h1, h2⟩
      · exact .inl fun hm => h (List.mem_append_right _ hm)
      · exact .inr ⟨fun v hv => h1 v (by simp [hv]), fun es o sp' hm => h2 es o sp' (by simp [hm])⟩)
    have ihv := (ihv (by
      rcases hpl with h | ⟨h1, h2⟩
      · exact .inl fun hm => h (by simp [hm])
      · exact .inr (h1 v (by simp)))).1 hn
    refine ⟨g ++ s ++ t', by simp, fun source rest p hh => ?_⟩
    have e0 : g ++ s ++ t' ++ ')' :: rest = g ++ (s ++ (t' ++ ')' :: rest)) := by simp
    rw [e0] at hh ⊢
    refine ireads_gap hg ?_
    have hf' : Follows e (t' ++ ')' :: rest) := by
      have := follows_append hf (snoc_ink t' [] rfl) rest
      simpa using this
    refine ireads_item hv ihv hf' hh.tail ?_
    have := hrd _ rest _ hh.tail.tail
    simpa only [utf8Len_append, Nat.add_assoc] using this
  · -- no entries
    intro g hg _
    refine ⟨g, rfl, fun source rest p _ => ?_⟩
    exact reads_gap (.inr rfl) hg entries_end
  · -- an entry with a value
    intro g ls dt k ke kt b v e s tr es t hg hd hk hb hne hv htr ht hf hend ihv iht hpl
    obtain ⟨t', rfl, hrd⟩ := iht (by
      rcases hpl with h | h
      · exact .inl fun hm => h (List.mem_append_right _ hm)
      · exact .inr fun k v d hm => h k v d (by simp [hm]))
    have ihv := (ihv (by
      rcases hpl with h | h
      · exact .inl fun hm => h (by simp [hm])
      · exact .inr (h k v _ (List.mem_cons_self ..)))).2 _ (.inr rfl)
    refine ⟨g ++ dt ++ kt ++ b ++ s ++ tr ++ t', by simp, fun source rest p hh => ?_⟩
    have e0 : g ++ dt ++ kt ++ b ++ s ++ tr ++ t' ++ '}' :: rest =
        g ++ (dt ++ (kt ++ (b ++ (s ++ (tr ++ (t' ++ '}' :: rest)))))) := by simp
    rw [e0] at hh ⊢
    have hf' : Follows e (tr ++ (t' ++ '}' :: rest)) := by
      have := follows_append hf ((snoc_ink t' [] rfl).append_right tr) rest
      simpa using this
    have hend' : EntryEnd tr (t' ++ '}' :: rest) := by
      have := entryEnd_append hend (snoc_ink t' [] rfl) rest
      simpa using this
    refine reads_pair (.inr rfl) hg hd hk hb hne hv ihv htr hend' (fun _ _ _ _ => rfl) hf' hh ?_
    have := hrd source rest _ hh.tail.tail.tail.tail.tail.tail
    simpa only [utf8Len_append, Nat.add_assoc] using this
  · -- an entry without a value
    intro g ls dt k ke kt tr es t hg hd hk htr ht hf hend iht hpl
    obtain ⟨t', rfl, hrd⟩ := iht (by
      rcases hpl with h | h
      · exact .inl fun hm => h (List.mem_append_right _ hm)
      · exact .inr fun k v d hm => h k v d (by simp [hm]))
    refine ⟨g ++ dt ++ kt ++ tr ++ t', by simp, fun source rest p hh => ?_⟩
    have e0 : g ++ dt ++ kt ++ tr ++ t' ++ '}' :: rest =
        g ++ (dt ++ (kt ++ (tr ++ (t' ++ '}' :: rest)))) := by simp
    rw [e0] at hh ⊢
    have hf' : Follows ke (tr ++ (t' ++ '}' :: rest)) := by
      have := follows_append hf ((snoc_ink t' [] rfl).append_right tr) rest
      simpa using this
    have hend' : EntryEnd tr (t' ++ '}' :: rest) := by
      have := entryEnd_append hend (snoc_ink t' [] rfl) rest
      simpa using this
    refine reads_lone (.inr rfl) hg hd hk htr hend' (fun _ _ _ _ => rfl) hf' hh ?_
    have := hrd source rest _ hh.tail.tail.tail.tail
    simpa only [utf8Len_append, Nat.add_assoc] using this
  · -- one attribute
    intro k v e s hk hv hn ih hpl
    exact attrs_one hk hv ((ih (.inr (hpl _ _ _ (List.mem_cons_self ..)))).1 hn)
  · -- an attribute and more
    intro k v e s b es e' t hk hv hn hb ht hf ihv iht hpl
    exact attrs_cons hk hv hn hb ht hf ((ihv (.inr (hpl _ _ _ (List.mem_cons_self ..)))).1 hn)
      (iht fun k v d hm => hpl k v d (by simp [hm]))

/-! ## Documents -/

theorem root_ok {es : List RootEntry} {s : List Char} (h : RootText es s) :
    ('>' ∉ s ∨ ∀ e ∈ es, NoObjectItems e.value) →
    ∀ p, Here source s p → Reads source none (toksAt s p) (toksAt [] (p + utf8Len s)) := by
  induction h with
  | nil hg =>
    rename_i g
    intro _ p _
    have : Reads source none (toksAt (g ++ []) p) (toksAt [] (p + utf8Len g)) := by
      refine reads_gap (.inl rfl) hg ?_
      intro n g st hp
      cases n with
      | zero => simp [parseEntries] at hp
      | succ n =>
        rw [toksAt_nil, parseEntries_cont, skipTrivia_id rfl] at hp
        simp only [bumpDocs, reduceCtorEq, and_false, or_self, if_false, Bool.false_eq_true] at hp
        rw [cont, if_pos (by simp [St.peek, St.atEof])] at hp
        cases hp
        rfl
    simpa using this
  | cons hg hd hk hb hne hv htr ht hf hend ih =>
    intro hpl p hh
    have ih := ih (by
      rcases hpl with h | h
      · exact .inl fun hm => h (List.mem_append_right _ hm)
      · exact .inr fun e he => h e (by simp [he]))
    have hval := (value_ok hv (by
      rcases hpl with h | h
      · exact .inl fun hm => h (by simp [hm])
      · exact .inr (h _ (List.mem_cons_self ..)))).2 _ (.inl rfl)
    obtain ⟨k, hk'⟩ := rootKey hk
    simp only [List.append_assoc] at hh ⊢
    refine reads_pair (.inl rfl) hg hd hk' hb hne hv hval htr hend
      (fun b u e hb => (noBrace_root ht b u e hb).elim) hf hh ?_
    have := ih _ (by have := hh.tail.tail.tail.tail.tail.tail; simpa only [utf8Len_append, Nat.add_assoc] using this)
    simpa only [utf8Len_append, Nat.add_assoc] using this
  | lone hg hd hk htr ht hf hend ih =>
    intro hpl p hh
    have ih := ih (by
      rcases hpl with h | h
      · exact .inl fun hm => h (List.mem_append_right _ hm)
      · exact .inr fun e he => h e (by simp [he]))
    obtain ⟨k, hk'⟩ := rootKey hk
    simp only [List.append_assoc] at hh ⊢
    refine reads_lone (.inl rfl) hg hd hk' htr hend
      (fun b u e hb => (noBrace_root ht b u e hb).elim) hf hh ?_
    have := ih _ (by have := hh.tail.tail.tail.tail; simpa only [utf8Len_append, Nat.add_assoc] using this)
    simpa only [utf8Len_append, Nat.add_assoc] using this

/-- The parser for concrete syntax trees reports nothing in the text of a document. -/
theorem root_clean {es : List RootEntry} {s : List Char} (h : RootText es s)
    (hp : '>' ∉ s ∨ ∀ e ∈ es, NoObjectItems e.value) : (parse s).errors = [] := by
  obtain ⟨g, st, h1, h2, -⟩ := parse_spec s
  rw [tokenIter_eq] at h1
  rw [h2, root_ok h hp 0 ⟨[], rfl, rfl⟩ _ _ _ h1]

end Styx.Cst.Sound
