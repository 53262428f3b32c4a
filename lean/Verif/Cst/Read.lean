import Verif.Cst.Denote

/-! # What the parser for concrete syntax trees makes of the texts of the grammar -/

namespace Styx.Cst

open Styx Styx.Spec

/-! ## Positions -/

/-- The text `s` stands in the source at byte `p`, up to the end. -/
def Here (source s : List Char) (p : Nat) : Prop := ∃ pre, source = pre ++ s ∧ p = utf8Len pre

theorem Here.tail {source a b : List Char} {p : Nat} (h : Here source (a ++ b) p) : Here source b (p + utf8Len a) := by
  obtain ⟨pre, rfl, rfl⟩ := h
  exact ⟨pre ++ a, by simp, by rw [utf8Len_append]⟩

theorem Here.cons {source b : List Char} {c : Char} {p : Nat} (h : Here source (c :: b) p) :
    Here source b (p + c.utf8Size) := by
  have := Here.tail (a := [c]) h
  simpa [utf8Len] using this

theorem dropBytes_self (a b : List Char) : Styx.dropBytes (utf8Len a) (a ++ b) = some b := by
  induction a with
  | nil => simp [utf8Len, Styx.dropBytes]
  | cons c cs ih =>
    have hc := Char.utf8Size_pos c
    obtain ⟨k, hk⟩ : ∃ k, utf8Len (c :: cs) = k + 1 := ⟨utf8Len (c :: cs) - 1, by simp [utf8Len]; omega⟩
    have hk2 : k + 1 = c.utf8Size + utf8Len cs := by rw [← hk]; rfl
    rw [hk, List.cons_append, Styx.dropBytes, if_pos (by omega)]
    rw [show k + 1 - c.utf8Size = utf8Len cs by omega, ih]

theorem Here.drop {source s : List Char} {p : Nat} (h : Here source s p) : Styx.dropBytes p source = some s := by
  obtain ⟨pre, rfl, rfl⟩ := h
  exact dropBytes_self pre s

/-! ## The first token -/

theorem blank_peek {c : Char} (hc : Blank c) (s : List Char) (p : Nat) (e : List PErr) :
    St.peek ⟨toksAt (c :: s) p, e⟩ = .whitespace := by
  obtain ⟨b, s', -, -, -, h, -⟩ := toks_blank hc s p
  simp [St.peek, h]

theorem notBlank_of_peek {s : List Char} {p : Nat} {e : List PErr} (h : St.peek ⟨toksAt s p, e⟩ ≠ .whitespace) :
    ∀ c r, s = c :: r → isBlank c = false := by
  rintro c r rfl
  cases hc : isBlank c with
  | false => rfl
  | true => exact absurd (blank_peek ((blank_iff c).2 hc) r p e) h

theorem gt_peek (s : List Char) (p : Nat) (e : List PErr) : St.peek ⟨toksAt ('>' :: s) p, e⟩ = .gt := by
  rw [toks_gt]; rfl

theorem gtFollows_blanks {b s : List Char} (hb : Blanks b) : gtFollows (b ++ s) = gtFollows s := by
  induction b with
  | nil => rfl
  | cons c b ih =>
    rw [List.cons_append, gtFollows, if_pos, ih (fun x hx => hb x (by simp [hx]))]
    rcases hb c (by simp) with rfl | rfl <;> rfl

theorem gtFollows_of_head {s : List Char} (h : ∀ c r, s = c :: r → isBlank c = false ∧ c ≠ '>') : gtFollows s = false := by
  cases s with
  | nil => rfl
  | cons c r =>
    obtain ⟨h1, h2⟩ := h c r rfl
    rw [gtFollows]
    have : (c == ' ' || c == '\t') = false := by simpa [isBlank] using h1
    rw [this]
    simpa using h2

/-- Spaces between tokens. -/
theorem skipWs_at {b s : List Char} {p : Nat} {e : List PErr} (hb : Blanks b)
    (hs : ∀ c r, s = c :: r → isBlank c = false) :
    ∃ ws, St.skipWs ⟨toksAt (b ++ s) p, e⟩ = (ws, ⟨toksAt s (p + utf8Len b), e⟩) ∧ (∀ g ∈ ws, IsWs g) ∧
      hasToken .NEWLINE ws = false := by
  have h0 : St.skipWs ⟨toksAt s (p + utf8Len b), e⟩ = ([], ⟨toksAt s (p + utf8Len b), e⟩) := by
    apply skipWs_id
    intro hp
    cases s with
    | nil => simp [St.peek, toksAt_nil] at hp
    | cons c r =>
      obtain ⟨t, ts, r', h1, -, h3, h4, -⟩ := toks_head c r (p + utf8Len b)
      have : t.kind = .whitespace := by simpa [St.peek, h1] using hp
      rw [this] at h4
      have := (blank_iff c).1 (h4.2 c (by simp))
      rw [hs c r rfl] at this
      cases this
  by_cases hne : b = []
  · subst hne
    exact ⟨[], by simpa using h0, by simp, rfl⟩
  · rw [toks_blanks hb hne hs]
    refine ⟨[.token .WHITESPACE b], ?_, by simp [IsWs], rfl⟩
    simp only [St.skipWs, St.bumpWhile] at h0 ⊢
    simp only [bumpWhile, Prod.mk.injEq, St.mk.injEq] at h0 ⊢
    simp [h0, SyntaxKind.ofToken]

/-- The kinds of tokens with which an atom begins. -/
def AtomStart (k : TokenKind) : Prop :=
  k = .lbrace ∨ k = .lparen ∨ k = .at ∨ k = .tag ∨ k = .bareScalar ∨ k = .quotedScalar ∨ k = .rawScalar ∨
    k = .heredocStart

theorem attrs_head {es : List Entry} {e : Tail} {s : List Char} (ha : AttrsText es e s) :
    ∃ k s', BareText k ∧ s = k ++ '>' :: s' := by
  cases ha with
  | one hk _ _ => exact ⟨_, _, hk, rfl⟩
  | cons hk => exact ⟨_, _, hk, by simp; rfl⟩

/-- The first token of a value. -/
theorem value_head {v : Value} {e : Tail} {s rest : List Char} (hv : ValueText v e s) (hf : Follows e rest) (p : Nat) :
    ∃ t ts, toksAt (s ++ rest) p = t :: ts ∧ AtomStart t.kind ∧ t.start = p ∧
      (e.notAttrs → t.kind = .bareScalar → t.stop = p + utf8Len s) := by
  cases hv with
  | scalar hs =>
    rename_i v k
    by_cases hk : k = .heredoc
    · subst hk
      cases hs with
      | heredoc hd hl hn hi hls =>
        obtain ⟨t1, mid, t2, h1, h2, -⟩ := toks_heredoc (rest := rest) hd hl hn hi hf hls p
        obtain ⟨t, ts, r, h3, h4, -⟩ := toks_head '<' (_ ++ rest) p
        refine ⟨t1, _, h1, by simp [AtomStart, h2], ?_, by simp [h2]⟩
        rw [List.cons_append] at h1
        have := h1.symm.trans h3
        simp only [List.cons_append, List.cons.injEq] at this
        rw [this.1, h4]
    · obtain ⟨tk, h1, h2⟩ := toks_scalar hs hk hf p
      refine ⟨_, _, h1, ?_, rfl, fun _ _ => rfl⟩
      rcases h2 with ⟨-, rfl, -⟩ | rfl | rfl <;> simp [AtomStart]
  | unit => exact ⟨_, _, toks_unit hf p, by simp [AtomStart], rfl, by simp⟩
  | tag hn => exact ⟨_, _, toks_tag hn hf p, by simp [AtomStart], rfl, by simp⟩
  | tagged hn hv hp =>
    rw [List.append_assoc]
    exact ⟨_, _, toks_tagPayload hn hp p, by simp [AtomStart], rfl, by simp⟩
  | sequence _ => exact ⟨_, _, toks_lparen _ p, by simp [AtomStart], rfl, by simp⟩
  | object _ _ => exact ⟨_, _, toks_lbrace _ p, by simp [AtomStart], rfl, by simp⟩
  | attributes ha =>
    obtain ⟨k, s', hk, rfl⟩ := attrs_head ha
    rw [List.append_assoc]
    exact ⟨_, _, toks_bare hk (by simp; rfl) (by simp) p, by simp [AtomStart], rfl, fun h => by cases h⟩

theorem key_head {k : Value} {e : Tail} {s rest : List Char} (hv : KeyText k e s) (hf : Follows e rest) (p : Nat) :
    ∃ t ts, toksAt (s ++ rest) p = t :: ts ∧ AtomStart t.kind ∧ (t.kind = .bareScalar → t.stop = p + utf8Len s) := by
  cases hv with
  | scalar hs hk =>
    obtain ⟨tk, h1, h2⟩ := toks_scalar hs hk hf p
    refine ⟨_, _, h1, ?_, fun _ => rfl⟩
    rcases h2 with ⟨-, rfl, -⟩ | rfl | rfl <;> simp [AtomStart]
  | unit => exact ⟨_, _, toks_unit hf p, by simp [AtomStart], by simp⟩
  | tag hn => exact ⟨_, _, toks_tag hn hf p, by simp [AtomStart], by simp⟩
  | tagged hn hv hp =>
    rw [List.append_assoc]
    exact ⟨_, _, toks_tagPayload hn hp p, by simp [AtomStart], by simp⟩

theorem not_attribute {source s rest : List Char} {p : Nat} {t : Token} {ts : List Token} {e : List PErr}
    (h : toksAt (s ++ rest) p = t :: ts) (hb : t.kind = .bareScalar → t.stop = p + utf8Len s)
    (hh : Here source (s ++ rest) p) (hg : gtFollows rest = false) :
    St.atAttribute source ⟨toksAt (s ++ rest) p, e⟩ = false := by
  rw [h]
  by_cases hk : t.kind = .bareScalar
  · simp only [St.atAttribute, hb hk, hh.tail.drop, hg, Bool.and_false]
  · simp [St.atAttribute, hk]

theorem is_attribute {source k s : List Char} {p : Nat} {e : List PErr} (hk : BareText k)
    (hh : Here source (k ++ '>' :: s) p) : St.atAttribute source ⟨toksAt (k ++ '>' :: s) p, e⟩ = true := by
  rw [toks_bare hk (by simp; rfl) (by simp) p]
  simp [St.atAttribute, hh.tail.drop, gtFollows]

/-! ## Atoms without parts -/

theorem atom_scalar {source : List Char} {v k e s rest n p er gs st} (hs : ScalarText v k e s) (hk : k ≠ .heredoc)
    (hf : Follows e rest) (h : parseAtom source n ⟨toksAt (s ++ rest) p, er⟩ = some (gs, st)) :
    ∃ tk, ScalarTok tk ∧ gs = [.node .SCALAR [.token tk s]] ∧ st = ⟨toksAt rest (p + utf8Len s), er⟩ := by
  cases n with
  | zero => simp [parseAtom] at h
  | succ n =>
    obtain ⟨tk, h1, h2⟩ := toks_scalar hs hk hf p
    rw [h1] at h
    rw [parseAtom.eq_def] at h
    rcases h2 with ⟨-, rfl, -⟩ | rfl | rfl
    all_goals
      simp only [St.peek, St.bump, List.head?_cons, Option.map_some, Option.getD_some, SyntaxKind.ofToken,
        Option.some.injEq, Prod.mk.injEq] at h
      obtain ⟨rfl, rfl⟩ := h
      exact ⟨_, by simp [ScalarTok], rfl, rfl⟩

theorem atom_heredoc {source : List Char} {v e s rest n p er gs st} (hs : ScalarText v .heredoc e s)
    (hf : Follows e rest) (h : parseAtom source n ⟨toksAt (s ++ rest) p, er⟩ = some (gs, st)) :
    ∃ cs, Green.texts cs = s ∧ gs = [.node .HEREDOC cs] ∧ (∀ g ∈ cs, ∃ k t, g = .token k t) ∧
      st = ⟨toksAt rest (p + utf8Len s), er⟩ ∧ HeredocGreens v cs := by
  cases n with
  | zero => simp [parseAtom] at h
  | succ n =>
    cases hs with
    | heredoc hd hl hn hi hls =>
      obtain ⟨t1, mid, t2, h1, h2, h3, h4, h5, h6, h7, h8, h9⟩ := toks_heredoc (rest := rest) hd hl hn hi hf hls p
      rw [h1] at h
      generalize p + utf8Len _ = q at h ⊢
      rw [parseAtom.eq_def] at h
      simp only [List.cons_append, St.peek, List.head?_cons, Option.map_some, Option.getD_some, h2,
        Option.some.injEq] at h
      rcases h4 with rfl | ⟨t, rfl, h4⟩
      · simp [St.heredoc, St.bump, St.peek, h3] at h
        obtain ⟨rfl, rfl⟩ := h
        exact ⟨_, by simpa [Green.texts, Green.text] using h5, rfl, by simp, rfl, _, _, _, _, _, hd, hl, hn, rfl, by
          simp [h9.1 rfl, h6, h7, h2, SyntaxKind.ofToken]⟩
      · simp [St.heredoc, St.bump, St.peek, h3, h4] at h
        obtain ⟨rfl, rfl⟩ := h
        have hne : _ ≠ [] := fun h => by simpa using h9.2 h
        exact ⟨_, by simpa [Green.texts, Green.text] using h5, rfl, by simp, rfl, _, _, _, _, _, hd, hl, hn, rfl, by
          simp only [List.flatMap_cons, List.flatMap_nil, List.append_nil] at h8
          simp [hne, h6, h7, h8, h2, SyntaxKind.ofToken]⟩

theorem atom_unit {source : List Char} {rest n p er gs st} (hf : Follows .word rest)
    (h : parseAtom source n ⟨toksAt ('@' :: rest) p, er⟩ = some (gs, st)) :
    gs = [.node .UNIT [.token .AT ['@']]] ∧ st = ⟨toksAt rest (p + 1), er⟩ := by
  cases n with
  | zero => simp [parseAtom] at h
  | succ n =>
    rw [toks_unit hf] at h
    rw [parseAtom.eq_def] at h
    simp only [St.peek, St.bump, List.head?_cons, Option.map_some, Option.getD_some, SyntaxKind.ofToken,
      Option.some.injEq, Prod.mk.injEq] at h
    exact ⟨h.1.symm, h.2.symm⟩

theorem payloadFollows_word {rest : List Char} (hf : Follows .word rest) (p q : Nat) (er : List PErr) :
    St.payloadFollows ⟨toksAt rest p, er⟩ q = false := by
  rcases hf with rfl | ⟨c, r, rfl, hc⟩
  · simp [toksAt_nil, St.payloadFollows]
  · obtain ⟨t, ts, r', h1, h2, h3, h4, h5⟩ := toks_head c r p
    rw [h1]
    simp only [List.mem_cons, List.not_mem_nil, or_false] at hc
    cases hk : t.kind <;> simp only [St.payloadFollows, hk, Bool.and_false] <;> simp only [hk, KindText] at h4
    · simp at h4; simp [h4.1] at hc
    · simp at h4; simp [h4.1] at hc
    · simp at h4; simp [h4.1] at hc
    · obtain ⟨n, ns, e, -⟩ := h4
      simp at e; simp [e.1] at hc
    · obtain ⟨body, e, -⟩ := h4
      simp at e; simp [e.1] at hc
    · obtain ⟨n, body, e, -⟩ := h4
      simp at e; simp [e.1] at hc
    · obtain ⟨d, l, nl, e, -⟩ := h4
      simp at e; simp [e.1] at hc

theorem split_one {n : List Char} (h : '/' ∉ n) : splitSlashAt n = [n] := by
  induction n with
  | nil => rfl
  | cons c n ih =>
    have h1 : c ≠ '/' := fun e => h (by simp [e])
    have h2 := ih (fun hm => h (by simp [hm]))
    unfold splitSlashAt
    cases n with
    | nil => rfl
    | cons d n => simp [h1, h2]

theorem split_tag {n : List Char} (hn : TagName n) (pl : List Green) :
    tagTree (splitSlashAt ('@' :: n)) pl = .node .TAG (.token .TAG_TOKEN ('@' :: n) :: pl) := by
  rw [split_one (n := '@' :: n) (by simpa using no_slash hn), tagTree]
  rfl

theorem atom_tag {source : List Char} {tn rest n p er gs st} (hn : TagName tn) (hf : Follows .word rest)
    (h : parseAtom source n ⟨toksAt ('@' :: tn ++ rest) p, er⟩ = some (gs, st)) :
    gs = [.node .TAG [.token .TAG_TOKEN ('@' :: tn)]] ∧ st = ⟨toksAt rest (p + utf8Len ('@' :: tn)), er⟩ := by
  cases n with
  | zero => simp [parseAtom] at h
  | succ n =>
    rw [toks_tag hn hf] at h
    rw [parseAtom.eq_def] at h
    simp only [St.peek, List.head?_cons, Option.map_some, Option.getD_some, payloadFollows_word hf,
      Option.bind_eq_bind, Option.bind_some, Bool.false_eq_true, if_false, split_tag hn,
      Option.some.injEq, Prod.mk.injEq] at h
    exact ⟨h.1.symm, h.2.symm⟩

theorem atom_tagged {source : List Char} {tn s rest n p er gs st} (hn : TagName tn) (hp : PayloadStart tn s)
    (hk : ∀ t ts q, toksAt (s ++ rest) q = t :: ts → t.start = q ∧
      (t.kind = .lbrace ∨ t.kind = .lparen ∨ t.kind = .quotedScalar ∨ t.kind = .rawScalar))
    (h : parseAtom source n ⟨toksAt ('@' :: tn ++ (s ++ rest)) p, er⟩ = some (gs, st)) :
    ∃ m g, parseAtom source m ⟨toksAt (s ++ rest) (p + utf8Len ('@' :: tn)), er⟩ = some (g, st) ∧
      gs = [.node .TAG [.token .TAG_TOKEN ('@' :: tn), .node .TAG_PAYLOAD g]] := by
  cases n with
  | zero => simp [parseAtom] at h
  | succ n =>
    rw [toks_tagPayload hn hp] at h
    rw [parseAtom.eq_def] at h
    have hf : St.payloadFollows ⟨toksAt (s ++ rest) (p + utf8Len ('@' :: tn)), er⟩ (p + utf8Len ('@' :: tn)) = true := by
      obtain ⟨c, r, rfl, -⟩ := hp
      obtain ⟨t, ts, r', h1, -⟩ := toks_head c (r ++ rest) (p + utf8Len ('@' :: tn))
      rw [List.cons_append] at hk ⊢
      obtain ⟨h2, h3⟩ := hk _ _ _ h1
      rw [h1]
      rcases h3 with h3 | h3 | h3 | h3 <;> simp [St.payloadFollows, h2, h3]
    simp only [St.peek, List.head?_cons, Option.map_some, Option.getD_some, hf,
      Option.bind_eq_bind, if_true, split_tag hn] at h
    simp only [Option.bind_eq_some_iff, Prod.exists, Option.some.injEq, Prod.mk.injEq] at h
    obtain ⟨g1, st1, ⟨g2, st2, h1, rfl, rfl⟩, rfl, rfl⟩ := h
    exact ⟨n, g2, h1, rfl⟩

end Styx.Cst
