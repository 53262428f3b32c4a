import Verif.Cst.ReadAll
import Verif.Text.Parse

/-! # The concrete syntax tree of a text stands for what the text writes -/

namespace Styx.Cst

open Styx Styx.Spec

/-! ## Entries with what is before and after them -/

theorem atLineEnd_peek {u : List Char} (h : AtLineEnd u) (p : Nat) (er : List PErr) :
    NoBlank u ∧ (u = [] ∧ St.peek ⟨toksAt u p, er⟩ = .eof ∨ u ≠ [] ∧ St.peek ⟨toksAt u p, er⟩ = .newline) := by
  rcases h with rfl | ⟨r, rfl⟩ | ⟨r, rfl⟩
  · exact ⟨fun c r e => (List.cons_ne_nil _ _ e.symm).elim, .inl ⟨rfl, rfl⟩⟩
  · refine ⟨fun c r e => by cases e; rfl, .inr ⟨by simp, ?_⟩⟩
    have := toks_newline (n := ['\n']) (.inl rfl) r p
    rw [List.singleton_append] at this
    rw [this]; rfl
  · refine ⟨fun c r e => by cases e; rfl, .inr ⟨by simp, ?_⟩⟩
    have := toks_newline (n := ['\r', '\n']) (.inr rfl) r p
    rw [List.cons_append, List.singleton_append] at this
    rw [this]; rfl

theorem entry_rest {c : Option TokenKind} {tr t : List Char} (ht : Trailing tr) (he : EntryEnd tr t)
    (hcl : ∀ b u, t = b ++ '}' :: u → Blanks b → c = some .rbrace) :
    ∃ b u, tr ++ t = b ++ u ∧ Blanks b ∧ NoBlank u ∧ EndAt c u := by
  have line : ∀ u, AtLineEnd u → NoBlank u ∧ EndAt c u := by
    intro u hu
    refine ⟨(atLineEnd_peek hu 0 []).1, fun p er => ?_⟩
    rcases (atLineEnd_peek hu p er).2 with ⟨-, h⟩ | ⟨-, h⟩ <;> simp [St.atEntryEnd, h]
  cases ht with
  | none =>
    rw [EntryEnd, if_pos rfl] at he
    obtain ⟨b, u, rfl, hb, hu⟩ := he
    refine ⟨b, u, rfl, hb, ?_⟩
    rcases hu with hu | ⟨x, r, rfl, rfl | rfl⟩
    · exact line u hu
    · refine ⟨fun c r e => by cases e; rfl, fun p er => ?_⟩
      rw [toks_comma]
      rfl
    · have := hcl b r rfl hb
      subst this
      refine ⟨fun c r e => by cases e; rfl, fun p er => ?_⟩
      rw [toks_rbrace]
      rfl
  | @comment b cm hb hc =>
    have hne : b ++ cm ≠ [] := by
      obtain ⟨r, rfl, -⟩ := hc
      simp
    rw [EntryEnd, if_neg hne] at he
    refine ⟨b, cm ++ t, by simp, hb, ?_, fun p er => ?_⟩
    · obtain ⟨r, rfl, -⟩ := hc
      intro c r e
      cases e
      rfl
    · rw [toks_comment hc he]
      rfl

theorem reads_trailing {source : List Char} {c : Option TokenKind} {pend : List (List Char)}
    {q : List Kid → Bool → List Token → Prop} (hq : QMono q) {tr t : List Char} (ht : Trailing tr) (he : EntryEnd tr t)
    {p : Nat} (h : Reads source c (toksAt t (p + utf8Len tr)) pend q) : Reads source c (toksAt (tr ++ t) p) pend q := by
  cases ht with
  | none => exact h
  | @comment b cm hb hc =>
    have hne : b ++ cm ≠ [] := by
      obtain ⟨r, rfl, -⟩ := hc
      simp
    rw [EntryEnd, if_neg hne] at he
    rw [List.append_assoc]
    refine reads_blanks hq hb ?_
    rw [toks_comment hc he]
    refine reads_trivia hq rfl ?_
    rwa [utf8Len_append, ← Nat.add_assoc] at h

theorem lineTail_end {e : Tail} {x : List Char} (h : lineTail e = true) (hf : Follows e x) : AtLineEnd x := by
  induction e with
  | closed => cases h
  | word => cases h
  | line => exact hf
  | attrs l ih => exact ih h hf.1

theorem blanks_atEnd {b u : List Char} (hb : Blanks b) (h : AtLineEnd (b ++ u)) (hne : b ++ u ≠ []) : b = [] := by
  cases b with
  | nil => rfl
  | cons x b =>
    have := hb x (by simp)
    rcases h with h | ⟨r, h⟩ | ⟨r, h⟩
    · exact absurd h hne
    · simp only [List.cons_append, List.cons.injEq] at h
      rw [h.1] at this; rcases this with h | h <;> cases h
    · simp only [List.cons_append, List.cons.injEq] at h
      rw [h.1] at this; rcases this with h | h <;> cases h

theorem pair_ne {gk gv : Green} {cs : List Green} (h : PairNode gk gv cs) : cs ≠ [] := by
  obtain ⟨_, _, rfl, _⟩ := h; simp

theorem lone_ne {gk : Green} {cs : List Green} (h : LoneNode gk cs) : cs ≠ [] := by
  obtain ⟨_, rfl, _⟩ := h; simp

variable {source : List Char} {c : Option TokenKind} {q q' : List Kid → Bool → List Token → Prop}

theorem reads_pair (hc : Closing c) (hq : QMono q) (hq' : QMono q') {g dt kt b s tr t : List Char}
    {ls : List (List Char)} {k v : Value} {ke e : Tail} {p : Nat}
    (hg : Gap true g) (hd : DocLines ls dt) (hk : KeyText k ke kt) (hb : Blanks b) (hne : b ≠ [])
    (hv : ValueText v e s) (hval : ValReads c s e (ValueNode v e)) (htr : Trailing tr) (hend : EntryEnd tr t)
    (hcl : ∀ b u, t = b ++ '}' :: u → Blanks b → c = some .rbrace) (hf : Follows e (tr ++ t))
    (hh : Here source (g ++ (dt ++ (kt ++ (b ++ (s ++ (tr ++ t)))))) p)
    (h : Reads source c (toksAt t (p + utf8Len (g ++ (dt ++ (kt ++ (b ++ (s ++ tr))))))) [] q')
    (hqq : ∀ ds gk gv cs ks nl toks, DocTexts ls ds → KeyNode kt gk → ValueNode v e gv → PairNode gk gv cs →
      q' ks nl toks → (lineTail e = true → tr ++ t ≠ [] → nl = true) → q ((ds, cs) :: ks) nl toks) :
    Reads source c (toksAt (g ++ (dt ++ (kt ++ (b ++ (s ++ (tr ++ t)))))) p) [] q := by
  refine reads_gap hc hq hg ?_
  obtain ⟨ds, h1, h2⟩ := reads_docs (source := source) hc hq hd
  refine h2 ?_
  rw [List.nil_append]
  obtain ⟨b2, u, e1, hb2, hu, he⟩ := entry_rest (c := c) htr hend hcl
  have hrest : Reads source c (toksAt (b2 ++ u) (p + utf8Len g + utf8Len dt + utf8Len (kt ++ (b ++ s)))) [] q' := by
    rw [← e1]
    refine reads_trailing hq' htr hend ?_
    simpa only [utf8Len_append, Nat.add_assoc] using h
  have hh := hh.tail.tail
  rw [e1] at hh hf hqq ⊢
  obtain ⟨t', ts', h3, h4, -⟩ := key_head hk (key_follows hk (follows_blanks (s := s ++ (b2 ++ u)) hb hne))
    (p + utf8Len g + utf8Len dt)
  have e2 : kt ++ (b ++ (s ++ (b2 ++ u))) = (kt ++ (b ++ s)) ++ (b2 ++ u) := by simp
  have key := reads_entry (q := q) (pend := ds) hc (s := kt ++ (b ++ s)) (b := b2) (u := u)
    (p := p + utf8Len g + utf8Len dt) (by rw [← e2, head_peek h3]; exact h4) hb2 hu hrest
    (r := fun cs => ∃ gk gv, KeyNode kt gk ∧ ValueNode v e gv ∧ PairNode gk gv cs) ?_ ?_
  · rwa [← e2] at key
  · intro n g st hp herr
    rw [← e2] at hp
    obtain ⟨gk, gv, cs, rfl, h5, h6, h7, rfl⟩ := entry_pair hc hk hb hne hv hval hb2 hu he hf hh hp herr
    refine ⟨cs, rfl, pair_ne h7, ⟨gk, gv, h5, h6, h7⟩, ?_⟩
    congr 2
    simp only [utf8Len_append]; omega
  · intro cs ks nl toks ⟨gk, gv, h5, h6, h7⟩ h8 h9
    refine hqq ds gk gv cs ks nl toks h1 h5 h6 h7 h8 ?_
    intro hl hn
    have hle := lineTail_end hl hf
    have := blanks_atEnd hb2 hle hn
    subst this
    rcases (atLineEnd_peek hle (p + utf8Len g + utf8Len dt + utf8Len (kt ++ (b ++ s)) + utf8Len []) []).2 with h | h
    · exact absurd h.1 hn
    · exact h9 h.2

theorem reads_lone (hc : Closing c) (hq : QMono q) (hq' : QMono q') {g dt kt tr t : List Char}
    {ls : List (List Char)} {k : Value} {ke : Tail} {p : Nat}
    (hg : Gap true g) (hd : DocLines ls dt) (hk : KeyText k ke kt) (htr : Trailing tr) (hend : EntryEnd tr t)
    (hcl : ∀ b u, t = b ++ '}' :: u → Blanks b → c = some .rbrace) (hf : Follows ke (tr ++ t))
    (hh : Here source (g ++ (dt ++ (kt ++ (tr ++ t)))) p)
    (h : Reads source c (toksAt t (p + utf8Len (g ++ (dt ++ (kt ++ tr))))) [] q')
    (hqq : ∀ ds gk cs ks nl toks, DocTexts ls ds → KeyNode kt gk → LoneNode gk cs →
      q' ks nl toks → q ((ds, cs) :: ks) nl toks) :
    Reads source c (toksAt (g ++ (dt ++ (kt ++ (tr ++ t)))) p) [] q := by
  refine reads_gap hc hq hg ?_
  obtain ⟨ds, h1, h2⟩ := reads_docs (source := source) hc hq hd
  refine h2 ?_
  rw [List.nil_append]
  obtain ⟨b2, u, e1, hb2, hu, he⟩ := entry_rest (c := c) htr hend hcl
  have hrest : Reads source c (toksAt (b2 ++ u) (p + utf8Len g + utf8Len dt + utf8Len kt)) [] q' := by
    rw [← e1]
    refine reads_trailing hq' htr hend ?_
    simpa only [utf8Len_append, Nat.add_assoc] using h
  have hh := hh.tail.tail
  rw [e1] at hh hf ⊢
  obtain ⟨t', ts', h3, h4, -⟩ := key_head hk hf (p + utf8Len g + utf8Len dt)
  refine reads_entry (q := q) (pend := ds) hc (s := kt) (b := b2) (u := u)
    (p := p + utf8Len g + utf8Len dt) (by rw [head_peek h3]; exact h4) hb2 hu hrest
    (r := fun cs => ∃ gk, KeyNode kt gk ∧ LoneNode gk cs) ?_ ?_
  · intro n g st hp herr
    obtain ⟨gk, cs, rfl, h5, h7, rfl⟩ := entry_lone hc hk hb2 hu he hf hh hp
    exact ⟨cs, rfl, lone_ne h7, ⟨gk, h5, h7⟩, rfl⟩
  · intro cs ks nl toks ⟨gk, h5, h7⟩ h8 _
    exact hqq ds gk cs ks nl toks h1 h5 h7 h8

/-! ## Items -/

/-- What reading the items that begin with the tokens `ts` gives. -/
def IReads (source : List Char) (ts : List Token) (q : List Green → Bool → List Token → Prop) : Prop :=
  ∀ n g st, parseItems source n ⟨ts, []⟩ = some (g, st) → st.errors = [] → q (itemsOf g) (hasToken .NEWLINE g) st.toks

/-- More line breaks do no harm. -/
def IMono (q : List Green → Bool → List Token → Prop) : Prop :=
  ∀ gs b b' ts, (b = true → b' = true) → q gs b ts → q gs b' ts

theorem items_trivia (source : List Char) (n : Nat) (t : Token) (ts : List Token) (e : List PErr)
    (ht : isTrivia t.kind = true) :
    parseItems source n ⟨t :: ts, e⟩ = (parseItems source n ⟨ts, e⟩).map fun r => (tokG t :: r.1, r.2) := by
  cases n with
  | zero => simp [parseItems]
  | succ n =>
    have hs : St.skipTrivia ⟨t :: ts, e⟩ = (tokG t :: (St.skipTrivia ⟨ts, e⟩).1, (St.skipTrivia ⟨ts, e⟩).2) := by
      simp [St.skipTrivia, St.bumpWhile, bumpWhile, ht]
    rw [parseItems, parseItems, hs]
    generalize St.skipTrivia ⟨ts, e⟩ = x
    obtain ⟨g, st⟩ := x
    simp only [Option.bind_eq_bind]
    by_cases h1 : st.atEof = true
    · simp [h1]
    · by_cases h2 : st.peek = .rparen
      · simp [h1, h2]
      · simp only [h1, h2, Bool.false_eq_true, if_false, Option.map_bind]
        congr 1
        funext r
        simp only [Function.comp, Option.map_bind]
        congr 1

variable {r r' : List Green → Bool → List Token → Prop}

theorem ireads_trivia (hr : IMono r) {t : Token} {ts : List Token} (ht : isTrivia t.kind = true)
    (h : IReads source ts r) : IReads source (t :: ts) r := by
  intro n g st hp he
  rw [items_trivia _ _ _ _ _ ht, Option.map_eq_some_iff] at hp
  obtain ⟨⟨g', st'⟩, h1, h2⟩ := hp
  cases h2
  exact hr _ _ _ _ (fun h' => by simp [hasToken, h']) (h n g' _ h1 he)

theorem ireads_unws {t : Token} {ts : List Token} (ht : t.kind = .whitespace)
    (h : IReads source (t :: ts) r) : IReads source ts r := by
  intro n g st hp he
  have h4 := h n (tokG t :: g) st (by
    rw [items_trivia _ _ _ _ _ (by rw [ht]; rfl), hp]; rfl) he
  have : hasToken .NEWLINE (tokG t :: g) = hasToken .NEWLINE g := by simp [hasToken, ht, SyntaxKind.ofToken]
  rwa [this] at h4

theorem ireads_gap (hr : IMono r) {g : List Char} (hg : Gap false g) : ∀ {s : List Char} {p : Nat},
    IReads source (toksAt s (p + utf8Len g)) r → IReads source (toksAt (g ++ s) p) r := by
  induction hg with
  | nil => intro s p h; exact h
  | blank hx _ ih =>
    rename_i x g' _
    intro s p h
    rw [utf8Len_cons, blank_size hx, ← Nat.add_assoc] at h
    have h := ih h
    obtain ⟨b, s', h1, h2, h3, h4, h5⟩ := toks_blank hx (g' ++ s) p
    rw [List.cons_append, h4]
    refine ireads_trivia hr rfl ?_
    rcases h5 with h5 | ⟨b', h5⟩
    · rwa [h5] at h
    · rw [h5] at h
      exact ireads_unws rfl h
  | newline hn _ ih =>
    intro s p h
    rw [List.append_assoc, toks_newline hn]
    refine ireads_trivia hr rfl (ih ?_)
    rwa [utf8Len_append, ← Nat.add_assoc] at h
  | comment ht hn _ ih =>
    intro s p h
    rw [List.append_assoc, List.append_assoc, toks_comment ht (lineBreak_atEnd hn _), toks_newline hn]
    refine ireads_trivia hr rfl (ireads_trivia hr rfl (ih ?_))
    rwa [utf8Len_append, utf8Len_append, ← Nat.add_assoc, ← Nat.add_assoc] at h
  | comma h _ _ => cases h

theorem items_skipWs (source : List Char) (n : Nat) (e : List PErr) : ∀ ts : List Token,
    parseItems source n ⟨ts, e⟩ =
      (parseItems source n (St.skipWs ⟨ts, e⟩).2).map fun r => ((St.skipWs ⟨ts, e⟩).1 ++ r.1, r.2) := by
  intro ts
  induction ts with
  | nil => simp [St.skipWs, St.bumpWhile, bumpWhile]
  | cons t ts ih =>
    by_cases ht : t.kind = .whitespace
    · rw [items_trivia _ _ _ _ _ (by rw [ht]; rfl), ih]
      have hs : St.skipWs ⟨t :: ts, e⟩ = (tokG t :: (St.skipWs ⟨ts, e⟩).1, (St.skipWs ⟨ts, e⟩).2) := by
        simp [St.skipWs, St.bumpWhile, bumpWhile, ht]
      rw [hs, Option.map_map]
      rfl
    · have : St.skipWs ⟨t :: ts, e⟩ = ([], ⟨t :: ts, e⟩) := skipWs_id (by simpa [St.peek] using ht)
      rw [this]
      simp

theorem skipTrivia_id {t : Token} {ts : List Token} {e : List PErr} (h : isTrivia t.kind = false) :
    St.skipTrivia ⟨t :: ts, e⟩ = ([], ⟨t :: ts, e⟩) := by
  simp [St.skipTrivia, St.bumpWhile, bumpWhile, h]

theorem atomStart_notTrivia {k : TokenKind} (hk : AtomStart k) : isTrivia k = false := by
  rcases hk with h | h | h | h | h | h | h | h <;> rw [h] <;> rfl

/-- An item and what follows. -/
theorem ireads_item {v : Value} {e : Tail} {s rest : List Char} {p : Nat} (hv : ValueText v e s)
    (ha : e.notAttrs → AtomReads s e (ValueNode v e)) (hf : Follows e rest) (hne : rest ≠ [])
    (hh : Here source (s ++ rest) p) (h : IReads source (toksAt rest (p + utf8Len s)) r')
    (hrr : ∀ g gs nl toks, ValueNode v e g → e.notAttrs → (lineTail e = true → nl = true) → r' gs nl toks →
      r (g :: gs) nl toks) : IReads source (toksAt (s ++ rest) p) r := by
  intro n gs st hp herr
  cases n with
  | zero => simp [parseItems] at hp
  | succ n =>
    obtain ⟨t, ts, h1, h2, h3, -⟩ := value_head hv hf p
    rw [parseItems, h1, skipTrivia_id (atomStart_notTrivia h2)] at hp
    have h4 : St.atEof ⟨t :: ts, []⟩ = false := by
      rcases h2 with h | h | h | h | h | h | h | h <;> simp [St.atEof, St.peek, h]
    have h5 : ¬ St.peek ⟨t :: ts, []⟩ = .rparen := by
      rcases h2 with h | h | h | h | h | h | h | h <;> simp [St.peek, h]
    simp only [h4, Bool.false_eq_true, if_false, h5, Option.bind_eq_bind, Option.bind_eq_some_iff, Prod.exists,
      Option.some.injEq, Prod.mk.injEq] at hp
    obtain ⟨g2, st2, h6, g4, st4, h7, rfl, rfl⟩ := hp
    rw [← h1] at h6
    have e1 : st2.skipWs.2.errors = [] := (allClean source n).2.2.2.2.2.2 _ _ h7 herr
    have e2 : st2.errors = [] := e1
    by_cases hn : e.notAttrs
    · obtain ⟨g, rfl, hg, rfl⟩ := ha hn _ _ _ _ _ _ hf hh h6 e2
      have h8 : parseItems source n ⟨toksAt rest (p + utf8Len s), []⟩ =
          some ((St.skipWs ⟨toksAt rest (p + utf8Len s), []⟩).1 ++ g4, st4) := by
        rw [items_skipWs, h7]; rfl
      have h9 := h _ _ _ h8 herr
      have e3 : itemsOf ([] ++ [Green.node .ENTRY [.node .KEY [g]]] ++
          (St.skipWs ⟨toksAt rest (p + utf8Len s), []⟩).1 ++ g4) =
          g :: itemsOf ((St.skipWs ⟨toksAt rest (p + utf8Len s), []⟩).1 ++ g4) := by
        simp [itemsOf]
      have e4 : hasToken .NEWLINE ([] ++ [Green.node .ENTRY [.node .KEY [g]]] ++
          (St.skipWs ⟨toksAt rest (p + utf8Len s), []⟩).1 ++ g4) =
          hasToken .NEWLINE ((St.skipWs ⟨toksAt rest (p + utf8Len s), []⟩).1 ++ g4) := by
        simp [hasToken]
      rw [e3, e4]
      refine hrr _ _ _ _ hg hn ?_ h9
      intro hl
      rcases (atLineEnd_peek (lineTail_end hl hf) (p + utf8Len s) []).2 with h | h
      · exact absurd h.1 hne
      · cases ht : toksAt rest (p + utf8Len s) with
        | nil => rw [ht] at h; simp [St.peek] at h
        | cons t' ts' =>
          rw [ht] at h h8
          have hk : t'.kind = .newline := h.2
          rw [items_trivia _ _ _ _ _ (by rw [hk]; rfl), Option.map_eq_some_iff] at h8
          obtain ⟨⟨a, b⟩, -, hab⟩ := h8
          simp only [Prod.mk.injEq] at hab
          rw [← hab.1]
          simp [hasToken, hk, SyntaxKind.ofToken]
    · exfalso
      cases hv with
      | attributes ht =>
        obtain ⟨k, s', hk, rfl⟩ := attrs_head ht
        have e4 : st2 = ⟨toksAt ('>' :: (s' ++ rest)) (p + utf8Len k), []⟩ := by
          rw [List.append_assoc, List.cons_append, toks_bare hk (by simp; rfl) (by simp) p] at h6
          cases n with
          | zero => simp [parseAtom] at h6
          | succ n =>
            rw [parseAtom.eq_def] at h6
            simp only [St.peek, St.bump, List.head?_cons, Option.map_some, Option.getD_some, SyntaxKind.ofToken,
              Option.some.injEq, Prod.mk.injEq] at h6
            exact h6.2.symm
        have h8 : parseItems source n st2 = some (st2.skipWs.1 ++ g4, st4) := by
          rw [show st2 = ⟨st2.toks, st2.errors⟩ from rfl, items_skipWs, h7]; rfl
        rw [e4] at h8
        cases n with
        | zero => simp [parseItems] at h8
        | succ n =>
          rw [toks_gt] at h8
          rw [parseItems, skipTrivia_id rfl] at h8
          simp only [St.atEof, St.peek, List.head?_cons, Option.map_some, Option.getD_some, Option.bind_eq_bind,
            reduceCtorEq, if_false, Option.bind_eq_some_iff, Prod.exists,
            Option.some.injEq, Prod.mk.injEq, beq_iff_eq] at h8
          obtain ⟨g5, st5, h9, g6, st6, h10, -, rfl⟩ := h8
          have e5 : st5.skipWs.2.errors = [] := (allClean source n).2.2.2.2.2.2 _ _ h10 herr
          have e6 : st5.errors = [] := e5
          cases n with
          | zero => simp [parseAtom] at h9
          | succ n =>
            rw [parseAtom.eq_def] at h9
            simp only [St.peek, List.head?_cons, Option.map_some, Option.getD_some, Option.some.injEq,
              Prod.mk.injEq] at h9
            rw [← h9.2] at e6
            simp [St.bump, St.err] at e6
      | scalar hs => cases hs <;> exact hn trivial
      | unit => exact hn trivial
      | tag _ => exact hn trivial
      | sequence _ => exact hn trivial
      | object _ _ => exact hn trivial
      | tagged _ hv hp =>
        cases hv with
        | scalar hs => cases hs <;> exact hn trivial
        | sequence _ => exact hn trivial
        | object _ _ => exact hn trivial
        | attributes ht =>
          obtain ⟨k, s', hk, rfl⟩ := attrs_head ht
          exact bareText_no_payload hk (x := '>' :: s') (by simp) hp

/-! ## All values -/

theorem kidsOf_snoc {k : SyntaxKind} (hk : k ≠ .DOC_COMMENT) (t : List Char) (gs : List Green) :
    ∀ pend, kidsOf pend (gs ++ [.token k t]) = kidsOf pend gs := by
  induction gs with
  | nil => intro pend; simp [kidsOf, hk]
  | cons g gs ih =>
    intro pend
    cases g with
    | token k' t' => simp only [List.cons_append, kidsOf, ih]
    | node k' cs => simp only [List.cons_append, kidsOf, ih]

theorem itemsOf_snoc (k : SyntaxKind) (t : List Char) (gs : List Green) :
    itemsOf (gs ++ [.token k t]) = itemsOf gs := by
  induction gs with
  | nil => simp [itemsOf]
  | cons g gs ih =>
    cases g with
    | token k' t' => simp only [List.cons_append, itemsOf, ih]
    | node k' cs => simp only [List.cons_append, itemsOf, ih]

/-- What reading the items of a sequence gives. -/
def ItemsRead (vs : List Value) (t : List Char) : Prop :=
  ∃ t', t = t' ++ [')'] ∧ ∀ source rest p, Here source (t' ++ ')' :: rest) p →
    IReads source (toksAt (t' ++ ')' :: rest) p) fun gs nl toks =>
      ItemNodes nl vs gs ∧ toks = toksAt (')' :: rest) (p + utf8Len t')

/-- What reading the entries of an object gives. -/
def EntriesRead (es : List Entry) (t : List Char) : Prop :=
  ∃ t', t = t' ++ ['}'] ∧ ∀ source rest p, Here source (t' ++ '}' :: rest) p →
    Reads source (some .rbrace) (toksAt (t' ++ '}' :: rest) p) [] fun ks nl toks =>
      KidNodes nl es ks ∧ toks = toksAt ('}' :: rest) (p + utf8Len t')

theorem atom_sequence {vs : List Value} {t : List Char} (h : ItemsRead vs t) :
    AtomReads ('(' :: t) .closed (ValueNode (.mk none (some (.sequence vs none)) none) .closed) := by
  obtain ⟨t', rfl, h⟩ := h
  intro source rest n p gs st _ hh hp herr
  cases n with
  | zero => simp [parseAtom] at hp
  | succ n =>
    have e0 : '(' :: (t' ++ [')']) ++ rest = '(' :: (t' ++ ')' :: rest) := by simp
    rw [e0] at hh hp
    rw [toks_lparen] at hp
    rw [parseAtom.eq_def] at hp
    have hpk : St.peek ⟨⟨TokenKind.lparen, p, p + 1, ['(']⟩ :: toksAt (t' ++ ')' :: rest) (p + 1), []⟩ = .lparen := rfl
    have hbp : St.bump ⟨⟨TokenKind.lparen, p, p + 1, ['(']⟩ :: toksAt (t' ++ ')' :: rest) (p + 1), []⟩ =
      ([.token .L_PAREN ['(']], ⟨toksAt (t' ++ ')' :: rest) (p + 1), []⟩) := rfl
    simp only [hpk, hbp, Option.bind_eq_bind,
      Option.bind_eq_some_iff, Prod.exists, Option.some.injEq, Prod.mk.injEq] at hp
    obtain ⟨g2, st2, h1, h2, h3⟩ := hp
    have e2 : st2.errors = [] := by
      rw [← h3] at herr
      exact clean_ifBump st2 _ herr
    obtain ⟨h4, h5⟩ := h _ _ _ hh.cons _ _ _ h1 e2
    obtain ⟨toks, er⟩ := st2
    simp only at h5 e2
    subst h5 e2
    rw [toks_rparen] at h2 h3
    simp only [St.peek, St.bump, List.head?_cons, Option.map_some, Option.getD_some, if_true, SyntaxKind.ofToken] at h2 h3
    subst h2 h3
    refine ⟨_, rfl, .sequence ?_, ?_⟩
    · have e1 : itemsOf ([Green.token .L_PAREN ['(']] ++ g2 ++ [Green.token .R_PAREN [')']]) = itemsOf g2 := by
        rw [itemsOf_snoc]; rfl
      have e2 : hasToken .NEWLINE ([Green.token .L_PAREN ['(']] ++ g2 ++ [Green.token .R_PAREN [')']]) = hasToken .NEWLINE g2 := by
        simp only [hasToken, hasToken_append, List.cons_append, Bool.or_false]
        cases hasToken .NEWLINE g2 <;> rfl
      have := h4
      rw [← e1, ← e2] at this
      exact this
    · congr 2
      simp only [utf8Len_append, utf8Len, show '('.utf8Size = 1 from rfl, show ')'.utf8Size = 1 from rfl]
      omega

/-- The node is an object with these entries. -/
def ObjectNode (es : List Entry) (g : Green) : Prop :=
  ∃ cs ks, g = .node .OBJECT cs ∧ kidsOf [] cs = some ks ∧ KidNodes (hasToken .NEWLINE cs) es ks

theorem atom_entries {es : List Entry} {t : List Char} (h : EntriesRead es t) :
    AtomReads ('{' :: t) .closed (ObjectNode es) := by
  obtain ⟨t', rfl, h⟩ := h
  intro source rest n p gs st _ hh hp herr
  cases n with
  | zero => simp [parseAtom] at hp
  | succ n =>
    have e0 : '{' :: (t' ++ ['}']) ++ rest = '{' :: (t' ++ '}' :: rest) := by simp
    rw [e0] at hh hp
    rw [toks_lbrace] at hp
    rw [parseAtom.eq_def] at hp
    have hpk : St.peek ⟨⟨TokenKind.lbrace, p, p + 1, ['{']⟩ :: toksAt (t' ++ '}' :: rest) (p + 1), []⟩ = .lbrace := rfl
    have hbp : St.bump ⟨⟨TokenKind.lbrace, p, p + 1, ['{']⟩ :: toksAt (t' ++ '}' :: rest) (p + 1), []⟩ =
      ([.token .L_BRACE ['{']], ⟨toksAt (t' ++ '}' :: rest) (p + 1), []⟩) := rfl
    simp only [hpk, hbp, Option.bind_eq_bind,
      Option.bind_eq_some_iff, Prod.exists, Option.some.injEq, Prod.mk.injEq] at hp
    obtain ⟨g2, st2, h1, h2, h3⟩ := hp
    have e2 : st2.errors = [] := by
      rw [← h3] at herr
      split at herr
      · have : st2.skipTrivia.2.errors = [] := by
          rw [St.bump] at herr
          split at herr <;> exact herr
        exact this
      · simp [St.err] at herr
    obtain ⟨ks, h6, h4, h5⟩ := h _ _ _ hh.cons _ _ _ h1 e2
    obtain ⟨toks, er⟩ := st2
    simp only at h5 e2
    subst h5 e2
    rw [toks_rbrace, skipTrivia_id rfl] at h2 h3
    simp only [St.peek, St.bump, List.head?_cons, Option.map_some, Option.getD_some, if_true, List.append_nil,
      SyntaxKind.ofToken] at h2 h3
    subst h2 h3
    refine ⟨_, rfl, ⟨_, ks, rfl, ?_, ?_⟩, ?_⟩
    · rw [kidsOf_snoc (by simp)]
      rw [List.singleton_append, kidsOf, if_neg (by simp), h6]
    · have e2 : hasToken .NEWLINE ([Green.token .L_BRACE ['{']] ++ g2 ++ [Green.token .R_BRACE ['}']]) = hasToken .NEWLINE g2 := by
        simp only [hasToken, hasToken_append, List.cons_append, Bool.or_false]
        cases hasToken .NEWLINE g2 <;> rfl
      have := h4
      rw [← e2] at this
      exact this
    · congr 2
      simp only [utf8Len_append, utf8Len, show '{'.utf8Size = 1 from rfl, show '}'.utf8Size = 1 from rfl]
      omega

theorem atom_object {es : List Entry} {t : List Char} (hd : DistinctKeys es) (h : EntriesRead es t) :
    AtomReads ('{' :: t) .closed (ValueNode (.mk none (some (.object es none)) none) .closed) := by
  intro source rest n p gs st hf hh hp herr
  obtain ⟨g, h1, ⟨cs, ks, rfl, h2, h3⟩, h4⟩ := atom_entries h _ _ _ _ _ _ hf hh hp herr
  exact ⟨_, h1, .object h2 h3 hd, h4⟩

theorem items_end {source rest : List Char} {p : Nat} : IReads source (toksAt (')' :: rest) p) fun gs nl toks =>
    ItemNodes nl [] gs ∧ toks = toksAt (')' :: rest) p := by
  intro n g st hp _
  cases n with
  | zero => simp [parseItems] at hp
  | succ n =>
    rw [toks_rparen] at hp ⊢
    rw [parseItems, skipTrivia_id rfl] at hp
    simp only [St.atEof, St.peek, List.head?_cons, Option.map_some, Option.getD_some, if_true, beq_iff_eq,
      reduceCtorEq, if_false, Option.some.injEq, Prod.mk.injEq] at hp
    obtain ⟨rfl, rfl⟩ := hp
    exact ⟨.nil, rfl⟩

theorem entries_end {source rest : List Char} {p : Nat} : Reads source (some .rbrace) (toksAt ('}' :: rest) p) []
    fun ks nl toks => KidNodes nl [] ks ∧ toks = toksAt ('}' :: rest) p := by
  intro n g st hp _
  cases n with
  | zero => simp [parseEntries] at hp
  | succ n =>
    rw [toks_rbrace] at hp ⊢
    rw [parseEntries_cont, skipTrivia_id rfl] at hp
    simp only [bumpDocs, reduceCtorEq, and_false, or_self, if_false, Bool.false_eq_true] at hp
    rw [cont, if_pos (by simp [St.peek])] at hp
    cases hp
    exact ⟨[], rfl, .nil, rfl⟩

theorem atom_of_scalar {v k e s} (hs : ScalarText v k e s) : AtomReads s e (ValueNode (scalarValue v k) e) := by
  intro source rest n p gs st hf _ hp _
  by_cases hk : k = .heredoc
  · subst hk
    obtain ⟨cs, rfl, rfl, ht, rfl, hh⟩ := atom_heredoc hs hf hp
    exact ⟨_, rfl, .heredoc hs ht hh, rfl⟩
  · obtain ⟨tk, h1, rfl, rfl⟩ := atom_scalar hs hk hf hp
    exact ⟨_, rfl, .scalar hs hk h1, rfl⟩

theorem payloadNode {n s : List Char} {p : Payload} {e : Tail} (hv : ValueText (.mk none (some p) none) e s)
    (hp : PayloadStart n s) (ha : AtomReads s e (ValueNode (.mk none (some p) none) e)) :
    AtomReads s e fun g => ValueNode (.mk none (some p) none) e g ∧ PayloadNode n g := by
  intro source rest m q gs st hf hh h herr
  obtain ⟨g, rfl, hg, rfl⟩ := ha _ _ _ _ _ _ hf hh h herr
  refine ⟨g, rfl, ⟨hg, ?_⟩, rfl⟩
  generalize hval : Value.mk none (some p) none = v at hv
  cases hv with
  | scalar hs =>
    obtain ⟨tk, h1, h2, -⟩ := atom_scalar hs (payload_notHeredoc hs hp) hf h
    cases h2
    exact .inl ⟨_, _, rfl, hp⟩
  | unit => cases hval
  | tag _ => cases hval
  | tagged _ _ _ => cases hval
  | sequence _ =>
    cases hval
    cases hg with
    | sequence _ => exact .inr (.inr ⟨_, rfl⟩)
  | object _ _ =>
    cases hval
    cases hg with
    | object _ _ _ => exact .inr (.inl ⟨_, rfl⟩)
  | attributes ht =>
    obtain ⟨k, s', hk, rfl⟩ := attrs_head ht
    exact (bareText_no_payload hk (x := '>' :: s') (by simp) hp).elim

theorem atom_of_tagged {n s : List Char} {p : Payload} {e : Tail} (hn : TagName n)
    (hv : ValueText (.mk none (some p) none) e s) (hp : PayloadStart n s)
    (ha : AtomReads s e (ValueNode (.mk none (some p) none) e)) :
    AtomReads ('@' :: n ++ s) e (ValueNode (.mk (some ⟨n, none⟩) (some p) none) e) := by
  intro source rest m q gs st hf hh h herr
  rw [List.append_assoc] at hh h
  obtain ⟨m', g, h1, rfl⟩ := atom_tagged hn hp (payload_head hv hp hf) h
  obtain ⟨g, rfl, ⟨h2, h3⟩, rfl⟩ := payloadNode hv hp ha _ _ _ _ _ _ hf hh.tail h1 herr
  exact ⟨_, rfl, .tagged hn h2 h3, by rw [utf8Len_append, Nat.add_assoc]⟩

theorem qmono_kids (es : List Entry) (ts : List Token) : QMono fun ks nl toks => KidNodes nl es ks ∧ toks = ts :=
  fun _ _ _ _ h h' => ⟨h'.1.mono h, h'.2⟩

theorem imono_items (vs : List Value) (ts : List Token) : IMono fun gs nl toks => ItemNodes nl vs gs ∧ toks = ts :=
  fun _ _ _ _ h h' => ⟨h'.1.mono h, h'.2⟩

theorem snoc_ink (t : List Char) (rest : List Char) {x : Char} (hx : isBlank x = false) : HasInk (t ++ x :: rest) :=
  ⟨x, by simp, hx⟩

/-- The parser makes of the text of a value a node that stands for the value. -/
theorem value_reads {v : Value} {e : Tail} {s : List Char} (h : ValueText v e s) :
    (e.notAttrs → AtomReads s e (ValueNode v e)) ∧ ∀ c, Closing c → ValReads c s e (ValueNode v e) := by
  have fin : ∀ {v e s}, ValueText v e s → e.notAttrs → AtomReads s e (ValueNode v e) →
      (e.notAttrs → AtomReads s e (ValueNode v e)) ∧ ∀ c, Closing c → ValReads c s e (ValueNode v e) :=
    fun hv hn ha => ⟨fun _ => ha, fun _ hc => val_of_atom hc hv hn ha⟩
  refine ValueText.rec
    (motive_1 := fun v e s _ =>
      (e.notAttrs → AtomReads s e (ValueNode v e)) ∧ ∀ c, Closing c → ValReads c s e (ValueNode v e))
    (motive_2 := fun vs t _ => ItemsRead vs t)
    (motive_3 := fun es t _ => EntriesRead es t)
    (motive_4 := fun es e t _ => AttrReads t e fun gs => AttrNodes es e (nodesOf .ATTRIBUTE gs))
    ?_ ?_ ?_ ?_ ?_ ?_ ?_ ?_ ?_ ?_ ?_ ?_ ?_ ?_ h
  · -- scalar
    intro v k e s hs
    exact fin (.scalar hs) (by cases hs <;> trivial) (atom_of_scalar hs)
  · -- unit
    refine fin .unit trivial ?_
    intro source rest n p gs st hf _ hp _
    obtain ⟨rfl, rfl⟩ := atom_unit hf hp
    exact ⟨_, rfl, .unit, rfl⟩
  · -- tag
    intro n hn
    refine fin (.tag hn) trivial ?_
    intro source rest m p gs st hf _ hp _
    obtain ⟨rfl, rfl⟩ := atom_tag hn hf hp
    exact ⟨_, rfl, .tag hn, rfl⟩
  · -- tagged
    intro n p e s hn hv hp ih
    have hne : e.notAttrs := by
      generalize hval : Value.mk none (some p) none = v at hv
      cases hv with
      | scalar hs => cases hs <;> trivial
      | unit => trivial
      | tag _ => trivial
      | tagged _ _ _ => cases hval
      | sequence _ => trivial
      | object _ _ => trivial
      | attributes ht =>
        obtain ⟨k, s', hk, rfl⟩ := attrs_head ht
        exact (bareText_no_payload hk (x := '>' :: s') (by simp) hp).elim
    exact fin (.tagged hn hv hp) hne (atom_of_tagged hn hv hp (ih.1 hne))
  · -- sequence
    intro vs t ht ih
    exact fin (.sequence ht) trivial (atom_sequence ih)
  · -- object
    intro es t ht hd ih
    exact fin (.object ht hd) trivial (atom_object hd ih)
  · -- attributes
    intro es e t ht ih
    exact ⟨fun h => h.elim, fun c hc => val_of_attrs hc ht ih⟩
  · -- no items
    intro g hg
    refine ⟨g, rfl, fun source rest p _ => ?_⟩
    exact ireads_gap (imono_items _ _) hg items_end
  · -- an item
    intro g v e s vs t hg hv ht hf ihv iht
    obtain ⟨t', rfl, iht⟩ := iht
    refine ⟨g ++ s ++ t', by simp, fun source rest p hh => ?_⟩
    have e0 : g ++ s ++ t' ++ ')' :: rest = g ++ (s ++ (t' ++ ')' :: rest)) := by simp
    rw [e0] at hh ⊢
    refine ireads_gap (imono_items _ _) hg ?_
    have hf' : Follows e (t' ++ ')' :: rest) := by
      have := follows_append hf (snoc_ink t' [] rfl) rest
      simpa using this
    refine ireads_item hv ihv.1 hf' (by simp) hh.tail (iht _ rest _ hh.tail.tail) ?_
    intro g' gs nl toks h1 h2 h3 ⟨h4, h5⟩
    refine ⟨.cons h1 h2 h3 h4, ?_⟩
    rw [h5]
    congr 1
    simp only [utf8Len_append]; omega
  · -- no entries
    intro g hg
    refine ⟨g, rfl, fun source rest p _ => ?_⟩
    exact reads_gap (.inr rfl) (qmono_kids _ _) hg entries_end
  · -- an entry with a value
    intro g ls dt k ke kt b v e s tr es t hg hd hk hb hne hv htr ht hf hend ihv iht
    obtain ⟨t', rfl, iht⟩ := iht
    refine ⟨g ++ dt ++ kt ++ b ++ s ++ tr ++ t', by simp, fun source rest p hh => ?_⟩
    have e0 : g ++ dt ++ kt ++ b ++ s ++ tr ++ t' ++ '}' :: rest =
        g ++ (dt ++ (kt ++ (b ++ (s ++ (tr ++ (t' ++ '}' :: rest)))))) := by simp
    rw [e0] at hh ⊢
    have hf' : Follows e (tr ++ (t' ++ '}' :: rest)) := by
      have := follows_append hf ((snoc_ink t' [] rfl).append_right tr) rest
      simpa using this
    have hend' : EntryEnd tr (t' ++ '}' :: rest) := by
      have := entryEnd_append hend (snoc_ink t' [] rfl) rest
      simpa using this
    refine reads_pair (.inr rfl) (qmono_kids _ _) (qmono_kids es _) hg hd hk hb hne hv (ihv.2 _ (.inr rfl)) htr hend'
      (fun _ _ _ _ => rfl) hf' hh
      (iht source rest _ (by have := hh.tail.tail.tail.tail.tail.tail; simpa only [utf8Len_append, Nat.add_assoc] using this)) ?_
    intro ds gk gv cs ks nl toks h1 h2 h3 h4 ⟨h5, h6⟩ h7
    refine ⟨.pair h1 hk h2 h3 (fun h => h7 h (by simp)) h4 h5, ?_⟩
    rw [h6]
    congr 1
    simp only [utf8Len_append]; omega
  · -- an entry without a value
    intro g ls dt k ke kt tr es t hg hd hk htr ht hf hend iht
    obtain ⟨t', rfl, iht⟩ := iht
    refine ⟨g ++ dt ++ kt ++ tr ++ t', by simp, fun source rest p hh => ?_⟩
    have e0 : g ++ dt ++ kt ++ tr ++ t' ++ '}' :: rest =
        g ++ (dt ++ (kt ++ (tr ++ (t' ++ '}' :: rest)))) := by simp
    rw [e0] at hh ⊢
    have hf' : Follows ke (tr ++ (t' ++ '}' :: rest)) := by
      have := follows_append hf ((snoc_ink t' [] rfl).append_right tr) rest
      simpa using this
    have hend' : EntryEnd tr (t' ++ '}' :: rest) := by
      have := entryEnd_append hend (snoc_ink t' [] rfl) rest
      simpa using this
    refine reads_lone (.inr rfl) (qmono_kids _ _) (qmono_kids es _) hg hd hk htr hend'
      (fun _ _ _ _ => rfl) hf' hh
      (iht source rest _ (by have := hh.tail.tail.tail.tail; simpa only [utf8Len_append, Nat.add_assoc] using this)) ?_
    intro ds gk cs ks nl toks h1 h2 h4 ⟨h5, h6⟩
    refine ⟨.lone h1 hk h2 h4 h5, ?_⟩
    rw [h6]
    congr 1
    simp only [utf8Len_append]; omega
  · -- one attribute
    intro k v e s hk hv hn ih
    exact attrs_one hk hv hn (ih.1 hn)
  · -- an attribute and more
    intro k v e s b es e' t hk hv hn hb ht hf ihv iht
    exact attrs_cons hk hv hn hb ht hf (ihv.1 hn) iht

/-! ## Documents -/

theorem rootKey {ks : List Value} {path : List (List Char)} {e : Tail} {s : List Char}
    (h : RootKeyText ks path e s) : ∃ k, KeyText k e s := by
  cases h with
  | path _ _ hb => exact ⟨_, .scalar (.bare hb) (by simp)⟩
  | other hk _ => exact ⟨_, hk⟩

/-- The first character that is not a blank is not a closing brace. -/
def NoBrace (t : List Char) : Prop := ∀ b u, t = b ++ '}' :: u → ¬ Blanks b

theorem notBlank {c : Char} (h : isBlank c = false) : ¬ Blank c := by
  intro h'; rw [(blank_iff c).1 h'] at h; cases h

theorem noBrace_head {t : List Char} (h : ∃ c r, t = c :: r ∧ ¬ Blank c ∧ c ≠ '}') : NoBrace t := by
  obtain ⟨c, r, rfl, h1, h2⟩ := h
  intro b u e hb
  cases b with
  | nil => cases e; exact h2 rfl
  | cons x b => cases e; exact h1 (hb _ (by simp))

theorem noBrace_gap {g s : List Char} {cm : Bool} (hg : Gap cm g) (hs : NoBrace s) : NoBrace (g ++ s) := by
  induction hg with
  | nil => exact hs
  | blank hx _ ih =>
    intro b u e hb
    cases b with
    | nil => cases e; rcases hx with h | h <;> cases h
    | cons y b =>
      simp only [List.cons_append, List.cons.injEq] at e
      exact ih b u e.2 (fun z hz => hb z (by simp [hz]))
  | newline hn _ _ =>
    refine noBrace_head ?_
    rcases hn with rfl | rfl
    · exact ⟨_, _, rfl, notBlank rfl, by decide⟩
    · exact ⟨_, _, rfl, notBlank rfl, by decide⟩
  | comment ht _ _ _ =>
    obtain ⟨r, rfl, -⟩ := ht
    exact noBrace_head ⟨_, _, rfl, notBlank rfl, by decide⟩
  | comma _ _ _ => exact noBrace_head ⟨_, _, rfl, notBlank rfl, by decide⟩

theorem noBrace_docs {ls : List (List Char)} {dt s : List Char} (hd : DocLines ls dt) (hs : NoBrace s) :
    NoBrace (dt ++ s) := by
  cases hd with
  | nil => exact hs
  | cons => exact noBrace_head ⟨_, _, rfl, notBlank rfl, by decide⟩

theorem noBrace_key {k : Value} {e : Tail} {s : List Char} (h : KeyText k e s) (rest : List Char) :
    NoBrace (s ++ rest) := by
  have hd : ∀ t : List Char, BareText t → ∀ x, NoBrace (t ++ x) := by
    intro t ht x
    obtain ⟨c, r, rfl, h1, -⟩ := bareText_head ht
    refine noBrace_head ⟨c, r ++ x, rfl, fun h => ?_, ?_⟩
    · rw [(blank_iff c).1 h] at h1; cases h1
    · rintro rfl
      have := (ht.1 '}' (by simp)).1
      simp [bareForbidden] at this
  cases h with
  | scalar hs hk =>
    cases hs with
    | bare hb => exact hd _ hb _
    | quoted => exact noBrace_head ⟨_, _, rfl, notBlank rfl, by decide⟩
    | raw => exact noBrace_head ⟨_, _, rfl, notBlank rfl, by decide⟩
    | heredoc => exact absurd rfl hk
  | unit => exact noBrace_head ⟨_, _, rfl, notBlank rfl, by decide⟩
  | tag => exact noBrace_head ⟨_, _, rfl, notBlank rfl, by decide⟩
  | tagged => exact noBrace_head ⟨_, _, rfl, notBlank rfl, by decide⟩


theorem noBrace_root {es : List RootEntry} {s : List Char} (h : RootText es s) : NoBrace s := by
  cases h with
  | nil hg =>
    have := noBrace_gap hg (s := []) (by intro b u e; simp at e)
    simpa using this
  | cons hg hd hk =>
    obtain ⟨k, hk⟩ := rootKey hk
    simp only [List.append_assoc]
    exact noBrace_gap hg (noBrace_docs hd (noBrace_key hk _))
  | lone hg hd hk =>
    obtain ⟨k, hk⟩ := rootKey hk
    simp only [List.append_assoc]
    exact noBrace_gap hg (noBrace_docs hd (noBrace_key hk _))

theorem qmono_root (es : List RootEntry) : QMono fun ks _ _ => RootNodes es ks := fun _ _ _ _ _ h => h

theorem root_reads {source : List Char} {es : List RootEntry} {s : List Char} (h : RootText es s) :
    ∀ p, Here source s p → Reads source none (toksAt s p) [] fun ks _ _ => RootNodes es ks := by
  induction h with
  | nil hg =>
    rename_i g
    intro p _
    have : Reads source none (toksAt (g ++ []) p) [] fun ks _ _ => RootNodes [] ks := by
      refine reads_gap (.inl rfl) (qmono_root _) hg ?_
      intro n g st hp _
      cases n with
      | zero => simp [parseEntries] at hp
      | succ n =>
        rw [toksAt_nil, parseEntries_cont, skipTrivia_id rfl] at hp
        simp only [bumpDocs, reduceCtorEq, and_false, or_self, if_false, Bool.false_eq_true] at hp
        rw [cont, if_pos (by simp [St.peek, St.atEof])] at hp
        cases hp
        exact ⟨[], rfl, .nil⟩
    simpa using this
  | cons hg hd hk hb hne hv htr ht hf hend ih =>
    intro p hh
    obtain ⟨k, hk'⟩ := rootKey hk
    simp only [List.append_assoc] at hh ⊢
    refine reads_pair (.inl rfl) (qmono_root _) (qmono_root _) hg hd hk' hb hne hv ((value_reads hv).2 _ (.inl rfl)) htr hend
      (fun b u e hb => (noBrace_root ht b u e hb).elim) hf hh
      (ih _ (by have := hh.tail.tail.tail.tail.tail.tail; simpa only [utf8Len_append, Nat.add_assoc] using this)) ?_
    intro ds gk gv cs ks nl toks h1 h2 h3 h4 h5 _
    exact .pair h1 hk h2 h3 h4 h5
  | lone hg hd hk htr ht hf hend ih =>
    intro p hh
    obtain ⟨k, hk'⟩ := rootKey hk
    simp only [List.append_assoc] at hh ⊢
    refine reads_lone (.inl rfl) (qmono_root _) (qmono_root _) hg hd hk' htr hend
      (fun b u e hb => (noBrace_root ht b u e hb).elim) hf hh
      (ih _ (by have := hh.tail.tail.tail.tail; simpa only [utf8Len_append, Nat.add_assoc] using this)) ?_
    intro ds gk cs ks nl toks h1 h2 h4 h5
    exact .lone h1 hk h2 h4 h5

/-- The concrete syntax tree of the text of a document stands for the document. -/
theorem parse_root {es : List RootEntry} {s : List Char} (h : RootText es s) (ho : (parse s).isOk = true) :
    ∃ g ks, (parse s).green = .node .DOCUMENT g ∧ kidsOf [] g = some ks ∧ RootNodes es ks := by
  obtain ⟨g, st, h1, h2, -⟩ := parse_spec s
  rw [tokenIter_eq] at h1
  have he : st.errors = [] := by
    rw [h2] at ho
    simpa [Parse.isOk] using ho
  obtain ⟨ks, h3, h4⟩ := root_reads h 0 ⟨[], rfl, rfl⟩ _ _ _ h1 he
  exact ⟨g, ks, by rw [h2], h3, h4⟩

end Styx.Cst
