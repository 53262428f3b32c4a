import Verif.Impl.Read
import Verif.Impl.Shared

/-! # How the parsers of the other implementations read shared texts: scalars and tags -/

namespace Styx.Impl

open Styx.Spec

/-! ## What may follow -/

theorem sharedFollows_append {e : Tail} {x : List Char} (h : SharedFollows e x) (hx : HasInk x) (rest : List Char) :
    SharedFollows e (x ++ rest) := by
  induction e with
  | closed => exact follows_append (e := .closed) h hx rest
  | word => exact follows_append (e := .word) h hx rest
  | line =>
    rcases h with rfl | ⟨r, rfl⟩
    · exact absurd rfl hx.ne_nil
    · exact .inr ⟨r ++ rest, rfl⟩
  | attrs last ih => exact ⟨ih h.1, (follows_append (e := .attrs .closed) ⟨trivial, h.2⟩ hx rest).2⟩

theorem wordEnd {rest : List Char} (h : Follows .word rest) : WordEnd rest := by
  rcases h with rfl | ⟨c, r, rfl, hc⟩
  · exact .inl rfl
  · refine .inr ⟨c, r, rfl, ?_⟩
    simp at hc
    rcases hc with rfl | rfl | rfl | rfl | rfl | rfl | rfl <;> decide

theorem wordEnd_tag {rest : List Char} (h : Follows .word rest) :
    rest = [] ∨ ∃ c r, rest = c :: r ∧ isTagChar c = false ∧ isTagStart c = false := by
  rcases h with rfl | ⟨c, r, rfl, hc⟩
  · exact .inl rfl
  · refine .inr ⟨c, r, rfl, ?_⟩
    simp at hc
    rcases hc with rfl | rfl | rfl | rfl | rfl | rfl | rfl <;> decide

/-! ## First tokens -/

/-- The kinds of first tokens of values. -/
def opens : TokKind → Bool
  | .scalar | .quoted | .raw | .heredoc | .lbrace | .lparen | .at | .tag => true
  | _ => false

/-- The text begins with the first token of a value. -/
def Opens (d : Dialect) (x : List Char) : Prop :=
  Start x ∧ ∀ ws nl, ∃ t r, readToken d ws nl x = .ok (t, r) ∧ opens t.kind = true

theorem Opens.core {d : Dialect} {x : List Char} (h : Opens d x) : core false x = x := by
  refine core_start h.1 ?_
  intro hh
  cases x with
  | nil => cases hh
  | cons c x =>
    simp at hh
    subst hh
    obtain ⟨t, r, h1, h2⟩ := h.2 false false
    cases h1
    cases h2

theorem Opens.lexes {d : Dialect} {x : List Char} (h : Opens d x) : Lexes d x := by
  obtain ⟨t, r, h1, -⟩ := h.2 false false
  refine ⟨t, r, ?_⟩
  unfold nextToken
  rw [skipSpace_start h.1]
  exact h1

theorem Opens.gap {d : Dialect} {g x : List Char} (hg : Gap false g) (h : Opens d x) :
    Lexes d (g ++ x) ∧ ∀ st, Ready d (g ++ x) st → ∃ ws nl, At d ws nl x st := by
  obtain ⟨ws, nl, hs⟩ := skipSpace_gap hg x false false
  rw [skipSpace_start h.1] at hs
  constructor
  · obtain ⟨t, r, h1, -⟩ := h.2 ws nl
    refine ⟨t, r, ?_⟩
    unfold nextToken
    rw [hs]
    exact h1
  · intro st hst
    rw [ready_iff, hs] at hst
    exact ⟨ws, nl, hst⟩

theorem Opens.blanks {d : Dialect} {b x : List Char} (hb : Blanks b) (h : Opens d x) :
    Lexes d (b ++ x) ∧ ∀ st, Ready d (b ++ x) st → At d (!b.isEmpty) false x st := by
  have hs := skipSpace_blanks hb x false false
  rw [skipSpace_start h.1, Bool.false_or] at hs
  constructor
  · obtain ⟨t, r, h1, -⟩ := h.2 (!b.isEmpty) false
    refine ⟨t, r, ?_⟩
    unfold nextToken
    rw [hs]
    exact h1
  · intro st hst
    rw [ready_iff, hs] at hst
    exact hst

theorem At.opens {d : Dialect} {ws nl : Bool} {x : List Char} {st : St} (h : At d ws nl x st) (ho : Opens d x) :
    Impl.opens st.cur.kind = true ∧ st.cur.ws = ws ∧ st.cur.nl = nl ∧ st.err = none := by
  obtain ⟨t, r, h1, rfl⟩ := h
  obtain ⟨t', r', h2, h3⟩ := ho.2 ws nl
  rw [h1] at h2
  cases h2
  exact ⟨h3, (readToken_flags h1).1, (readToken_flags h1).2, rfl⟩

/-! ## Reading a value -/

/-- The text `s` is read as the value `v`. -/
structure Reads (d : Dialect) (v : Value) (e : Tail) (s : List Char) : Prop where
  opens : ∀ rest, SharedFollows e rest → Opens d (s ++ rest)
  reads : ∀ rest ws nl st, SharedFollows e rest → Lexes d rest → At d ws nl (s ++ rest) st →
    ∃ N st', Ready d rest st' ∧ ∀ n, N ≤ n → parseValue d n st = .ok (shed v) st' ∧
      (e.notAttrs → parseAttributeValue d n st = .ok (shed v) st')

/-- The kind of token of a scalar. -/
def tokKind : ScalarKind → TokKind
  | .bare => .scalar
  | .quoted => .quoted
  | .raw => .raw
  | .heredoc => .heredoc

theorem lex_scalar (d : Dialect) (ws nl : Bool) {v k e s rest} (h : SharedScalar v k e s) (hf : SharedFollows e rest) :
    readToken d ws nl (s ++ rest) = .ok (⟨tokKind k, v, ws, nl⟩, rest) := by
  cases h with
  | bare h => exact lex_bare d ws nl h (wordEnd hf)
  | quoted h1 h2 h3 h4 => exact lex_quoted d ws nl h4 h1 h2 h3 rest
  | raw h1 h2 => exact lex_raw d ws nl h2 rest
  | heredoc h1 h2 h3 h4 => exact lex_heredoc d ws nl h1 h2 h3 h4 hf

theorem start_bare {s x : List Char} (h : BareText s) (hx : x.head? ≠ some '/') : Start (s ++ x) := by
  obtain ⟨h1, c, r, rfl, -, h2, -⟩ := h
  have hc := h1 c (by simp)
  refine .inr ⟨c, r ++ x, rfl, ?_, ?_⟩
  · have := special_not_bare hc.1 hc.2
    unfold isSpecial at this
    unfold isSpace
    grind
  · rintro ⟨rfl, hh⟩
    cases r with
    | nil => exact hx hh
    | cons y r => exact h2 ⟨rfl, hh⟩

theorem word_no_slash {rest : List Char} (h : Follows .word rest) : rest.head? ≠ some '/' := by
  rcases h with rfl | ⟨c, r, rfl, hc⟩
  · simp
  · intro hh
    simp at hh
    subst hh
    simp at hc

theorem start_char {c : Char} {r : List Char} (h1 : isSpace c = false) (h2 : c ≠ '/') : Start (c :: r) :=
  .inr ⟨c, r, rfl, h1, fun h => h2 h.1⟩

theorem start_scalar {v k e s rest} (h : SharedScalar v k e s) (hf : SharedFollows e rest) : Start (s ++ rest) := by
  cases h with
  | bare h => exact start_bare h (word_no_slash hf)
  | quoted => exact start_char (by decide) (by decide)
  | raw => exact start_char (by decide) (by decide)
  | heredoc => exact start_char (by decide) (by decide)

theorem reads_scalar (d : Dialect) {v k e s} (h : SharedScalar v k e s) : Reads d (scalarValue v k) e s where
  opens rest hf := ⟨start_scalar h hf, fun ws nl => ⟨_, _, lex_scalar d ws nl h hf, by cases k <;> rfl⟩⟩
  reads rest ws nl st hf hl hst := by
    obtain ⟨t, r, h1, rfl⟩ := hst
    rw [lex_scalar d ws nl h hf] at h1
    cases h1
    obtain ⟨st', h2, h3⟩ := hl.advance ⟨tokKind k, v, ws, nl⟩
    refine ⟨1, st', h2, ?_⟩
    intro n hn
    obtain ⟨n, rfl⟩ : ∃ m, n = m + 1 := ⟨n - 1, by omega⟩
    have hp : parseScalar d ⟨⟨tokKind k, v, ws, nl⟩, none, rest, none⟩ = .ok (.scalar v k none) st' := by
      unfold parseScalar
      rw [bind_cur]
      cases k <;> exact bind_ok h3
    constructor
    · rw [parseValue, bind_ok (checkErr_none rfl), bind_cur]
      cases h with
      | bare h =>
        show (advance d >>= _) _ = _
        rw [bind_ok h3, bind_cur, if_neg]
        · rfl
        · rintro ⟨g1, g2⟩
          rcases word_next hf h2 with g | g | g | g | g <;> simp_all
      | quoted => exact bind_ok hp
      | raw => exact bind_ok hp
      | heredoc => exact bind_ok hp
    · intro _
      rw [parseAttributeValue, bind_cur]
      cases k <;> exact bind_ok hp

theorem reads_unit (d : Dialect) : Reads d (.mk none none none) .word ['@'] where
  opens rest hf := ⟨start_char (by decide) (by decide), fun ws nl => ⟨_, _, lex_at d ws nl (by
    rcases wordEnd_tag hf with h | ⟨c, r, h1, -, h2⟩
    · exact .inl h
    · exact .inr ⟨c, r, h1, h2⟩), rfl⟩⟩
  reads rest ws nl st hf hl hst := by
    obtain ⟨t, r, h1, rfl⟩ := hst
    have := lex_at d ws nl (rest := rest) (by
      rcases wordEnd_tag hf with h | ⟨c, r, h1, -, h2⟩
      · exact .inl h
      · exact .inr ⟨c, r, h1, h2⟩)
    rw [List.singleton_append, this] at h1
    cases h1
    obtain ⟨st', h2, h3⟩ := hl.advance ⟨.at, ['@'], ws, nl⟩
    refine ⟨1, st', h2, ?_⟩
    intro n hn
    obtain ⟨n, rfl⟩ : ∃ m, n = m + 1 := ⟨n - 1, by omega⟩
    constructor
    · rw [parseValue, bind_ok (checkErr_none rfl), bind_cur]
      show (advance d >>= _) _ = _
      rw [bind_ok h3, bind_cur, if_pos]
      · rfl
      · rcases word_next hf h2 with g | g | g | g | g <;> simp [g]
    · intro _
      rw [parseAttributeValue, bind_cur]
      exact bind_ok h3

theorem reads_tag (d : Dialect) {n : List Char} (hn : TagName n) :
    Reads d (.mk (some ⟨n, none⟩) none none) .word ('@' :: n) where
  opens rest hf := ⟨start_char (by decide) (by decide), fun ws nl => ⟨_, _, lex_tag d ws nl hn (by
    rcases wordEnd_tag hf with h | ⟨c, r, h1, h2, -⟩
    · exact .inl h
    · exact .inr ⟨c, r, h1, h2⟩), rfl⟩⟩
  reads rest ws nl st hf hl hst := by
    obtain ⟨t, r, h1, rfl⟩ := hst
    have := lex_tag d ws nl hn (rest := rest) (by
      rcases wordEnd_tag hf with h | ⟨c, r, h1, h2, -⟩
      · exact .inl h
      · exact .inr ⟨c, r, h1, h2⟩)
    rw [this] at h1
    cases h1
    obtain ⟨st', h2, h3⟩ := hl.advance ⟨.tag, n, ws, nl⟩
    refine ⟨2, st', h2, ?_⟩
    intro m hm
    obtain ⟨m, rfl⟩ : ∃ k, m = k + 2 := ⟨m - 2, by omega⟩
    have hp : parseTag d (m + 1) ⟨⟨.tag, n, ws, nl⟩, none, rest, none⟩ = .ok (.mk (some ⟨n, none⟩) none none) st' := by
      rw [parseTag, bind_cur, bind_ok h3, bind_cur]
      by_cases hw : st'.cur.ws = true
      · rw [if_pos hw]; rfl
      · rw [if_neg hw]
        rcases word_next hf h2 with g | g | g | g | g
        · exact (hw g).elim
        all_goals simp only [g]; rfl
    constructor
    · rw [parseValue, bind_ok (checkErr_none rfl), bind_cur]
      exact hp
    · intro _
      rw [parseAttributeValue, bind_cur]
      exact hp

/-- The payload of a tag is read as the value it would be without the tag. -/
theorem tag_payload {d : Dialect} {c tk : Tok} {r w : List Char} {p : Payload} {st' : St} {m : Nat}
    (ha : nextToken d w = .ok (c, r)) (hws : c.ws = false)
    (hk : c.kind = .lbrace ∨ c.kind = .lparen ∨ c.kind = .quoted)
    (hv : parseValue d (m + 1) ⟨c, none, r, none⟩ = .ok (.mk none (some p) none) st') :
    parseTag d (m + 1) ⟨tk, none, w, none⟩ = .ok (.mk (some ⟨tk.text, none⟩) (some p) none) st' := by
  rw [parseTag, bind_cur, bind_ok (advance_ok ha), bind_cur]
  simp only [hws]
  rw [if_neg (by simp)]
  rw [parseValue, bind_ok (checkErr_none rfl), bind_cur] at hv
  rcases hk with hk | hk | hk
  · simp only [hk] at hv ⊢
    cases ho : parseObject d m ⟨c, none, r, none⟩ with
    | ok es st1 =>
      rw [bind_ok ho] at hv ⊢
      cases hv
      rfl
    | fail e st1 =>
      exfalso
      change P.bind _ _ _ = _ at hv
      unfold P.bind at hv
      rw [ho] at hv
      cases hv
    | fuel =>
      exfalso
      change P.bind _ _ _ = _ at hv
      unfold P.bind at hv
      rw [ho] at hv
      cases hv
  · simp only [hk] at hv ⊢
    cases ho : parseSequence d m ⟨c, none, r, none⟩ with
    | ok es st1 =>
      rw [bind_ok ho] at hv ⊢
      cases hv
      rfl
    | fail e st1 =>
      exfalso
      change P.bind _ _ _ = _ at hv
      unfold P.bind at hv
      rw [ho] at hv
      cases hv
    | fuel =>
      exfalso
      change P.bind _ _ _ = _ at hv
      unfold P.bind at hv
      rw [ho] at hv
      cases hv
  · simp only [hk] at hv ⊢
    cases ho : parseScalar d ⟨c, none, r, none⟩ with
    | ok es st1 =>
      rw [bind_ok ho] at hv ⊢
      cases hv
      rfl
    | fail e st1 =>
      exfalso
      change P.bind _ _ _ = _ at hv
      unfold P.bind at hv
      rw [ho] at hv
      cases hv
    | fuel =>
      exfalso
      change P.bind _ _ _ = _ at hv
      unfold P.bind at hv
      rw [ho] at hv
      cases hv

theorem payload_token {d : Dialect} {ws nl : Bool} {n s rest r : List Char} {t : Tok} (hp : SharedPayload n s)
    (h : readToken d ws nl (s ++ rest) = .ok (t, r)) : t.kind = .lbrace ∨ t.kind = .lparen ∨ t.kind = .quoted := by
  obtain ⟨c, s, rfl, hc⟩ := hp
  rcases hc with rfl | rfl | ⟨rfl, -⟩
  · cases h; simp
  · cases h; simp
  · have h : (readQuoted d 0 (s ++ rest)).map _ = _ := h
    obtain ⟨a, -, ha⟩ := map_ok h
    cases ha
    simp

theorem reads_tagged (d : Dialect) {n p e s} (hn : TagName n) (hp : SharedPayload n s)
    (h : Reads d (.mk none (some p) none) e s) : Reads d (.mk (some ⟨n, none⟩) (some p) none) e ('@' :: n ++ s) := by
  have hlex : ∀ ws nl rest, readToken d ws nl ('@' :: n ++ (s ++ rest)) = .ok (⟨.tag, n, ws, nl⟩, s ++ rest) := by
    intro ws nl rest
    refine lex_tag d ws nl hn ?_
    obtain ⟨c, r, rfl, hc⟩ := hp
    refine .inr ⟨c, r ++ rest, rfl, ?_⟩
    rcases hc with rfl | rfl | ⟨rfl, -⟩ <;> decide
  constructor
  · intro rest hf
    rw [List.append_assoc]
    exact ⟨start_char (by decide) (by decide), fun ws nl => ⟨_, _, hlex ws nl rest, rfl⟩⟩
  · intro rest ws nl st hf hl hst
    obtain ⟨t, r, h1, rfl⟩ := hst
    rw [List.append_assoc, hlex] at h1
    cases h1
    have ho := h.opens rest hf
    obtain ⟨c, r, hc, -⟩ := ho.2 false false
    have hnext : nextToken d (s ++ rest) = .ok (c, r) := by
      unfold nextToken
      rw [skipSpace_start ho.1]
      exact hc
    obtain ⟨N, st', h2, h3⟩ := h.reads rest false false ⟨c, none, r, none⟩ hf hl ⟨c, r, hc, rfl⟩
    obtain ⟨p', hp'⟩ : ∃ p', shedPayload (some p) = some p' := by cases p <;> exact ⟨_, rfl⟩
    have hshed : shed (.mk none (some p) none) = .mk none (some p') none := by rw [shed, hp']; rfl
    have hshed' : shed (.mk (some ⟨n, none⟩) (some p) none) = .mk (some ⟨n, none⟩) (some p') none := by
      rw [shed, hp']; rfl
    refine ⟨N + 2, st', h2, ?_⟩
    intro m hm
    obtain ⟨m, rfl⟩ : ∃ k, m = k + 2 := ⟨m - 2, by omega⟩
    have hv := (h3 (m + 1) (by omega)).1
    rw [hshed] at hv
    have := tag_payload (tk := ⟨.tag, n, ws, nl⟩) hnext (readToken_flags hc).1 (payload_token hp hc) hv
    rw [hshed']
    constructor
    · rw [parseValue, bind_ok (checkErr_none rfl), bind_cur]
      exact this
    · intro _
      rw [parseAttributeValue, bind_cur]
      exact this

theorem reads_key (d : Dialect) {k e s} (h : SharedKey k e s) : Reads d k e s := by
  cases h with
  | scalar h _ => exact reads_scalar d h
  | unit => exact reads_unit d
  | tag h => exact reads_tag d h
  | tagged h1 h2 h3 _ => exact reads_tagged d h1 h3 (reads_scalar d h2)

end Styx.Impl
