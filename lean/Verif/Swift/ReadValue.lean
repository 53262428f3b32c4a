import Verif.Swift.Lex
import Verif.Swift.Hang
import Verif.Swift.Embed
import Verif.Impl.ReadValue

/-! # How the Swift parser reads the documents of `Verif.Swift.Spec`: scalars and tags -/

namespace Styx.Swift

open Styx.Spec
open Styx.Impl (Start takeWhile_all start_bare start_char word_no_slash sharedFollows_append)

/-! ## Tokens and their flags -/

theorem same_ite {ws nl : Bool} {p : Prop} [Decidable p] {x y x' y' : Tok × St}
    (hx : x = ({ x'.1 with ws := ws, nl := nl }, x'.2)) (hy : y = ({ y'.1 with ws := ws, nl := nl }, y'.2)) :
    (if p then x else y) = ({ (if p then x' else y').1 with ws := ws, nl := nl }, (if p then x' else y').2) := by
  by_cases h : p
  · rw [if_pos h, if_pos h]; exact hx
  · rw [if_neg h, if_neg h]; exact hy

/-- The space before a token changes its flags only. -/
theorem readToken_flags (U : Classes) (ws nl : Bool) (x : List Char) : readToken U ws nl x =
    ({ (readToken U false false x).1 with ws := ws, nl := nl }, (readToken U false false x).2) := by
  cases x with
  | nil => rfl
  | cons c cs =>
    rw [readToken, readToken]
    refine same_ite rfl ?_
    refine same_ite rfl ?_
    refine same_ite rfl ?_
    refine same_ite rfl ?_
    refine same_ite rfl ?_
    refine same_ite rfl ?_
    refine same_ite rfl ?_
    refine same_ite ?_ ?_
    · cases readQuoted 0 cs <;> rfl
    refine same_ite ?_ ?_
    · refine same_ite ?_ rfl
      cases Impl.readRaw ('"' :: List.replicate (cs.takeWhile (· == '#')).length '#')
        (cs.drop (cs.takeWhile (· == '#')).length).tail <;> rfl
    refine same_ite ?_ ?_
    · refine same_ite ?_ rfl
      cases readHeredoc U cs.tail <;> rfl
    exact same_ite rfl rfl

/-- The kind of the first token. -/
def kindOf (U : Classes) (x : List Char) : Kind := (readToken U false false x).1.kind

theorem readToken_kind (U : Classes) (ws nl : Bool) (x : List Char) : (readToken U ws nl x).1.kind = kindOf U x := by
  rw [readToken_flags]; rfl

theorem readToken_ws (U : Classes) (ws nl : Bool) (x : List Char) : (readToken U ws nl x).1.ws = ws := by
  rw [readToken_flags]

theorem readToken_nl (U : Classes) (ws nl : Bool) (x : List Char) : (readToken U ws nl x).1.nl = nl := by
  rw [readToken_flags]

/-! ## States -/

/-- The next token is the first one of `x`. -/
def At (U : Classes) (ws nl : Bool) (x : List Char) (st : St) : Prop := nextToken U st = readToken U ws nl x

/-- The text `rest` is yet to be read; its first line break may have been read with a heredoc. -/
def Behind (rest : List Char) (st : St) : Prop := st = ⟨rest, false⟩ ∨ ∃ r, rest = '\n' :: r ∧ st = ⟨r, true⟩

theorem at_plain (U : Classes) (w : List Char) :
    At U (skipBlank false false false w).1 (skipBlank false false false w).2.1 (behindBlank w) ⟨w, false⟩ := rfl

theorem Behind.at {U : Classes} {w : List Char} {st : St} (h : Behind w st) :
    ∃ ws, At U ws (skipBlank false false false w).2.1 (behindBlank w) st := by
  rcases h with rfl | ⟨r, rfl, rfl⟩
  · exact ⟨_, at_plain U w⟩
  · refine ⟨(skipBlank false false true r).1, ?_⟩
    show readToken U _ (skipBlank false false true r).2.1 (skipBlank false false true r).2.2 = _
    rw [behindBlank, skip_newline, (skip_flags false false true r true true).1, (skip_flags false false true r true true).2]

theorem At.kind {U : Classes} {ws nl : Bool} {x : List Char} {st : St} (h : At U ws nl x st) :
    (nextToken U st).1.kind = kindOf U x := by rw [h, readToken_kind]

theorem Behind.kind {U : Classes} {w : List Char} {st : St} (h : Behind w st) :
    (nextToken U st).1.kind = kindOf U (behindBlank w) := by
  obtain ⟨ws, h⟩ := h.at (U := U)
  exact h.kind

theorem Behind.plain {w : List Char} {st : St} (h : Behind w st) (hn : w.head? ≠ some '\n') : st = ⟨w, false⟩ := by
  rcases h with h | ⟨r, rfl, -⟩
  · exact h
  · simp at hn

/-- The next token is not `>`. -/
def NoGt (U : Classes) (w : List Char) : Prop := kindOf U (behindBlank w) ≠ .gt

theorem opens_noGt {U : Classes} {w : List Char} (h : opens (kindOf U (behindBlank w)) = true) : NoGt U w := by
  intro hh
  rw [hh] at h
  cases h

theorem cr_error (U : Classes) (hU : Standard U) (x : List Char) : ∃ e, kindOf U ('\r' :: x) = .error e := by
  unfold kindOf
  rw [readToken]
  rw [if_neg (by decide), if_neg (by decide), if_neg (by decide), if_neg (by decide), if_neg (by decide),
    if_neg (by decide), if_neg (by decide), if_neg (by decide), if_neg (by simp), if_neg (by simp), if_neg]
  · exact ⟨_, rfl⟩
  · unfold canStartBare
    rw [hU.space]
    simp

/-- The token behind a word. -/
theorem word_next {U : Classes} (hU : Standard U) {rest : List Char} (h : Follows .word rest) :
    (nextToken U ⟨rest, false⟩).1.ws = true ∨ opens (nextToken U ⟨rest, false⟩).1.kind = false := by
  rcases h with rfl | ⟨c, r, rfl, hc⟩
  · exact .inr rfl
  · have hw : (skipBlank false false false (c :: r)).1 = true → (nextToken U ⟨c :: r, false⟩).1.ws = true := by
      intro h
      rw [← h]
      exact readToken_ws ..
    simp only [List.mem_cons, List.not_mem_nil, or_false] at hc
    rcases hc with rfl | rfl | rfl | rfl | rfl | rfl | rfl
    · exact .inl (hw (by rw [skip_blank (.inl rfl)]; exact skip_ws ..))
    · exact .inl (hw (by rw [skip_blank (.inr rfl)]; exact skip_ws ..))
    · exact .inl (hw (by rw [skip_newline]; exact skip_ws ..))
    · by_cases hn : r.head? = some '\n'
      · right
        cases r with
        | nil => cases hn
        | cons x r =>
          simp at hn
          subst hn
          show opens (readToken U (skipBlank false false false ('\r' :: '\n' :: r)).1 _ _).1.kind = false
          rw [readToken_kind]
          obtain ⟨e, he⟩ := cr_error U hU ('\n' :: r)
          exact (congrArg opens he).trans rfl
      · exact .inl (hw (by rw [skip_cr _ _ _ hn]; exact skip_ws ..))
    · exact .inr rfl
    · exact .inr rfl
    · exact .inr rfl

/-! ## Reading a value -/

/-- The text `s` is read as the value `v`. -/
structure Reads (U : Classes) (v : Value) (e : Tail) (s : List Char) : Prop where
  start : ∀ rest, SharedFollows e rest → Start (s ++ rest) ∧ opens (kindOf U (s ++ rest)) = true
  reads : ∀ rest ws nl st, SharedFollows e rest → NoGt U rest → At U ws nl (s ++ rest) st →
    ∃ N st', Behind rest st' ∧ ∀ n, N ≤ n → parseValue U n st = .ok (shed v) st' ∧
      (e.notAttrs → parseAttributeValue U n st = .ok (shed v) st')

/-- The kind of token of a scalar. -/
def tokKind : ScalarKind → Kind
  | .bare => .bare
  | .quoted => .quoted
  | .raw => .raw
  | .heredoc => .heredoc

theorem lex_scalar {U : Classes} (hU : Standard U) {v k e s rest} (h : SwiftScalar v k e s)
    (hf : SharedFollows e rest) : ∃ st', Behind rest st' ∧
      ∀ ws nl, readToken U ws nl (s ++ rest) = (⟨tokKind k, v, ws, nl⟩, st') := by
  cases h with
  | bare h =>
    refine ⟨_, .inl rfl, fun ws nl => lex_bare hU ws nl h (wordEnd hU hf) (.inl ?_)⟩
    intro hh
    rcases hf with rfl | ⟨c, r, rfl, hc⟩
    · cases hh
    · simp at hh; subst hh; simp at hc
  | quoted h1 h2 h3 h4 h5 => exact ⟨_, .inl rfl, fun ws nl => lex_quoted U ws nl h4 h1 h2 h3 h5 rest⟩
  | raw h1 h2 => exact ⟨_, .inl rfl, fun ws nl => lex_raw U ws nl h2 rest⟩
  | heredoc h1 h2 h3 h4 h5 =>
    refine ⟨⟨rest.tail, !rest.isEmpty⟩, ?_, fun ws nl => lex_heredoc hU ws nl h1 h2 h3 h4 h5 hf⟩
    rcases hf with rfl | ⟨r, rfl⟩
    · exact .inl rfl
    · exact .inr ⟨r, rfl, rfl⟩

theorem reads_scalar {U : Classes} (hU : Standard U) {v k e s} (h : SwiftScalar v k e s) :
    Reads U (scalarValue v k) e s where
  start rest hf := by
    refine ⟨Impl.start_scalar (shared_scalar h) hf, ?_⟩
    obtain ⟨st', -, h2⟩ := lex_scalar hU h hf
    unfold kindOf
    rw [h2]
    cases k <;> rfl
  reads rest ws nl st hf hg hst := by
    obtain ⟨st', h1, h2⟩ := lex_scalar hU h hf
    unfold At at hst
    rw [h2] at hst
    have htok : tokenScalar ⟨tokKind k, v, ws, nl⟩ = .scalar v k none := by cases k <;> rfl
    refine ⟨2, st', h1, ?_⟩
    intro n hn
    obtain ⟨n, rfl⟩ : ∃ m, n = m + 2 := ⟨n - 2, by omega⟩
    have hp : parseScalar U (n + 1) st = .ok (.scalar v k none) st' := by
      rw [parseScalar, bind_advance, bind_cur, if_neg (fun hh => hg (h1.kind ▸ (by rw [hst] at hh; exact hh.1))), hst, htok]
      rfl
    constructor
    · rw [parseValue, bind_cur, hst]
      cases k <;> exact bind_ok hp
    · intro _
      rw [parseAttributeValue, bind_cur, hst]
      have : (advance U >>= fun t => (pure (.mk none (some (tokenScalar t)) none) : P Value)) st =
          .ok (scalarValue v k) st' := by
        rw [bind_advance, hst, htok]
        rfl
      cases k <;> exact this

theorem at_kind (U : Classes) (x : List Char) (ws nl : Bool) :
    readToken U ws nl ('@' :: x) = (⟨.at, [], ws, nl⟩, ⟨x, false⟩) := rfl

/-- Tagged values are read alike where values and where values of attributes stand. -/
theorem tagged_ok {U : Classes} {st st' : St} {v : Value} {n : Nat} (hk : (nextToken U st).1.kind = .at)
    (h : parseTagged U n st = .ok v st') :
    parseValue U (n + 1) st = .ok v st' ∧ parseAttributeValue U (n + 1) st = .ok v st' := by
  constructor
  · rw [parseValue, bind_cur, hk]; exact h
  · rw [parseAttributeValue, bind_cur, hk]; exact h

theorem reads_unit {U : Classes} (hU : Standard U) : Reads U (.mk none none none) .word ['@'] where
  start rest _ := ⟨start_char (by decide) (by decide), rfl⟩
  reads rest ws nl st hf _ hst := by
    have hst : nextToken U st = (⟨.at, [], ws, nl⟩, ⟨rest, false⟩) := hst
    refine ⟨2, ⟨rest, false⟩, .inl rfl, ?_⟩
    intro n hn
    obtain ⟨n, rfl⟩ : ∃ m, n = m + 2 := ⟨n - 2, by omega⟩
    have hp : parseTagged U (n + 1) st = .ok (.mk none none none) ⟨rest, false⟩ := by
      rw [parseTagged, bind_advance, hst, bind_cur, if_neg]
      · rfl
      · rintro ⟨g1, g2⟩
        rcases word_next hU hf with g | g
        · rw [g] at g2; cases g2
        · rw [g1] at g; cases g
    have := tagged_ok (by rw [hst]) hp
    exact ⟨this.1, fun _ => this.2⟩

theorem tagPart_self {n : List Char} (h : '@' ∉ n) : tagPart n = n := by
  have := (takeWhile_all (p := (· != '@')) (s := n) (rest := [])
    (fun c hc => by simp only [bne_iff_ne]; rintro rfl; exact h hc) (.inl rfl)).1
  simpa [tagPart] using this

/-- Behind `@` the name of a tag is read. -/
theorem lex_name {U : Classes} (hU : Standard U) {n rest : List Char} (hn : TagName n)
    (hr : rest = [] ∨ ∃ c r, rest = c :: r ∧ isBareChar U c = false) (hq : rest.head? ≠ some '"' ∨ n ≠ ['r']) :
    nextToken U ⟨n ++ rest, false⟩ = (⟨.bare, n, false, false⟩, ⟨rest, false⟩) := by
  have hb := (tagName_bare hn).1
  have hs : Start (n ++ rest) := by
    refine start_bare hb ?_
    intro hh
    rcases hr with rfl | ⟨c, r, rfl, hc⟩
    · cases hh
    · simp at hh
      subst hh
      rw [bareChar hU (by decide) (by decide)] at hc
      cases hc
  unfold nextToken
  rw [skip_start hs]
  exact lex_bare hU _ _ hb hr hq

theorem reads_tag {U : Classes} (hU : Standard U) {n : List Char} (hn : TagName n) :
    Reads U (.mk (some ⟨n, none⟩) none none) .word ('@' :: n) where
  start rest _ := ⟨start_char (by decide) (by decide), rfl⟩
  reads rest ws nl st hf _ hst := by
    have hst : nextToken U st = (⟨.at, [], ws, nl⟩, ⟨n ++ rest, false⟩) := hst
    have hq : rest.head? ≠ some '"' ∨ n ≠ ['r'] := by
      left
      intro hh
      rcases hf with rfl | ⟨c, r, rfl, hc⟩
      · cases hh
      · simp at hh; subst hh; simp at hc
    have hname := lex_name hU hn (wordEnd hU hf) hq
    refine ⟨2, ⟨rest, false⟩, .inl rfl, ?_⟩
    intro m hm
    obtain ⟨m, rfl⟩ : ∃ k, m = k + 2 := ⟨m - 2, by omega⟩
    have hp : parseTagged U (m + 1) st = .ok (.mk (some ⟨n, none⟩) none none) ⟨rest, false⟩ := by
      have hat := (tagName_bare hn).2
      rw [parseTagged, bind_advance, hst, bind_cur, hname, if_pos ⟨rfl, rfl⟩, bind_advance, hname]
      simp only [tagPart_self hat, tagError_none hU hn]
      rw [if_neg hat, bind_cur]
      have hno : ∀ k, opens k = true →
          ¬ ((nextToken U ⟨rest, false⟩).1.kind = k ∧ (nextToken U ⟨rest, false⟩).1.ws = false) := by
        rintro k hk ⟨g1, g2⟩
        rcases word_next hU hf with g | g
        · rw [g] at g2; cases g2
        · rw [g1, hk] at g; cases g
      rw [if_neg (hno .lBrace rfl), if_neg (hno .lParen rfl), if_neg, if_neg (hno .at rfl)]
      · rfl
      · rintro ⟨g1, g2, -⟩
        exact hno _ (by unfold opens; rw [g1]; simp) ⟨rfl, g2⟩
    have := tagged_ok (by rw [hst]) hp
    exact ⟨this.1, fun _ => this.2⟩

theorem bind_inv {α β : Type} {p : P α} {f : α → P β} {st st' : St} {b : β} (h : (p >>= f) st = .ok b st') :
    ∃ a s, p st = .ok a s ∧ f a s = .ok b st' := by
  change P.bind p f st = _ at h
  unfold P.bind at h
  cases hp : p st with
  | ok a s => rw [hp] at h; exact ⟨a, s, rfl, h⟩
  | fail e => rw [hp] at h; cases h
  | fuel => rw [hp] at h; cases h

theorem reads_tagged {U : Classes} (hU : Standard U) {n p e s} (hn : TagName n) (hp : SwiftPayload n s)
    (h : Reads U (.mk none (some p) none) e s) : Reads U (.mk (some ⟨n, none⟩) (some p) none) e ('@' :: n ++ s) where
  start rest _ := ⟨start_char (by decide) (by decide), rfl⟩
  reads rest ws nl st hf hg hst := by
    have hst : nextToken U st = (⟨.at, [], ws, nl⟩, ⟨n ++ (s ++ rest), false⟩) := by
      rw [← List.append_assoc]; exact hst
    have hname : nextToken U ⟨n ++ (s ++ rest), false⟩ = (⟨.bare, n, false, false⟩, ⟨s ++ rest, false⟩) := by
      obtain ⟨c, r, rfl, hc⟩ := hp
      refine lex_name hU hn (.inr ⟨c, r ++ rest, rfl, ?_⟩) ?_
      · unfold isBareChar
        rcases hc with rfl | rfl | ⟨rfl, -⟩ <;> simp
      · rcases hc with rfl | rfl | ⟨rfl, hc⟩
        · exact .inl (by simp)
        · exact .inl (by simp)
        · right; rintro rfl; exact hc rfl
    have hs := h.start rest hf
    have hat : At U false false (s ++ rest) ⟨s ++ rest, false⟩ := by
      unfold At nextToken
      rw [skip_start hs.1]
    obtain ⟨N, st', h1, h2⟩ := h.reads rest false false _ hf hg hat
    obtain ⟨p', hp'⟩ : ∃ p', shedPayload (some p) = some p' := by cases p <;> exact ⟨_, rfl⟩
    have hshed : shed (.mk none (some p) none) = .mk none (some p') none := by rw [shed, hp']; rfl
    have hshed' : shed (.mk (some ⟨n, none⟩) (some p) none) = .mk (some ⟨n, none⟩) (some p') none := by
      rw [shed, hp']; rfl
    refine ⟨N + 2, st', h1, ?_⟩
    intro m hm
    obtain ⟨m, rfl⟩ : ∃ k, m = k + 2 := ⟨m - 2, by omega⟩
    have hv := (h2 (m + 1) (by omega)).1
    rw [hshed] at hv
    have hpt : parseTagged U (m + 1) st = .ok (.mk (some ⟨n, none⟩) (some p') none) st' := by
      have hno := (tagName_bare hn).2
      rw [parseTagged, bind_advance, hst, bind_cur, hname, if_pos ⟨rfl, rfl⟩, bind_advance, hname]
      simp only [tagPart_self hno, tagError_none hU hn]
      rw [if_neg hno, bind_cur]
      rw [parseValue, bind_cur] at hv
      have hws : (nextToken U ⟨s ++ rest, false⟩).1.ws = false := by rw [hat, readToken_ws]
      have hnl : (nextToken U ⟨s ++ rest, false⟩).1.nl = false := by rw [hat, readToken_nl]
      have hk : (nextToken U ⟨s ++ rest, false⟩).1.kind = .lBrace ∨ (nextToken U ⟨s ++ rest, false⟩).1.kind = .lParen ∨
          (nextToken U ⟨s ++ rest, false⟩).1.kind = .quoted := by
        rw [hat.kind]
        have ho := hs.2
        obtain ⟨c, r, rfl, hc⟩ := hp
        rcases hc with rfl | rfl | ⟨rfl, -⟩
        · exact .inr (.inl rfl)
        · exact .inl rfl
        · right; right
          unfold kindOf at ho ⊢
          rw [List.cons_append, readToken] at ho ⊢
          rw [if_neg (by decide), if_neg (by decide), if_neg (by decide), if_neg (by decide), if_neg (by decide),
            if_neg (by decide), if_neg (by decide), if_pos (by decide)] at ho ⊢
          cases hq : readQuoted 0 (r ++ rest) with
          | ok x => rfl
          | error e => rw [hq] at ho; cases ho
      rcases hk with hk | hk | hk
      · rw [if_pos ⟨hk, hws⟩]
        rw [hk] at hv
        obtain ⟨es, s1, g1, g2⟩ := bind_inv hv
        rw [bind_ok g1]
        cases g2
        rfl
      · rw [if_neg (by simp [hk]), if_pos ⟨hk, hws⟩]
        rw [hk] at hv
        obtain ⟨es, s1, g1, g2⟩ := bind_inv hv
        rw [bind_ok g1]
        cases g2
        rfl
      · rw [if_neg (by simp [hk]), if_neg (by simp [hk]), if_pos ⟨by rw [hk]; rfl, hws, hnl⟩]
        rw [hk] at hv
        obtain ⟨es, s1, g1, g2⟩ := bind_inv hv
        rw [bind_ok g1]
        cases g2
        rfl
    rw [hshed']
    have := tagged_ok (by rw [hst]) hpt
    exact ⟨this.1, fun _ => this.2⟩

theorem reads_key {U : Classes} (hU : Standard U) {k e s} (h : SwiftKey k e s) : Reads U k e s := by
  cases h with
  | scalar h _ => exact reads_scalar hU h
  | unit => exact reads_unit hU
  | tag h => exact reads_tag hU h
  | tagged h1 h2 h3 _ => exact reads_tagged hU h1 h3 (reads_scalar hU h2)

end Styx.Swift
