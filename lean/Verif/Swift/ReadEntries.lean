import Verif.Swift.ReadValue
import Verif.Impl.ReadEntries

/-! # How the Swift parser reads the documents of `Verif.Swift.Spec`: objects, sequences and attributes -/

namespace Styx.Swift

open Styx.Spec
open Styx.Impl (Start start_bare start_char sharedFollows_append sharedFollows_blank sharedKey_tail sharedKey_facts)

/-! ## What follows -/

theorem comment_next (ws nl : Bool) (r : List Char) :
    (skipBlank true ws nl r).2.2 = [] ∨ (skipBlank true ws nl r).2.1 = true := by
  suffices ∀ cm, cm = true → (skipBlank cm ws nl r).2.2 = [] ∨ (skipBlank cm ws nl r).2.1 = true from this _ rfl
  intro cm
  refine skip_cases (motive := fun cm ws nl r => cm = true →
    (skipBlank cm ws nl r).2.2 = [] ∨ (skipBlank cm ws nl r).2.1 = true) ?_ ?_ ?_ ?_ cm ws nl r
  · intro _ _ _ _; exact .inl rfl
  · rintro cm ws nl cs ih rfl
    rw [skip_crlf]
    exact ih _ _ _ rfl
  · rintro cm ws nl cs hn ih rfl
    rw [skip_cr _ _ _ hn]
    exact ih _ _ _ rfl
  · rintro cm ws nl c cs hc ih rfl
    by_cases h : c = '\n'
    · subst h
      rw [skip_newline]
      exact .inr (skip_nl ..)
    · rw [skip_cons hc, if_pos (by simpa using h)]
      exact ih _ _ _ rfl

theorem lineEnd_next {u : List Char} (h : AtLineEnd u) (ws nl : Bool) : (skipBlank false ws nl u).2.2 = [] ∨
    (skipBlank false ws nl u).2.1 = true ∨ ∃ r, (skipBlank false ws nl u).2.2 = '\r' :: r := by
  rcases h with rfl | ⟨r, rfl⟩ | ⟨r, rfl⟩
  · exact .inl rfl
  · rw [skip_newline]; exact .inr (.inl (skip_nl ..))
  · exact .inr (.inr ⟨_, rfl⟩)

/-- The token behind a run of attributes. -/
theorem lineRest_next {U : Classes} (hU : Standard U) {rest : List Char} {st : St} (h : LineRest rest)
    (hr : Behind rest st) : ¬ ((nextToken U st).1.nl = false ∧ (nextToken U st).1.kind = .bare) := by
  obtain ⟨ws, hr⟩ := hr.at (U := U)
  obtain ⟨b, u, rfl, hb, h⟩ := h
  rw [hr.kind, hr, readToken_nl, behindBlank, skip_blanks hb]
  rintro ⟨h2, h1⟩
  have key : (skipBlank false (false || !b.isEmpty) false u).2.2 = [] ∨
      (skipBlank false (false || !b.isEmpty) false u).2.1 = true ∨
      (∃ r, (skipBlank false (false || !b.isEmpty) false u).2.2 = '\r' :: r) → False := by
    rintro (h | h | ⟨r, h⟩)
    · rw [h] at h1; cases h1
    · rw [h] at h2; cases h2
    · rw [h] at h1
      obtain ⟨e, he⟩ := cr_error U hU r
      rw [he] at h1; cases h1
  rcases h with h | ⟨c, r, rfl, hc⟩ | ⟨r, rfl⟩
  · exact key (lineEnd_next h _ _)
  · have hst : Start (c :: r) := by
      refine .inr ⟨c, r, rfl, ?_, ?_⟩
      · simp at hc; rcases hc with rfl | rfl | rfl <;> rfl
      · rintro ⟨rfl, -⟩; simp at hc
    rw [skip_start hst] at h1
    simp at hc
    rcases hc with rfl | rfl | rfl <;> cases h1
  · rw [skip_slashes] at key
    exact key ((comment_next _ _ _).imp_right .inl)

/-- Where a token can be read, lines do not end with CRLF. -/
theorem lineEnd_lf {U : Classes} (hU : Standard U) {t : List Char} (h : AtLineEnd t)
    (hk : ∀ e, kindOf U (behindBlank t) ≠ .error e) : t = [] ∨ ∃ r, t = '\n' :: r := by
  rcases h with rfl | h | ⟨r, rfl⟩
  · exact .inl rfl
  · exact .inr h
  · obtain ⟨e, he⟩ := cr_error U hU ('\n' :: r)
    exact (hk e he).elim

theorem entry_trailing {U : Classes} (hU : Standard U) {tr t : List Char} (htr : Trailing tr)
    (h : tr ≠ [] → AtLineEnd t) (hk : ∀ e, kindOf U (behindBlank t) ≠ .error e) :
    behindBlank (tr ++ t) = behindBlank t := by
  refine behindBlank_trailing htr ?_
  by_cases hn : tr = []
  · exact .inl hn
  · exact .inr (lineEnd_lf hU (h hn) hk)

/-- Behind blanks, before a value. -/
theorem Behind.blanks {U : Classes} {b x : List Char} {st : St} (hb : Blanks b) (hn : b ≠ []) (hx : Start x)
    (h : Behind (b ++ x) st) : At U true false x st := by
  cases b with
  | nil => exact (hn rfl).elim
  | cons c b =>
    have hc : c ≠ '\n' := by rcases hb c (List.mem_cons_self ..) with rfl | rfl <;> decide
    rw [h.plain (by simpa using hc)]
    unfold At nextToken
    rw [skip_blanks hb, skip_start hx]
    rfl

theorem blanks_noGt {U : Classes} {b x : List Char} (hb : Blanks b) (hx : Start x) (ho : opens (kindOf U x) = true) :
    NoGt U (b ++ x) := by
  refine opens_noGt ?_
  rw [behindBlank_blanks hb, behindBlank_start hx]
  exact ho

/-! ## Sequences -/

/-- The text `t`, up to a closing parenthesis, is read as the items `vs`. -/
def ReadsItems (U : Classes) (vs : List Value) (t : List Char) : Prop :=
  HasInk t ∧ ∀ rest, (kindOf U (behindBlank (t ++ rest)) = .rParen ∨ opens (kindOf U (behindBlank (t ++ rest))) = true) ∧
    ∀ st, Behind (t ++ rest) st → ∃ N st1, (nextToken U st1).1.kind = .rParen ∧ (nextToken U st1).2 = ⟨rest, false⟩ ∧
      ∀ n, N ≤ n → parseItems U n st = .ok (shedAll vs) st1

theorem reads_sequence {U : Classes} {vs : List Value} {t : List Char} (h : ReadsItems U vs t) :
    Reads U (.mk none (some (.sequence vs none)) none) .closed ('(' :: t) where
  start rest _ := ⟨start_char (by decide) (by decide), rfl⟩
  reads rest ws nl st _ _ hst := by
    have hst : nextToken U st = (⟨.lParen, [], ws, nl⟩, ⟨t ++ rest, false⟩) := hst
    obtain ⟨N, st1, h1, h2, h3⟩ := (h.2 rest).2 _ (.inl rfl)
    refine ⟨N + 2, ⟨rest, false⟩, .inl rfl, ?_⟩
    intro n hn
    obtain ⟨n, rfl⟩ : ∃ m, n = m + 2 := ⟨n - 2, by omega⟩
    have hp : parseSequence U (n + 1) st = .ok (shedAll vs) ⟨rest, false⟩ := by
      rw [parseSequence, bind_advance, hst, bind_ok (h3 n (by omega)), bind_cur, if_pos h1, bind_advance, h2]
      rfl
    constructor
    · rw [parseValue, bind_cur, hst]
      exact bind_ok hp
    · intro _
      rw [parseAttributeValue, bind_cur, hst]
      exact bind_ok hp

theorem items_nil {U : Classes} {g : List Char} (hg : LfGap g) : ReadsItems U [] (g ++ [')']) := by
  refine ⟨⟨')', by simp, by decide⟩, ?_⟩
  intro rest
  have hb : behindBlank (g ++ [')'] ++ rest) = ')' :: rest := by
    rw [List.append_assoc, behindBlank_gap hg]
    exact behindBlank_start (start_char (by decide) (by decide))
  rw [hb]
  refine ⟨.inl rfl, ?_⟩
  intro st hst
  obtain ⟨ws, hst⟩ := hst.at (U := U)
  rw [hb] at hst
  refine ⟨1, st, hst.kind, by rw [hst]; rfl, ?_⟩
  intro n hn
  obtain ⟨n, rfl⟩ : ∃ m, n = m + 1 := ⟨n - 1, by omega⟩
  rw [parseItems, bind_cur, if_pos (.inl hst.kind)]
  rfl

theorem items_cons {U : Classes} {g s t : List Char} {v : Value} {vs : List Value} {e : Tail} (hg : LfGap g)
    (hv : Reads U v e s) (ht : ReadsItems U vs t) (hf : SharedFollows e t) :
    ReadsItems U (v :: vs) (g ++ s ++ t) := by
  refine ⟨ht.1.append_right _, ?_⟩
  intro rest
  have hf' := sharedFollows_append hf ht.1 rest
  obtain ⟨hs, ho⟩ := hv.start _ hf'
  have hb : behindBlank (g ++ s ++ t ++ rest) = s ++ (t ++ rest) := by
    simp only [List.append_assoc]
    rw [behindBlank_gap hg, behindBlank_start hs]
  rw [hb]
  refine ⟨.inr ho, ?_⟩
  intro st hst
  obtain ⟨ws, hst⟩ := hst.at (U := U)
  rw [hb] at hst
  have hng : NoGt U (t ++ rest) := by
    rcases (ht.2 rest).1 with h | h
    · unfold NoGt; rw [h]; simp
    · exact opens_noGt h
  obtain ⟨N, st', h1, h2⟩ := hv.reads _ _ _ st hf' hng hst
  obtain ⟨N', st1, h3, h4, h5⟩ := (ht.2 rest).2 st' h1
  refine ⟨N + N' + 1, st1, h3, h4, ?_⟩
  intro n hn
  obtain ⟨n, rfl⟩ : ∃ m, n = m + 1 := ⟨n - 1, by omega⟩
  have hk := hst.kind
  rw [parseItems, bind_cur, if_neg (by rintro (h | h) <;> rw [← hk, h] at ho <;> cases ho),
    if_neg (by intro h; rw [← hk, h] at ho; cases ho), bind_ok (h2 n (by omega)).1, bind_ok (h5 n (by omega)), shedAll]
  rfl

/-! ## Objects -/

/-- The text `t`, up to a closing brace, is read as the entries `es`, behind a comma if there is one. -/
def ReadsEntries (U : Classes) (c : Bool) (es : List Entry) (t : List Char) : Prop :=
  HasInk t ∧ ∀ rest, (kindOf U (behindBlank (t ++ rest)) = .rBrace ∨ opens (kindOf U (behindBlank (t ++ rest))) = true ∨
      (c = true ∧ kindOf U (behindBlank (t ++ rest)) = .comma)) ∧
    ∀ ws nl st, At U ws nl (behindBlank (t ++ rest)) st → ∃ st0,
      (if (nextToken U st).1.kind = .comma then st0 = (nextToken U st).2 else st0 = st) ∧
      ∃ N st1, (nextToken U st1).1.kind = .rBrace ∧ (nextToken U st1).2 = ⟨rest, false⟩ ∧
        ∀ n, N ≤ n → parseEntries U n st0 = .ok (shedEntries es) st1

theorem reads_object {U : Classes} {es : List Entry} {t : List Char} (h : ReadsEntries U false es t) :
    Reads U (.mk none (some (.object es none)) none) .closed ('{' :: t) where
  start rest _ := ⟨start_char (by decide) (by decide), rfl⟩
  reads rest ws nl st _ _ hst := by
    have hst : nextToken U st = (⟨.lBrace, [], ws, nl⟩, ⟨t ++ rest, false⟩) := hst
    obtain ⟨hk, hr⟩ := h.2 rest
    obtain ⟨st0, h0, N, st1, h1, h2, h3⟩ := hr _ _ _ (at_plain U (t ++ rest))
    have hkind := Behind.kind (U := U) (w := t ++ rest) (.inl rfl)
    rw [if_neg] at h0
    · subst h0
      refine ⟨N + 2, ⟨rest, false⟩, .inl rfl, ?_⟩
      intro n hn
      obtain ⟨n, rfl⟩ : ∃ m, n = m + 2 := ⟨n - 2, by omega⟩
      have hp : parseObject U (n + 1) st = .ok (shedEntries es) ⟨rest, false⟩ := by
        rw [parseObject, bind_advance, hst, bind_ok (h3 n (by omega)), bind_cur, if_pos h1, bind_advance, h2]
        rfl
      constructor
      · rw [parseValue, bind_cur, hst]
        exact bind_ok hp
      · intro _
        rw [parseAttributeValue, bind_cur, hst]
        exact bind_ok hp
    · rw [hkind]
      rcases hk with h | h | ⟨h, -⟩
      · rw [h]; simp
      · intro hh; rw [hh] at h; cases h
      · cases h

/-- The space before an entry or a closing brace, and a comma in it. -/
theorem entry_space {U : Classes} {c : Bool} {g y : List Char} (hg : EntrySpace c g)
    (hk : kindOf U (behindBlank y) ≠ .comma) :
    (kindOf U (behindBlank (g ++ y)) = kindOf U (behindBlank y) ∨ (c = true ∧ kindOf U (behindBlank (g ++ y)) = .comma)) ∧
    ∀ ws nl st, At U ws nl (behindBlank (g ++ y)) st → ∃ st0,
      (if (nextToken U st).1.kind = .comma then st0 = (nextToken U st).2 else st0 = st) ∧
      ∃ ws nl, At U ws nl (behindBlank y) st0 := by
  rcases hg with hg | ⟨hc, g1, g2, rfl, h1, h2⟩
  · have hb := behindBlank_gap hg y
    refine ⟨.inl (by rw [hb]), ?_⟩
    intro ws nl st hst
    rw [hb] at hst
    refine ⟨st, ?_, _, _, hst⟩
    rw [if_neg]
    rw [hst.kind]
    exact hk
  · have hb : behindBlank (g1 ++ ',' :: g2 ++ y) = ',' :: (g2 ++ y) := by
      rw [List.append_assoc, behindBlank_gap h1]
      exact behindBlank_start (start_char (by decide) (by decide))
    refine ⟨.inr ⟨hc, by rw [hb]; rfl⟩, ?_⟩
    intro ws nl st h
    have hkk := h.kind
    rw [hb] at h hkk
    refine ⟨(nextToken U st).2, by rw [if_pos]; exact hkk, ?_⟩
    have : (nextToken U st).2 = ⟨g2 ++ y, false⟩ := by rw [h]; rfl
    rw [this]
    have := at_plain U (g2 ++ y)
    rw [behindBlank_gap h2] at this
    exact ⟨_, _, this⟩

theorem entries_nil {U : Classes} {c : Bool} {g : List Char} (hg : EntrySpace c g) :
    ReadsEntries U c [] (g ++ ['}']) := by
  refine ⟨⟨'}', by simp, by decide⟩, ?_⟩
  intro rest
  have hb : behindBlank ('}' :: rest) = '}' :: rest := behindBlank_start (start_char (by decide) (by decide))
  have hk : kindOf U (behindBlank ('}' :: rest)) = .rBrace := by rw [hb]; rfl
  obtain ⟨h1, h2⟩ := entry_space (U := U) (y := '}' :: rest) hg (by rw [hk]; simp)
  rw [List.append_assoc, List.singleton_append]
  refine ⟨?_, ?_⟩
  · rcases h1 with h1 | h1
    · exact .inl (h1.trans hk)
    · exact .inr (.inr h1)
  · intro ws nl st hst
    obtain ⟨st0, h0, ws, nl, h3⟩ := h2 _ _ st hst
    rw [hb] at h3
    refine ⟨st0, h0, 1, st0, h3.kind, by rw [h3]; rfl, ?_⟩
    intro n hn
    obtain ⟨n, rfl⟩ : ∃ m, n = m + 1 := ⟨n - 1, by omega⟩
    rw [parseEntries, bind_cur, if_pos (.inl h3.kind)]
    rfl

theorem ReadsEntries.kind {U : Classes} {c : Bool} {es : List Entry} {t : List Char} (h : ReadsEntries U c es t)
    (rest : List Char) : (∀ e, kindOf U (behindBlank (t ++ rest)) ≠ .error e) ∧ NoGt U (t ++ rest) := by
  unfold NoGt
  rcases (h.2 rest).1 with h | h | ⟨-, h⟩
  · rw [h]; simp
  · constructor
    · intro e hh; rw [hh] at h; cases h
    · intro hh; rw [hh] at h; cases h
  · rw [h]; simp

theorem entries_cons {U : Classes} (hU : Standard U) {c : Bool} {g dt ks b s tr t : List Char}
    {ls : List (List Char)} {k v : Value} {ke e : Tail} {es : List Entry} (hg : EntrySpace c g) (hd : LfDocLines ls dt)
    (hk : SwiftKey k ke ks) (hb : Blanks b) (hbn : b ≠ []) (hv : Reads U v e s) (htr : Trailing tr)
    (ht : ReadsEntries U true es t) (hf : SharedFollows e (tr ++ t)) (he : EntryEnd tr t) :
    ReadsEntries U c (.mk k v (docOf ls) :: es) (g ++ dt ++ ks ++ b ++ s ++ tr ++ t) := by
  refine ⟨ht.1.append_right _, ?_⟩
  intro rest
  have hf' := sharedFollows_append hf (ht.1.append_right _) rest
  rw [List.append_assoc] at hf'
  obtain ⟨hke, hkg⟩ := ht.kind rest
  have htb : behindBlank (tr ++ (t ++ rest)) = behindBlank (t ++ rest) := by
    refine entry_trailing hU htr ?_ hke
    intro hn
    rw [EntryEnd, if_neg hn] at he
    exact atLineEnd_append he ht.1.ne_nil rest
  have hng : NoGt U (tr ++ (t ++ rest)) := by unfold NoGt; rw [htb]; exact hkg
  obtain ⟨vs, vo⟩ := hv.start _ hf'
  have hkr := reads_key hU hk
  have hkf := sharedFollows_blank (sharedKey_tail (shared_key hk)) hb hbn (s ++ (tr ++ (t ++ rest)))
  obtain ⟨kst, ko⟩ := hkr.start _ hkf
  have hy : behindBlank (dt ++ (ks ++ (b ++ (s ++ (tr ++ (t ++ rest)))))) = ks ++ (b ++ (s ++ (tr ++ (t ++ rest)))) := by
    rw [behindBlank_docs hd, behindBlank_start kst]
  obtain ⟨h1, h2⟩ := entry_space (U := U) hg (y := dt ++ (ks ++ (b ++ (s ++ (tr ++ (t ++ rest))))))
    (by rw [hy]; intro h; rw [h] at ko; cases ko)
  have hassoc : g ++ dt ++ ks ++ b ++ s ++ tr ++ t ++ rest =
      g ++ (dt ++ (ks ++ (b ++ (s ++ (tr ++ (t ++ rest)))))) := by simp
  rw [hassoc]
  refine ⟨?_, ?_⟩
  · rcases h1 with h1 | h1
    · right; left; rw [h1, hy]; exact ko
    · exact .inr (.inr h1)
  · intro ws nl st hst
    obtain ⟨st0, h0, ws, nl, h3⟩ := h2 _ _ st hst
    rw [hy] at h3
    obtain ⟨N1, st1, g1, g2⟩ := hkr.reads _ _ _ st0 hkf (blanks_noGt hb vs vo) h3
    have hat := g1.blanks (U := U) hb hbn vs
    obtain ⟨N2, st2, g3, g4⟩ := hv.reads _ _ _ st1 hf' hng hat
    obtain ⟨ws2, hat2⟩ := g3.at (U := U)
    rw [htb] at hat2
    obtain ⟨st3, h4, N3, st4, h5, h6, h7⟩ := (ht.2 rest).2 _ _ st2 hat2
    refine ⟨st0, h0, N1 + N2 + N3 + 1, st4, h5, h6, ?_⟩
    intro n hn
    obtain ⟨n, rfl⟩ : ∃ m, n = m + 1 := ⟨n - 1, by omega⟩
    have hk0 := h3.kind
    have hshed := (sharedKey_facts (shared_key hk)).2.2.1
    have hkv := (g2 n (by omega)).1
    rw [hshed] at hkv
    rw [parseEntries, bind_cur, if_neg (by rintro (h | h) <;> rw [← hk0, h] at ko <;> cases ko), bind_ok hkv,
      bind_ok (g4 n (by omega)).1, bind_cur]
    by_cases hc : (nextToken U st2).1.kind = .comma
    · rw [if_pos hc] at h4 ⊢
      subst h4
      rw [bind_advance, bind_ok (h7 n (by omega)), shedEntries, hshed]
      rfl
    · rw [if_neg hc] at h4 ⊢
      subst h4
      rw [bind_ok (h7 n (by omega)), shedEntries, hshed]
      rfl

/-! ## Attributes -/

theorem badAfterGt_false {t : Tok} (h1 : opens t.kind = true) (h2 : t.ws = false) (h3 : t.nl = false) :
    badAfterGt t = false := by
  unfold badAfterGt
  rw [h2, h3]
  cases hk : t.kind <;> rw [hk] at h1 <;> first | rfl | cases h1

/-- The text `t` is a key, a `>` and a text `u` that is read as the value of the first attribute and the rest of the
run of attributes `es`. -/
def ReadsAttrs (U : Classes) (es : List Entry) (e : Tail) (t : List Char) : Prop :=
  ∃ k u, t = k ++ '>' :: u ∧ BareText k ∧
    (∀ rest, SharedFollows e rest → Start (u ++ rest) ∧ opens (kindOf U (u ++ rest)) = true) ∧
    ∀ rest, SharedFollows e rest → LineRest rest → NoGt U rest →
      ∃ v es1 st1 N st', Behind rest st' ∧ shedEntries es = .mk (scalarValue k .bare) v none :: es1 ∧
        ∀ n, N ≤ n → parseAttributeValue U n ⟨u ++ rest, false⟩ = .ok v st1 ∧ parseAttrs U n st1 = .ok es1 st'

theorem lex_gt (U : Classes) (x : List Char) :
    nextToken U ⟨'>' :: x, false⟩ = (⟨.gt, [], false, false⟩, ⟨x, false⟩) := rfl

theorem lex_attr {U : Classes} (hU : Standard U) (ws nl : Bool) {k : List Char} (u : List Char) (hk : BareText k) :
    readToken U ws nl (k ++ '>' :: u) = (⟨.bare, k, ws, nl⟩, ⟨'>' :: u, false⟩) :=
  lex_bare hU ws nl hk (.inr ⟨'>', u, rfl, by unfold isBareChar; simp⟩) (.inl (by simp))

theorem start_at {U : Classes} {x : List Char} (h : Start x) : At U false false x ⟨x, false⟩ := by
  unfold At nextToken
  rw [skip_start h]

theorem reads_attributes {U : Classes} (hU : Standard U) {es : List Entry} {e : Tail} {t : List Char}
    (h : ReadsAttrs U es e t) : Reads U (.mk none (some (.object es none)) none) (.attrs e) t := by
  obtain ⟨k, u, rfl, hk, ho, hr⟩ := h
  constructor
  · intro rest _
    rw [List.append_assoc, List.cons_append]
    refine ⟨start_bare hk (by simp), ?_⟩
    unfold kindOf
    rw [lex_attr hU _ _ _ hk]
    rfl
  · rintro rest ws nl st ⟨hf, hlr⟩ hg hst
    rw [List.append_assoc, List.cons_append] at hst
    have hst : nextToken U st = (⟨.bare, k, ws, nl⟩, ⟨'>' :: (u ++ rest), false⟩) := by
      rw [hst, lex_attr hU _ _ _ hk]
    obtain ⟨o1, o2⟩ := ho rest hf
    have hat := start_at (U := U) o1
    have hbad := badAfterGt_false (t := (nextToken U ⟨u ++ rest, false⟩).1) (by rw [hat.kind]; exact o2)
      (by rw [hat, readToken_ws]) (by rw [hat, readToken_nl])
    obtain ⟨v, es1, st1, N, st', h1, h2, h3⟩ := hr rest hf hlr hg
    refine ⟨N + 2, st', h1, ?_⟩
    intro n hn
    obtain ⟨n, rfl⟩ : ∃ m, n = m + 2 := ⟨n - 2, by omega⟩
    refine ⟨?_, nofun⟩
    obtain ⟨h4, h5⟩ := h3 n (by omega)
    have hp : parseScalar U (n + 1) st = .ok (.object (shedEntries es) none) st' := by
      rw [parseScalar, bind_advance, bind_cur, hst, lex_gt, if_pos ⟨rfl, rfl⟩, bind_advance, lex_gt, bind_cur,
        if_neg (by rw [hbad]; simp), bind_ok h4, bind_ok h5, h2]
      rfl
    rw [parseValue, bind_cur, hst]
    exact bind_ok hp

theorem attrs_one {U : Classes} (hU : Standard U) {k s : List Char} {v : Value} {e : Tail} (hk : BareText k)
    (hv : Reads U v e s) (he : e.notAttrs) :
    ReadsAttrs U [.mk (scalarValue k .bare) v none] e (k ++ '>' :: s) := by
  refine ⟨k, s, rfl, hk, hv.start, ?_⟩
  intro rest hf hlr hg
  obtain ⟨N, st', h1, h2⟩ := hv.reads rest _ _ _ hf hg (start_at (hv.start rest hf).1)
  refine ⟨shed v, [], st', N + 1, st', h1, rfl, ?_⟩
  intro n hn
  obtain ⟨n, rfl⟩ : ∃ m, n = m + 1 := ⟨n - 1, by omega⟩
  refine ⟨(h2 _ (by omega)).2 he, ?_⟩
  rw [parseAttrs, bind_cur, if_neg (fun h => lineRest_next hU hlr h1 h.2)]
  rfl

theorem attrs_cons {U : Classes} (hU : Standard U) {k s b t : List Char} {v : Value} {es : List Entry} {e e' : Tail}
    (hk : BareText k) (hv : Reads U v e s) (he : e.notAttrs) (hb : Blanks b) (hbn : b ≠ []) (ht : ReadsAttrs U es e' t)
    (hf : SharedFollows e (b ++ t)) :
    ReadsAttrs U (.mk (scalarValue k .bare) v none :: es) e' (k ++ '>' :: s ++ b ++ t) := by
  obtain ⟨k', u, rfl, hk', ho, hr⟩ := ht
  have hink : HasInk (b ++ (k' ++ '>' :: u)) := ((inkHead (bareText_head hk')).append_left _).append_right _
  have hf' : ∀ rest, SharedFollows e (b ++ (k' ++ '>' :: u) ++ rest) := fun rest => sharedFollows_append hf hink rest
  refine ⟨k, s ++ (b ++ (k' ++ '>' :: u)), by simp, hk, ?_, ?_⟩
  · intro rest _
    rw [List.append_assoc]
    exact hv.start _ (hf' rest)
  · intro rest hfr hlr hg
    have hassoc : b ++ (k' ++ '>' :: u) ++ rest = b ++ (k' ++ '>' :: (u ++ rest)) := by simp
    have hks : Start (k' ++ '>' :: (u ++ rest)) := start_bare hk' (by simp)
    have hko : opens (kindOf U (k' ++ '>' :: (u ++ rest))) = true := by
      unfold kindOf
      rw [lex_attr hU _ _ _ hk']
      rfl
    obtain ⟨N, st1, h1, h2⟩ := hv.reads _ _ _ _ (hf' rest) (by rw [hassoc]; exact blanks_noGt hb hks hko)
      (start_at (hv.start _ (hf' rest)).1)
    rw [hassoc] at h1
    have hat := h1.blanks (U := U) hb hbn hks
    have hst : nextToken U st1 = (⟨.bare, k', true, false⟩, ⟨'>' :: (u ++ rest), false⟩) := by
      rw [hat, lex_attr hU _ _ _ hk']
    obtain ⟨o1, o2⟩ := ho rest hfr
    have hau := start_at (U := U) o1
    have hbad := badAfterGt_false (t := (nextToken U ⟨u ++ rest, false⟩).1) (by rw [hau.kind]; exact o2)
      (by rw [hau, readToken_ws]) (by rw [hau, readToken_nl])
    obtain ⟨v', es1, st2, N', st', h3, h4, h5⟩ := hr rest hfr hlr hg
    refine ⟨shed v, shedEntries es, st1, N + N' + 1, st', h3, rfl, ?_⟩
    intro n hn
    rw [List.append_assoc]
    refine ⟨(h2 n (by omega)).2 he, ?_⟩
    obtain ⟨n, rfl⟩ : ∃ m, n = m + 1 := ⟨n - 1, by omega⟩
    obtain ⟨h6, h7⟩ := h5 n (by omega)
    rw [parseAttrs, bind_cur, hst, if_pos ⟨rfl, rfl, rfl⟩, bind_advance, hst, bind_cur, lex_gt, if_pos ⟨rfl, rfl⟩,
      bind_advance, lex_gt, bind_cur, if_neg (by rw [hbad]; simp), bind_ok h6, bind_ok h7, h4]
    rfl

/-- **Values**: the Swift parser reads the text of a value as that value. -/
theorem swiftValue_reads {U : Classes} (hU : Standard U) {v e s} (h : SwiftValue v e s) : Reads U v e s := by
  refine SwiftValue.rec (motive_1 := fun v e s _ => Reads U v e s) (motive_2 := fun vs t _ => ReadsItems U vs t)
    (motive_3 := fun c es t _ => ReadsEntries U c es t) (motive_4 := fun es e t _ => ReadsAttrs U es e t)
    ?_ ?_ ?_ ?_ ?_ ?_ ?_ ?_ ?_ ?_ ?_ ?_ ?_ h
  · intro v k e s h; exact reads_scalar hU h
  · exact reads_unit hU
  · intro n h; exact reads_tag hU h
  · intro n p e s h1 _ h3 ih; exact reads_tagged hU h1 h3 ih
  · intro vs t _ ih; exact reads_sequence ih
  · intro es t _ _ _ ih; exact reads_object ih
  · intro es e t _ ih; exact reads_attributes hU ih
  · intro g h; exact items_nil h
  · intro g v e s vs t h1 _ _ h2 ih1 ih2; exact items_cons h1 ih1 ih2 h2
  · intro c g h; exact entries_nil h
  · intro c g ls dt k ke ks b v e s tr es t h1 h2 h3 _ h5 h6 _ h7 _ h8 h9 ih1 ih2
    exact entries_cons hU h1 h2 h3 h5 h6 ih1 h7 ih2 h8 h9
  · intro k v e s h1 _ h2 ih; exact attrs_one hU h1 ih h2
  · intro k v e s b es e' t h1 _ h2 h3 h4 _ h5 ih1 ih2; exact attrs_cons hU h1 ih1 h2 h3 h4 ih2 h5

end Styx.Swift
