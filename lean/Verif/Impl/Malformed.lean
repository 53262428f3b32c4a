import Verif.Impl.Preserve
import Verif.Impl.ReadRoot

/-! # A malformed token anywhere in a text, for the parsers of the other implementations -/

namespace Styx.Impl

/-- The text is a sequence of tokens up to its end: nowhere does the lexer report an error. -/
inductive AllTokens (d : Dialect) : List Char → Prop
  | done {s t r} : nextToken d s = .ok (t, r) → t.kind = .eof → AllTokens d s
  | next {s t r} : nextToken d s = .ok (t, r) → t.kind ≠ .eof → AllTokens d r → AllTokens d s

/-- The parser has not met the end of the text, and there is an error before it. -/
def Before (d : Dialect) (st : St) : Prop :=
  st.err = none → st.cur.kind ≠ .eof ∧ (∀ t, st.peeked = some t → t.kind ≠ .eof) ∧ ¬ AllTokens d st.rest

theorem keeps_before_advance (d : Dialect) : Keeps (Before d) (advance d) := by
  intro st h
  unfold advance
  cases hpk : st.peeked with
  | some t =>
    intro he
    obtain ⟨-, h2, h3⟩ := h he
    exact ⟨h2 t hpk, by simp, h3⟩
  | none =>
    simp only
    cases hn : nextToken d st.rest with
    | error e =>
      cases d
      · exact h
      · exact h
      · intro he; cases he
    | ok tr =>
      obtain ⟨t, r⟩ := tr
      intro he
      obtain ⟨-, h2, h3⟩ := h he
      by_cases hk : t.kind = .eof
      · exact (h3 (.done hn hk)).elim
      · exact ⟨hk, by simp, fun h => h3 (.next hn hk h)⟩

theorem keeps_before_peek (d : Dialect) : Keeps (Before d) (peek d) := by
  intro st h
  unfold peek
  cases hpk : st.peeked with
  | some t => exact h
  | none =>
    simp only
    cases hn : nextToken d st.rest with
    | error e =>
      cases d
      · exact h
      · exact h
      · intro he; cases he
    | ok tr =>
      obtain ⟨t, r⟩ := tr
      intro he
      obtain ⟨h1, -, h3⟩ := h he
      by_cases hk : t.kind = .eof
      · exact (h3 (.done hn hk)).elim
      · exact ⟨h1, by rintro t' ⟨⟩; exact hk, fun h => h3 (.next hn hk h)⟩

/-- The run keeps no error. -/
def NoError (st : St) : Prop := st.err = none

theorem keeps_noError_advance {d : Dialect} (hd : d ≠ .go) : Keeps NoError (advance d) := by
  intro st h
  unfold advance
  cases st.peeked with
  | some t => exact h
  | none =>
    simp only
    cases nextToken d st.rest with
    | error e => cases d <;> first | exact h | exact (hd rfl).elim
    | ok tr => exact h

theorem keeps_noError_peek {d : Dialect} (hd : d ≠ .go) : Keeps NoError (peek d) := by
  intro st h
  unfold peek
  cases st.peeked with
  | some t => exact h
  | none =>
    simp only
    cases nextToken d st.rest with
    | error e => cases d <;> first | exact h | exact (hd rfl).elim
    | ok tr => exact h

theorem Keeps.and {α : Type} {J K : St → Prop} {p : P α} (h1 : Keeps J p) (h2 : Keeps K p) :
    Keeps (fun st => J st ∧ K st) p := by
  intro st h
  have a := h1 st h.1
  have b := h2 st h.2
  cases hp : p st with
  | ok a' st' => rw [hp] at a b; exact ⟨a, b⟩
  | fail e st' => rw [hp] at a b; exact ⟨a, b⟩
  | fuel => trivial

theorem bind_inv {α β : Type} {p : P α} {f : α → P β} {st st' : St} {b : β} (h : (p >>= f) st = .ok b st') :
    ∃ a s, p st = .ok a s ∧ f a s = .ok b st' := by
  change P.bind p f st = _ at h
  unfold P.bind at h
  cases hp : p st with
  | ok a s => rw [hp] at h; exact ⟨a, s, rfl, h⟩
  | fail e s => rw [hp] at h; cases h
  | fuel => rw [hp] at h; cases h

theorem Keeps.ok {α : Type} {J : St → Prop} {p : P α} {st st' : St} {a : α} (h : Keeps J p) (hj : J st)
    (he : p st = .ok a st') : J st' := by
  have := h st hj
  rw [he] at this
  exact this

section
variable {J : St → Prop} {d : Dialect} (ha : Keeps J (advance d)) (hp : Keeps J (peek d))

include ha hp in
theorem rootEntries_end (n : Nat) {ps : Paths} {st st' : St} {es : List Entry} (hj : J st)
    (h : parseRootEntries d n ps st = .ok es st') : J st' ∧ st'.cur.kind = .eof := by
  induction n generalizing ps st es with
  | zero => cases h
  | succ n ih =>
    rw [parseRootEntries, bind_cur] at h
    split at h
    · rename_i hk
      cases h
      exact ⟨hj, hk⟩
    · obtain ⟨_, s1, h1, h⟩ := bind_inv h
      obtain ⟨⟨e, ps'⟩, s2, h2, h⟩ := bind_inv h
      obtain ⟨es', s3, h3, h⟩ := bind_inv h
      cases h
      exact ih ((keeps_parseRootEntry ha hp n ps).ok (keeps_checkErr.ok hj h1) h2) h3

include ha hp in
/-- What the parser keeps holds when it accepts, and it accepts at the end of the text only. -/
theorem document_end (n : Nat) {st st' : St} {es : List Entry} (hj : J st)
    (h : parseDocument d n st = .ok es st') : J st' ∧ st'.cur.kind = .eof := by
  rw [parseDocument] at h
  obtain ⟨_, s1, h1, h⟩ := bind_inv h
  have j1 := (keeps_skipCommas ha n).ok hj h1
  rw [bind_cur] at h
  split at h
  · obtain ⟨es', s2, h2, h⟩ := bind_inv h
    have j2 := ((keeps_all ha hp n).2.2.2.2.1).ok j1 h2
    obtain ⟨_, s3, h3, h⟩ := bind_inv h
    have j3 := (keeps_skipCommas ha n).ok j2 h3
    rw [bind_cur] at h
    split at h
    · rename_i hk
      cases h
      exact ⟨j3, hk⟩
    · obtain ⟨_, s4, -, h⟩ := bind_inv h
      cases h
  · exact rootEntries_end ha hp n j1 h

end

/-- A text that Python or JavaScript accept has no malformed token. -/
theorem accepted_tokens {d : Dialect} (hd : d ≠ .go) {n : Nat} {s : List Char} {es : List Entry}
    (h : parse d n s = some (.ok es)) : AllTokens d s := by
  unfold parse at h
  cases hn : nextToken d s with
  | error e => rw [hn] at h; cases h
  | ok tr =>
    obtain ⟨t, r⟩ := tr
    rw [hn] at h
    simp only at h
    cases hp : parseDocument d n ⟨t, none, r, none⟩ with
    | fail e st => rw [hp] at h; cases h
    | fuel => rw [hp] at h; cases h
    | ok es' st' =>
      refine Classical.byContradiction fun hno => ?_
      have hb : Before d ⟨t, none, r, none⟩ := by
        intro _
        by_cases hk : t.kind = .eof
        · exact (hno (.done hn hk)).elim
        · exact ⟨hk, by simp, fun h => hno (.next hn hk h)⟩
      obtain ⟨⟨h1, h2⟩, h3⟩ := document_end (J := fun st => Before d st ∧ NoError st)
        ((keeps_before_advance d).and (keeps_noError_advance hd)) ((keeps_before_peek d).and (keeps_noError_peek hd)) n
        ⟨hb, rfl⟩ hp
      exact (h1 h2).1 h3

/-- A text that Go accepts has no malformed token, or the parser kept an error without reporting it. -/
theorem go_tokens {n : Nat} {s : List Char} {es : List Entry} (h : parse .go n s = some (.ok es)) :
    AllTokens .go s ∨ ∃ t r st e, nextToken .go s = .ok (t, r) ∧ parseDocument .go n ⟨t, none, r, none⟩ = .ok es st ∧
      st.err = some e := by
  unfold parse at h
  cases hn : nextToken .go s with
  | error e => rw [hn] at h; cases h
  | ok tr =>
    obtain ⟨t, r⟩ := tr
    rw [hn] at h
    simp only at h
    cases hp : parseDocument .go n ⟨t, none, r, none⟩ with
    | fail e st => rw [hp] at h; cases h
    | fuel => rw [hp] at h; cases h
    | ok es' st' =>
      rw [hp] at h
      cases h
      cases he : st'.err with
      | some e => exact .inr ⟨t, r, st', e, rfl, hp, he⟩
      | none =>
        left
        refine Classical.byContradiction fun hno => ?_
        have hb : Before .go ⟨t, none, r, none⟩ := by
          intro _
          by_cases hk : t.kind = .eof
          · exact (hno (.done hn hk)).elim
          · exact ⟨hk, by simp, fun h => hno (.next hn hk h)⟩
        obtain ⟨h1, h3⟩ := document_end (keeps_before_advance .go) (keeps_before_peek .go) n hb hp
        exact (h1 he).1 h3

theorem readQuoted_open (d : Dialect) : ∀ z : List Char, '"' ∉ z → '\\' ∉ z → readQuoted d 0 z = .error .unexpectedToken
  | [], _, _ => rfl
  | c :: z, h1, h2 => by
    have ih := readQuoted_open d z (by simp_all) (by simp_all)
    have a : (c == '"') = false := by simp at h1 ⊢; grind
    have b : (c == '\\') = false := by simp at h2 ⊢; grind
    rw [readQuoted.eq_def]
    simp only [a, b, ih]
    simp only [Bool.false_eq_true, if_false]
    split <;> simp [Except.map]

theorem lex_open (d : Dialect) (z : List Char) (h1 : '"' ∉ z) (h2 : '\\' ∉ z) :
    nextToken d ('\n' :: '"' :: z) = .error .unexpectedToken := by
  have := readQuoted_open d z h1 h2
  have h : nextToken d ('\n' :: '"' :: z) = (readQuoted d 0 z).map fun (t, r) => (⟨.quoted, t, true, true⟩, r) := rfl
  rw [h, this]; rfl

set_option maxRecDepth 20000 in
theorem go_open (z : List Char) (h1 : '"' ∉ z) (h2 : '\\' ∉ z) :
   Impl.parse .go 20 ((chars! "a 1\n\"") ++ z) = some (.ok [.mk (bareValue ['a']) (bareValue ['1']) none]) := by
  have h3 := lex_open .go z h1 h2
  have e1 : nextToken .go ((chars! "a 1\n\"") ++ z) = .ok (⟨.scalar, ['a'], false, false⟩, ((chars! " 1\n\"") ++ z)) := rfl
  have e2 : nextToken .go ((chars! " 1\n\"") ++ z) = .ok (⟨.scalar, ['1'], true, false⟩, '\n' :: '"' :: z) := rfl
  unfold Impl.parse
  rw [e1]
  have a1 : advance .go ⟨⟨.scalar, ['a'], false, false⟩, none, ' ' :: '1' :: '\n' :: '"' :: z, none⟩ = .ok () ⟨⟨.scalar, ['1'], true, false⟩, none, '\n' :: '"' :: z, none⟩ := by
    exact (show advance .go ⟨_, none, (chars! " 1\n\"") ++ z, none⟩ = _ by unfold advance; rw [e2])
  have a2 : advance .go ⟨⟨.scalar, ['1'], true, false⟩, none, '\n' :: '"' :: z, none⟩ = .ok () ⟨errorTok, none, [], some .unexpectedToken⟩ := by
    unfold advance; simp only [h3]
  have l : ∀ (m : Nat) (st : St), st.cur.kind = .scalar → skipCommas .go (m+1) st = .ok () st := by
    intro m st h
    simp [skipCommas, Bind.bind, P.bind, cur, h, pure]
  simp [parseDocument, parseRootEntries, parseRootEntry, Bind.bind, P.bind, cur, l, checkErr, parseValue, a1, a2, pure, errorTok, bareText, bareValue, isObject, validKey, keyText, endsKey, track, checkPath, joinDots, joinedPrefixes, valueKind, List.lookup]

end Styx.Impl
