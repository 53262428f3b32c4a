import Verif.Impl.Parser

/-! # The parsers of the other implementations use up the text -/

namespace Styx.Impl

/-! ## Tokens -/

theorem skipSpace_length (cm ws nl : Bool) (s : List Char) : (skipSpace cm ws nl s).2.2.length ≤ s.length := by
  induction s generalizing cm ws nl with
  | nil => simp [skipSpace]
  | cons c cs ih =>
    rw [skipSpace]
    split
    · exact Nat.le_succ_of_le (ih ..)
    · split
      · exact Nat.le_succ_of_le (ih ..)
      · split
        · exact Nat.le_succ_of_le (ih ..)
        · split
          · exact Nat.le_succ_of_le (ih ..)
          · simp

theorem map_ok {ε α β : Type} {x : Except ε α} {f : α → β} {b : β} (h : x.map f = .ok b) :
    ∃ a, x = .ok a ∧ f a = b := by
  cases x with
  | error e => cases h
  | ok a => exact ⟨a, rfl, by cases h; rfl⟩

theorem readQuoted_length (d : Dialect) (k : Nat) (s : List Char) {t r : List Char}
    (h : readQuoted d k s = .ok (t, r)) : r.length ≤ s.length := by
  fun_induction readQuoted d k s generalizing t r with
  | case1 => cases h
  | case2 skip c cs ih => exact Nat.le_succ_of_le (ih h)
  | case3 => cases h; simp
  | case4 => cases h
  | case5 c e es hq hb x hx ih =>
    obtain ⟨⟨t', r'⟩, h1, h2⟩ := map_ok h
    cases h2
    have := ih h1
    simp only [List.length_cons] at *
    omega
  | case6 => cases h
  | case7 c e es hq hb hx hu x n hr ih =>
    obtain ⟨⟨t', r'⟩, h1, h2⟩ := map_ok h
    cases h2
    have := ih h1
    simp only [List.length_cons] at *
    omega
  | case8 => cases h
  | case9 => cases h
  | case10 c cs h1 h2 h3 ih =>
    obtain ⟨⟨t', r'⟩, h1, h2⟩ := map_ok h
    cases h2
    have := ih h1
    simp only [List.length_cons] at *
    omega

theorem readRaw_length (p s : List Char) {t r : List Char} (h : readRaw p s = some (t, r)) :
    r.length ≤ s.length := by
  induction s generalizing t r with
  | nil => cases h
  | cons c cs ih =>
    rw [readRaw] at h
    split at h
    · cases h; simp
    · cases hr : readRaw p cs with
      | none => rw [hr] at h; cases h
      | some x =>
        rw [hr] at h
        cases h
        have := ih (t := x.1) (r := x.2) hr
        simp only [List.length_cons]
        omega

theorem heredocLoop_length (dl line text s : List Char) {t r : List Char}
    (h : heredocLoop dl line text s = some (t, r)) : r.length ≤ s.length := by
  induction s generalizing line text t r with
  | nil =>
    rw [heredocLoop] at h
    split at h
    · cases h
    · cases hc : closeHeredoc dl text line with
      | none => rw [hc] at h; cases h
      | some x => rw [hc] at h; cases h; simp
  | cons c cs ih =>
    rw [heredocLoop] at h
    split at h
    · split at h
      · cases h; simp
      · exact Nat.le_succ_of_le (ih _ _ h)
    · exact Nat.le_succ_of_le (ih _ _ h)

theorem dropWhile_length (p : Char → Bool) (s : List Char) : (s.dropWhile p).length ≤ s.length := by
  induction s with
  | nil => simp
  | cons c cs ih =>
    rw [List.dropWhile_cons]
    split
    · exact Nat.le_succ_of_le ih
    · simp

theorem readHeredoc_length (s : List Char) {t r : List Char} (h : readHeredoc s = some (t, r)) :
    r.length ≤ s.length := by
  have h1 := heredocLoop_length _ _ _ _ h
  have h2 := dropWhile_length (· != '\n') s
  rw [List.length_drop] at h1
  omega

/-- 0 for the end of the text, 1 for any other token. -/
def Tok.size (t : Tok) : Nat := if t.kind = .eof then 0 else 1

theorem size_le (t : Tok) : t.size ≤ 1 := by
  unfold Tok.size
  split <;> omega

/-- White space of the lexers. -/
def isSpace (c : Char) : Bool := c == ' ' || c == '\t' || c == '\r' || c == '\n'

theorem skipSpace_head (cm ws nl : Bool) (s : List Char) :
    ∀ c ∈ (skipSpace cm ws nl s).2.2.head?, isSpace c = false := by
  induction s generalizing cm ws nl with
  | nil => simp [skipSpace]
  | cons c cs ih =>
    rw [skipSpace]
    split
    · exact ih _ _ _
    · split
      · exact ih _ _ _
      · split
        · exact ih _ _ _
        · split
          · exact ih _ _ _
          · intro x hx
            simp at hx
            subst hx
            unfold isSpace
            grind

theorem readToken_length (d : Dialect) (ws nl : Bool) (s : List Char) {t : Tok} {r : List Char}
    (hsp : ∀ c ∈ s.head?, isSpace c = false) (h : readToken d ws nl s = .ok (t, r)) :
    t.size + r.length ≤ s.length := by
  have hs := size_le t
  cases s with
  | nil => cases h; simp [Tok.size]
  | cons c cs =>
    have hd := dropWhile_length isTagChar cs
    rw [List.length_cons]
    rw [readToken] at h
    by_cases k0 : (c == '{') = true
    · rw [if_pos k0] at h; cases h; omega
    rw [if_neg k0] at h
    by_cases k1 : (c == '}') = true
    · rw [if_pos k1] at h; cases h; omega
    rw [if_neg k1] at h
    by_cases k2 : (c == '(') = true
    · rw [if_pos k2] at h; cases h; omega
    rw [if_neg k2] at h
    by_cases k3 : (c == ')') = true
    · rw [if_pos k3] at h; cases h; omega
    rw [if_neg k3] at h
    by_cases k4 : (c == ',') = true
    · rw [if_pos k4] at h; cases h; omega
    rw [if_neg k4] at h
    by_cases k5 : (c == '>') = true
    · rw [if_pos k5] at h; cases h; omega
    rw [if_neg k5] at h
    by_cases k6 : (c == '@') = true
    · rw [if_pos k6] at h
      by_cases k : (cs.head?.map isTagStart).getD false = true
      · rw [if_pos k] at h; cases h; omega
      · rw [if_neg k] at h; cases h; omega
    rw [if_neg k6] at h
    by_cases k7 : (c == '"') = true
    · rw [if_pos k7] at h
      obtain ⟨⟨t', r'⟩, h1, h2⟩ := map_ok h
      cases h2
      have := readQuoted_length _ _ _ h1
      omega
    rw [if_neg k7] at h
    by_cases k8 : (c == 'r' && (cs.head? == some '"' || cs.head? == some '#')) = true
    · rw [if_pos k8] at h
      simp only at h
      split at h
      · rename_i heq
        have := readRaw_length _ _ heq
        cases h
        simp only [List.length_drop] at this
        omega
      · cases h
    rw [if_neg k8] at h
    by_cases k9 : (c == '<' && cs.head? == some '<') = true
    · rw [if_pos k9] at h
      split at h
      · split at h
        · rename_i heq
          have := readHeredoc_length _ heq
          cases h
          simp only [List.length_tail] at this
          omega
        · cases h
      · cases h
    · rw [if_neg k9] at h
      have hc : isSpecial c = false := by
        have := hsp c (by simp)
        unfold isSpecial
        unfold isSpace at this
        grind
      have := dropWhile_length (fun c => !isSpecial c) cs
      cases h
      rw [List.dropWhile_cons, if_pos (by simp [hc])]
      omega

/-- Reading a token makes the text shorter, up to its end. -/
theorem nextToken_length (d : Dialect) (s : List Char) {t : Tok} {r : List Char}
    (h : nextToken d s = .ok (t, r)) : t.size + r.length ≤ s.length := by
  have h1 := skipSpace_length false false false s
  have h2 := skipSpace_head false false false s
  unfold nextToken at h
  generalize skipSpace false false false s = x at h h1 h2
  obtain ⟨ws, nl, u⟩ := x
  have := readToken_length d ws nl u h2 h
  simp only at h1
  omega

/-! ## States -/

/-- How much there is to read. -/
def St.size (st : St) : Nat := st.cur.size + (st.peeked.map Tok.size).getD 0 + st.rest.length

/-- The run ends: with at most `b` to read if it succeeds, at most `B` if it fails. -/
def Ends {α : Type} (p : P α) (st : St) (b B : Nat) : Prop :=
  match p st with
  | .ok _ st' => st'.size ≤ b
  | .fail _ st' => st'.size ≤ B
  | .fuel => False

theorem ends_bind {α β : Type} {p : P α} {f : α → P β} {st : St} {b1 b B : Nat} (h : Ends p st b1 B)
    (hf : ∀ a st', p st = .ok a st' → st'.size ≤ b1 → Ends (f a) st' b B) : Ends (p >>= f) st b B := by
  unfold Ends at h ⊢
  show match P.bind p f st with
    | .ok _ st' => st'.size ≤ b
    | .fail _ st' => st'.size ≤ B
    | .fuel => False
  unfold P.bind
  cases hp : p st with
  | fuel => rw [hp] at h; exact h.elim
  | fail e st' => rw [hp] at h; exact h
  | ok a st' =>
    rw [hp] at h
    exact hf a st' hp h

theorem ends_pure {α : Type} {a : α} {st : St} {b B : Nat} (h : st.size ≤ b) : Ends (pure a : P α) st b B := h

theorem ends_fail {α : Type} {e : Err} {st : St} {b B : Nat} (h : st.size ≤ B) : Ends (fail e : P α) st b B := h

theorem ends_cur {st : St} {b B : Nat} (h : st.size ≤ b) : Ends cur st b B := h

theorem cur_ok {st st' : St} {t : Tok} (h : cur st = .ok t st') : t = st.cur ∧ st' = st := by
  cases h; exact ⟨rfl, rfl⟩

theorem bind_cur {α : Type} (f : Tok → P α) (st : St) : (cur >>= f) st = f st.cur st := rfl

theorem ends_cur_bind {α : Type} {f : Tok → P α} {st : St} {b B : Nat} (h : Ends (f st.cur) st b B) :
    Ends (cur >>= f) st b B := h

theorem ends_checkErr {st : St} {b B : Nat} (h : st.size ≤ b) (h' : st.size ≤ B) : Ends checkErr st b B := by
  unfold Ends checkErr
  cases st.err <;> simp [h, h']

theorem checkErr_ok {st st' : St} {u : Unit} (h : checkErr st = .ok u st') : st' = st := by
  unfold checkErr at h
  split at h <;> cases h
  rfl

theorem ends_mono {α : Type} {p : P α} {st : St} {b B b' B' : Nat} (h : Ends p st b B) (hb : b ≤ b')
    (hB : B ≤ B') : Ends p st b' B' := by
  unfold Ends at *
  split <;> simp_all <;> omega

theorem ends_advance (d : Dialect) {st : St} {b B : Nat} (hk : st.cur.kind ≠ .eof) (hb : st.size ≤ b + 1)
    (hB : st.size ≤ B) : Ends (advance d) st b B := by
  have h1 : st.cur.size = 1 := by simp [Tok.size, hk]
  unfold Ends advance
  unfold St.size at hb hB
  cases hp : st.peeked with
  | some t =>
    simp only [hp] at hb hB ⊢
    simp only [St.size, Option.map_none, Option.getD_none, Option.map_some, Option.getD_some] at *
    omega
  | none =>
    simp only [hp] at hb hB ⊢
    cases hn : nextToken d st.rest with
    | ok x =>
      obtain ⟨t, r⟩ := x
      have := nextToken_length d _ hn
      simp only [St.size, hp, Option.map_none, Option.getD_none] at *
      omega
    | error e =>
      cases d <;> simp [St.size, hp, errorTok, Tok.size] at * <;> omega

theorem ends_peek (d : Dialect) {st : St} {b B : Nat} (hb : st.size ≤ b) (hB : st.size ≤ B) :
    Ends (peek d) st b B := by
  unfold Ends peek
  cases hp : st.peeked with
  | some t => simpa [hp] using hb
  | none =>
    simp only
    cases hn : nextToken d st.rest with
    | ok x =>
      obtain ⟨t, r⟩ := x
      have := nextToken_length d _ hn
      simp only [St.size, hp, Option.map_none, Option.getD_none, Option.map_some, Option.getD_some] at *
      omega
    | error e =>
      cases d <;> simp [St.size, hp, errorTok, Tok.size] at * <;> omega

theorem peek_cur {d : Dialect} {st st' : St} {t : Tok} (h : peek d st = .ok t st') : st'.cur = st.cur := by
  unfold peek at h
  split at h
  · cases h; rfl
  · split at h
    · cases h; rfl
    · split at h <;> cases h
      rfl

/-- After `peek`, `advance` makes the token the current one. -/
theorem peek_peeked {d : Dialect} {st st' : St} {t : Tok} (h : peek d st = .ok t st') : st'.peeked = some t := by
  unfold peek at h
  split at h
  · cases h; assumption
  · split at h
    · cases h; rfl
    · split at h <;> cases h
      rfl

theorem ends_parseScalar (d : Dialect) {st : St} {b B : Nat} (hb : st.size ≤ b + 1) (hB : st.size ≤ B) :
    Ends (parseScalar d) st b B := by
  unfold parseScalar
  apply ends_cur_bind
  split
  · exact ends_bind (ends_advance d (by simp_all) hb hB) fun _ _ _ h => ends_pure h
  · exact ends_bind (ends_advance d (by simp_all) hb hB) fun _ _ _ h => ends_pure h
  · exact ends_bind (ends_advance d (by simp_all) hb hB) fun _ _ _ h => ends_pure h
  · exact ends_bind (ends_advance d (by simp_all) hb hB) fun _ _ _ h => ends_pure h
  · exact ends_fail hB

theorem ends_skipCommas (d : Dialect) (n : Nat) {st : St} {b B : Nat} (hn : st.size < n) (hb : st.size ≤ b)
    (hB : st.size ≤ B) : Ends (skipCommas d n) st b B := by
  induction n generalizing st with
  | zero => omega
  | succ n ih =>
    rw [skipCommas]
    apply ends_cur_bind
    split
    · have h1 : st.cur.size = 1 := by simp_all [Tok.size]
      have h2 : 1 ≤ st.size := by unfold St.size; omega
      exact ends_bind (ends_advance d (b := st.size - 1) (by simp_all) (by omega) hB) fun _ st' _ h =>
        ih (by omega) (by omega) (by omega)
    · exact ends_pure hb

/-- Commas are skipped: something has been read if there was a comma. -/
theorem skipCommas_ok {d : Dialect} {n : Nat} {st st' : St} {u : Unit} (h : skipCommas d n st = .ok u st') :
    st'.cur.kind ≠ .comma ∧ (st.cur.kind ≠ .comma → st' = st) := by
  induction n generalizing st with
  | zero => cases h
  | succ n ih =>
    rw [skipCommas, bind_cur] at h
    split at h
    · change P.bind (advance d) _ st = _ at h
      unfold P.bind at h
      cases ha : advance d st with
      | fuel => rw [ha] at h; cases h
      | fail e s => rw [ha] at h; cases h
      | ok a s =>
        rw [ha] at h
        exact ⟨(ih h).1, fun hc => (hc ‹_›).elim⟩
    · cases h
      exact ⟨‹_›, fun _ => rfl⟩

end Styx.Impl
