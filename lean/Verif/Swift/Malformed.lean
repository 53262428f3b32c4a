import Verif.Swift.ReadRoot

/-! # A malformed token anywhere in a text, for the Swift parser -/

namespace Styx.Swift

/-- From this state on, the text is a sequence of tokens up to its end: nowhere is there an error token. -/
inductive AllTokens (U : Classes) : St → Prop
  | done {st} : (nextToken U st).1.kind = .eof → AllTokens U st
  | next {st} : (∀ e, (nextToken U st).1.kind ≠ .error e) → AllTokens U (nextToken U st).2 → AllTokens U st

/-- An error token ahead is still ahead behind the run. -/
def Ahead {α : Type} (U : Classes) (p : P α) (st : St) : Prop :=
  ¬ AllTokens U st → ∀ a st', p st = .ok a st' → ¬ AllTokens U st'

section
variable {U : Classes}

theorem ahead_pure {α : Type} {a : α} {st : St} : Ahead U (pure a : P α) st := by
  intro h b st' he
  cases he
  exact h

theorem ahead_fail {α : Type} {e : Err} {st : St} : Ahead U (fail e : P α) st := by
  intro _ b st' he
  cases he

theorem ahead_fuel {α : Type} {st : St} : Ahead U (outOfFuel : P α) st := by
  intro _ b st' he
  cases he

theorem ahead_bind {α β : Type} {p : P α} {f : α → P β} {st : St} (hp : Ahead U p st)
    (hf : ∀ a s, Ahead U (f a) s) : Ahead U (p >>= f) st := by
  intro h b st' he
  obtain ⟨a, s, h1, h2⟩ := bind_inv he
  exact hf a s (hp h a s h1) b st' h2

theorem ahead_cur {α : Type} {f : Tok → P α} {st : St} (h : Ahead U (f (nextToken U st).1) st) :
    Ahead U (cur U >>= f) st := h

theorem ahead_advance {α : Type} {f : Tok → P α} {st : St} (he : ∀ e, (nextToken U st).1.kind ≠ .error e)
    (h : ∀ t s, Ahead U (f t) s) : Ahead U (advance U >>= f) st := by
  intro hn b st' hb
  exact h _ _ (fun ht => hn (.next he ht)) b st' hb

theorem scalar_noError {k : Kind} (h : isScalar k = true) (e : LexErr) : k ≠ .error e := by
  rintro rfl
  cases h

theorem ahead_all (n : Nat) :
    (∀ st, Ahead U (parseValue U n) st) ∧
    (∀ st, (nextToken U st).1.kind = .at → Ahead U (parseTagged U n) st) ∧
    (∀ st, isScalar (nextToken U st).1.kind = true → Ahead U (parseScalar U n) st) ∧
    (∀ st, Ahead U (parseAttrs U n) st) ∧
    (∀ st, Ahead U (parseAttributeValue U n) st) ∧
    (∀ st, (nextToken U st).1.kind = .lBrace → Ahead U (parseObject U n) st) ∧
    (∀ st, Ahead U (parseEntries U n) st) ∧
    (∀ st, (nextToken U st).1.kind = .lParen → Ahead U (parseSequence U n) st) ∧
    (∀ st, Ahead U (parseItems U n) st) := by
  induction n with
  | zero =>
    refine ⟨fun _ => ?_, fun _ _ => ?_, fun _ _ => ?_, fun _ => ?_, fun _ => ?_, fun _ _ => ?_, fun _ => ?_, fun _ _ => ?_,
      fun _ => ?_⟩
    all_goals exact ahead_fuel
  | succ n ih =>
    obtain ⟨i1, i2, i3, i4, i5, i6, i7, i8, i9⟩ := ih
    refine ⟨fun st => ?_, fun st hk => ?_, fun st hk => ?_, fun st => ?_, fun st => ?_, fun st hk => ?_, fun st => ?_,
      fun st hk => ?_, fun st => ?_⟩
    · rw [parseValue]
      refine ahead_cur ?_
      cases hk : (nextToken U st).1.kind with
      | error e => exact ahead_fail
      | «at» => exact i2 st hk
      | lBrace => exact ahead_bind (i6 st hk) fun _ _ => ahead_pure
      | lParen => exact ahead_bind (i8 st hk) fun _ _ => ahead_pure
      | bare => exact ahead_bind (i3 st (by rw [hk]; rfl)) fun _ _ => ahead_pure
      | quoted => exact ahead_bind (i3 st (by rw [hk]; rfl)) fun _ _ => ahead_pure
      | raw => exact ahead_bind (i3 st (by rw [hk]; rfl)) fun _ _ => ahead_pure
      | heredoc => exact ahead_bind (i3 st (by rw [hk]; rfl)) fun _ _ => ahead_pure
      | _ => exact ahead_pure
    · rw [parseTagged]
      refine ahead_advance (by rw [hk]; simp) fun _ s => ahead_cur ?_
      split
      · rename_i hc
        refine ahead_advance (by rw [hc.1]; simp) fun name s => ?_
        simp only
        split
        · exact ahead_fail
        · split
          · exact ahead_pure
          · refine ahead_cur ?_
            split
            · rename_i hb; exact ahead_bind (i6 s hb.1) fun _ _ => ahead_pure
            · split
              · rename_i hb; exact ahead_bind (i8 s hb.1) fun _ _ => ahead_pure
              · split
                · rename_i hb; exact ahead_bind (i3 s hb.1) fun _ _ => ahead_pure
                · split
                  · rename_i hb; exact ahead_advance (by rw [hb.1]; simp) fun _ _ => ahead_pure
                  · exact ahead_pure
      · exact ahead_pure
    · rw [parseScalar]
      refine ahead_advance (scalar_noError hk) fun _ s => ahead_cur ?_
      split
      · rename_i hg
        refine ahead_advance (by rw [hg.1]; simp) fun _ s => ahead_cur ?_
        split
        · exact ahead_fail
        · exact ahead_bind (i5 s) fun _ s => ahead_bind (i4 s) fun _ _ => ahead_pure
      · exact ahead_pure
    · rw [parseAttrs]
      refine ahead_cur ?_
      split
      · rename_i hb
        refine ahead_advance (by rw [hb.2.2]; simp) fun _ s => ahead_cur ?_
        split
        · rename_i hg
          refine ahead_advance (by rw [hg.1]; simp) fun _ s => ahead_cur ?_
          split
          · exact ahead_fail
          · exact ahead_bind (i5 s) fun _ s => ahead_bind (i4 s) fun _ _ => ahead_pure
        · exact ahead_pure
      · exact ahead_pure
    · rw [parseAttributeValue]
      refine ahead_cur ?_
      cases hk : (nextToken U st).1.kind with
      | «at» => exact i2 st hk
      | lBrace => exact ahead_bind (i6 st hk) fun _ _ => ahead_pure
      | lParen => exact ahead_bind (i8 st hk) fun _ _ => ahead_pure
      | bare => exact ahead_advance (by rw [hk]; simp) fun _ _ => ahead_pure
      | quoted => exact ahead_advance (by rw [hk]; simp) fun _ _ => ahead_pure
      | raw => exact ahead_advance (by rw [hk]; simp) fun _ _ => ahead_pure
      | heredoc => exact ahead_advance (by rw [hk]; simp) fun _ _ => ahead_pure
      | _ => exact ahead_fail
    · rw [parseObject]
      refine ahead_advance (by rw [hk]; simp) fun _ s => ahead_bind (i7 s) fun _ s => ahead_cur ?_
      split
      · rename_i hc; exact ahead_advance (by rw [hc]; simp) fun _ _ => ahead_pure
      · exact ahead_fail
    · rw [parseEntries]
      refine ahead_cur ?_
      split
      · exact ahead_pure
      · refine ahead_bind (i1 st) fun _ s => ahead_bind (i1 s) fun _ s => ahead_cur ?_
        split
        · rename_i hc
          exact ahead_advance (by rw [hc]; simp) fun _ s => ahead_bind (i7 s) fun _ _ => ahead_pure
        · exact ahead_bind (i7 s) fun _ _ => ahead_pure
    · rw [parseSequence]
      refine ahead_advance (by rw [hk]; simp) fun _ s => ahead_bind (i9 s) fun _ s => ahead_cur ?_
      split
      · rename_i hc; exact ahead_advance (by rw [hc]; simp) fun _ _ => ahead_pure
      · exact ahead_fail
    · rw [parseItems]
      refine ahead_cur ?_
      split
      · exact ahead_pure
      · split
        · exact ahead_fail
        · exact ahead_bind (i1 st) fun _ s => ahead_bind (i9 s) fun _ _ => ahead_pure

theorem ahead_track {ps : Paths} {path : List (List Char)} {k : PathValueKind} {st : St} :
    Ahead U (track ps path k) st := by
  unfold track
  split
  · exact ahead_pure
  · exact ahead_fail

theorem ahead_rootEntry (n : Nat) (ps : Paths) (st : St) : Ahead U (parseRootEntry U n ps) st := by
  obtain ⟨i1, -⟩ := ahead_all (U := U) n
  rw [parseRootEntry]
  refine ahead_bind (i1 st) fun key s => ?_
  split
  · exact ahead_pure
  · split
    · exact ahead_fail
    · split
      · split
        · exact ahead_fail
        · refine ahead_cur ?_
          split
          · exact ahead_bind ahead_track fun _ _ => ahead_pure
          · exact ahead_bind (i1 s) fun _ _ => ahead_bind ahead_track fun _ _ => ahead_pure
      · refine ahead_cur ?_
        split
        · exact ahead_bind ahead_track fun _ _ => ahead_pure
        · exact ahead_bind (i1 s) fun _ _ => ahead_bind ahead_track fun _ _ => ahead_pure

theorem rootEntries_tokens (n : Nat) {ps : Paths} {st st' : St} {es : List Entry}
    (h : parseRootEntries U n ps st = .ok es st') : AllTokens U st := by
  induction n generalizing ps st st' es with
  | zero => cases h
  | succ n ih =>
    rw [parseRootEntries, bind_cur] at h
    split at h
    · rename_i hk; exact .done hk
    · obtain ⟨⟨e, ps'⟩, s, h1, h⟩ := bind_inv h
      obtain ⟨es', s', h2, h⟩ := bind_inv h
      exact Classical.byContradiction fun hn => ahead_rootEntry n ps st hn _ _ h1 (ih h2)

/-- A text that the Swift parser accepts has no error token. -/
theorem accepted_tokens {n : Nat} {s : List Char} {es : List Entry} (h : parse U n s = some (.ok es)) :
    AllTokens U ⟨s, false⟩ := by
  unfold parse at h
  cases hp : parseDocument U n ⟨s, false⟩ with
  | fail e => rw [hp] at h; cases h
  | fuel => rw [hp] at h; cases h
  | ok es' st' =>
    rw [parseDocument, bind_cur] at hp
    split at hp
    · rename_i hk
      obtain ⟨es'', s1, h1, hp⟩ := bind_inv hp
      rw [bind_cur] at hp
      split at hp
      · rename_i hk'
        exact Classical.byContradiction fun hn =>
          (ahead_all (U := U) n).2.2.2.2.2.1 _ hk hn _ _ h1 (.done hk')
      · cases hp
    · exact rootEntries_tokens n hp

end

end Styx.Swift
