import Verif.Parse.Relation
import Verif.Parse.NestSpec
import Verif.Parse.EscapeLemmas

/-! # Every error of the lexer is reported by the parser -/

namespace Styx

open Styx.Spec

/-- The lexer reported no error here, or one about an escape that the parser lets pass (`Lenient`). -/
def Sound (input : List Char) : Lexeme → Prop
  | .panic _ => False
  | .error sp m => m.containsEscape = true ∧ ∃ raw, sliceBytes input sp.start sp.stop = some raw ∧
      Lenient (stripQuotes raw)
  | _ => True

theorem noError_split {a b : List Event} (h : NoError (a ++ b)) : NoError a ∧ NoError b :=
  ⟨fun e he => h e (List.mem_append_left _ he), fun e he => h e (List.mem_append_right _ he)⟩

theorem noError_tail {e : Event} {b : List Event} (h : NoError (e :: b)) : NoError b :=
  fun e he => h e (List.mem_cons_of_mem _ he)

theorem noError_err {sp : Span} {k : ParseErrorKind} {b : List Event} (h : NoError (errEv sp k :: b)) : False :=
  (h _ (List.mem_cons_self ..)).1 k rfl

theorem noError_panic {sp : Span} {b : List Event} (h : NoError (⟨sp, .panic⟩ :: b)) : False :=
  (h _ (List.mem_cons_self ..)).2 rfl

theorem escErrEvents_none {base : Nat} {text : List Char} (h : NoError (escErrEvents base text)) :
    validateEscapes text = [] := by
  unfold escErrEvents at h
  cases hv : validateEscapes text with
  | nil => rfl
  | cons x xs =>
    rw [hv] at h
    cases x with
    | bad off seq => exact (noError_err h).elim
    | panic => exact (noError_panic h).elim

/-- A key without errors is a value without errors. -/
theorem emitKey_value {a : Atom} (h : NoError (emitKey a)) : NoError (emitValue a) := by
  cases a with
  | scalar => intro e he; simp only [emitValue, List.mem_singleton] at he; subst he; simp
  | unit => intro e he; simp only [emitValue, List.mem_singleton] at he; subst he; simp
  | tag sp name payload invalid es =>
    simp only [emitKey] at h
    obtain ⟨h1, h2⟩ := noError_split h
    have hp : NoError (emitPayload payload) := by
      cases payload with
      | none => intro e he; simp [emitPayload] at he
      | some p =>
        rw [emitPayload]
        cases p with
        | scalar => intro e he; simp only [emitValue, List.mem_singleton] at he; subst he; simp
        | unit => intro e he; simp only [emitValue, List.mem_singleton] at he; subst he; simp
        | panic => exact (noError_panic h2).elim
        | _ => exact (noError_err h2).elim
    rw [emitValue]
    intro e he
    rcases List.mem_append.1 he with he | he
    · rcases List.mem_append.1 he with he | he
      · exact h1 e he
      · rcases List.mem_cons.1 he with rfl | he
        · simp
        · exact hp e he
    · simp only [List.mem_singleton] at he; subst he; simp
  | invalidEscapeScalar sp raw =>
    rw [emitKey] at h
    rw [emitValue]
    intro e he
    rcases List.mem_append.1 he with he | he
    · exact (noError_split h).1 e he
    · simp only [List.mem_singleton] at he; subst he; simp
  | error => exact (noError_err h).elim
  | panic => exact (noError_panic h).elim
  | object => exact (noError_err h).elim
  | sequence => exact (noError_err h).elim
  | attributes => exact (noError_err h).elim

theorem buildTagChain_payload {chain : List (List Char × Span)} {p : Atom}
    (h : NoError (emitValue (buildTagChain chain (some p)))) : NoError (emitValue p) := by
  induction chain with
  | nil => exact (noError_panic h).elim
  | cons c cs ih =>
    obtain ⟨name, sp⟩ := c
    cases cs with
    | nil =>
      rw [buildTagChain, emitValue] at h
      exact noError_tail (noError_split (noError_split h).1).2
    | cons c' cs =>
      rw [buildTagChain, emitValue] at h
      · exact ih (noError_tail (noError_split (noError_split h).1).2)
      · simp

theorem noError_entries_append {es es' : List ObjEntry} (h : NoError (emitEntries (es ++ es'))) :
    NoError (emitEntries es) ∧ NoError (emitEntries es') := by
  induction es with
  | nil => exact ⟨by intro e he; simp [emitEntries] at he, h⟩
  | cons e es ih =>
    obtain ⟨key, value, doc, tooMany⟩ := e
    simp only [List.cons_append, emitEntries] at h
    obtain ⟨h1, h2⟩ := noError_split h
    obtain ⟨i1, i2⟩ := ih h2
    refine ⟨?_, i2⟩
    simp only [emitEntries]
    intro e he
    rcases List.mem_append.1 he with he | he
    · exact h1 e he
    · exact i1 e he

theorem noError_elems_append {es es' : List Atom} (h : NoError (emitElems (es ++ es'))) :
    NoError (emitElems es) ∧ NoError (emitElems es') := by
  induction es with
  | nil => exact ⟨by intro e he; simp [emitElems] at he, h⟩
  | cons e es ih =>
    rw [List.cons_append, emitElems] at h
    obtain ⟨h1, h2⟩ := noError_split h
    obtain ⟨i1, i2⟩ := ih h2
    refine ⟨?_, i2⟩
    rw [emitElems]
    intro e he
    rcases List.mem_append.1 he with he | he
    · exact h1 e he
    · exact i1 e he

/-- The value and the surplus atoms of an entry without errors. -/
theorem entryValue_rest {key : Atom} {rest : List Atom} (h1 : NoError (emitValue (entryValue key rest).1))
    (h2 : (entryValue key rest).2 = none) : NoError (emitElems rest) := by
  match rest, h1, h2 with
  | [], _, _ => intro e he; simp [emitElems] at he
  | [v], h1, _ =>
    rw [emitElems, emitElems, List.append_nil]
    exact h1
  | v :: x :: _, _, h2 => cases h2

theorem entry_parts {key : Atom} {rest : List Atom} {doc : Option (Span × List (List Char))}
    (h : NoError (emitEntries [.mk key (entryValue key rest).1 doc (entryValue key rest).2])) :
    NoError (emitValue key) ∧ NoError (emitElems rest) := by
  simp only [emitEntries] at h
  obtain ⟨h, h3⟩ := noError_split (noError_split h).1
  obtain ⟨h, h2⟩ := noError_split h
  obtain ⟨-, h1⟩ := noError_split h
  refine ⟨emitKey_value (noError_tail h1), entryValue_rest h2 ?_⟩
  cases hx : (entryValue key rest).2 with
  | none => rfl
  | some sp => rw [hx] at h3; exact (noError_err h3).elim

theorem next_sound {input : List Char} {ls ls' : List Lexeme} {nxt : Lexeme} (h : nextLex ls = (nxt, ls'))
    (h1 : Sound input nxt) (h2 : ∀ l ∈ ls', Sound input l) : ∀ l ∈ ls, Sound input l := by
  cases ls with
  | nil => simp
  | cons l ls =>
    cases h
    intro l hl
    rcases List.mem_cons.1 hl with rfl | hl
    · exact h1
    · exact h2 l hl

theorem leaf_sound {input : List Char} {l : Lexeme} {a : Atom} (h : leafAtom input l = some a)
    (hn : NoError (emitValue a)) : Sound input l := by
  cases l with
  | error sp m =>
    rw [leafAtom] at h
    by_cases hm : m.containsEscape = true
    · rw [if_pos hm] at h
      cases hs : sliceBytes input sp.start sp.stop with
      | none =>
        rw [hs] at h
        cases h
        exact (noError_panic hn).elim
      | some raw =>
        rw [hs] at h
        cases h
        rw [emitValue] at hn
        exact ⟨hm, raw, hs, validateEscapes_iff.1 (escErrEvents_none (noError_split hn).1)⟩
    · rw [if_neg hm] at h
      cases h
      exact (noError_err hn).elim
  | panic sp =>
    cases h
    exact (noError_panic hn).elim
  | _ => trivial

theorem objSkip_sound {input : List Char} {l : Lexeme} (h : l.objSkip = true) : Sound input l := by
  cases l <;> first | trivial | cases h

theorem seqSkip_sound {input : List Char} {l : Lexeme} (h : l.seqSkip = true) : Sound input l := by
  cases l <;> first | trivial | cases h

theorem cons_sound {input : List Char} {l : Lexeme} {ls : List Lexeme} (h1 : Sound input l)
    (h2 : ∀ l ∈ ls, Sound input l) : ∀ x ∈ l :: ls, Sound input x := by
  intro x hx
  rcases List.mem_cons.1 hx with rfl | hx
  · exact h1
  · exact h2 x hx

theorem object_entries {sp : Span} {entries : List ObjEntry} {dups dangling unclosed}
    (h : NoError (emitValue (.object sp entries dups dangling unclosed))) :
    NoError (emitEntries entries) ∧ unclosed = false := by
  rw [emitValue] at h
  obtain ⟨h, -⟩ := noError_split h
  obtain ⟨h, h1⟩ := noError_split h
  obtain ⟨h, -⟩ := noError_split h
  obtain ⟨h, -⟩ := noError_split h
  refine ⟨h1, ?_⟩
  cases unclosed with
  | false => rfl
  | true => exact (noError_err (noError_tail h)).elim

theorem sequence_elems {sp : Span} {elems : List Atom} {unclosed commas}
    (h : NoError (emitValue (.sequence sp elems unclosed commas))) :
    NoError (emitElems elems) ∧ unclosed = false := by
  rw [emitValue] at h
  obtain ⟨h, -⟩ := noError_split h
  obtain ⟨h, h1⟩ := noError_split h
  obtain ⟨h, -⟩ := noError_split h
  refine ⟨h1, ?_⟩
  cases unclosed with
  | false => rfl
  | true => exact (noError_err (noError_tail h)).elim

/-- An atom without errors is made of lexemes without errors. -/
theorem atom_sound {input : List Char} {l ls a evs ls'} (h : AtomR input l ls a evs ls') : NoError evs →
    NoError (emitValue a) → (∀ x ∈ ls', Sound input x) → Sound input l ∧ ∀ x ∈ ls, Sound input x := by
  refine AtomR.rec
    (motive_1 := fun l ls a evs ls' _ => NoError evs → NoError (emitValue a) →
      (∀ x ∈ ls', Sound input x) → Sound input l ∧ ∀ x ∈ ls, Sound input x)
    (motive_2 := fun _ entries _ _ _ ls a evs ls' _ => NoError evs → NoError (emitValue a) →
      (∀ x ∈ ls', Sound input x) → (∀ x ∈ ls, Sound input x) ∧ NoError (emitEntries entries.reverse))
    (motive_3 := fun _ elems _ ls a evs ls' _ => NoError evs → NoError (emitValue a) →
      (∀ x ∈ ls', Sound input x) → (∀ x ∈ ls, Sound input x) ∧ NoError (emitElems elems.reverse))
    (motive_4 := fun ls attrs evs ls' _ => NoError evs → NoError (emitAttrs attrs) →
      (∀ x ∈ ls', Sound input x) → ∀ x ∈ ls, Sound input x)
    (motive_5 := fun l ls key rest evs ls' _ => NoError evs → NoError (emitValue key) →
      NoError (emitElems rest) → (∀ x ∈ ls', Sound input x) → Sound input l ∧ ∀ x ∈ ls, Sound input x)
    (motive_6 := fun _ _ ls rest evs ls' _ => NoError evs → NoError (emitElems rest) →
      (∀ x ∈ ls', Sound input x) → ∀ x ∈ ls, Sound input x)
    ?leaf ?unit ?unitBare ?tag ?tagPayload ?tagDot ?object ?sequence ?attrs
    ?oEof ?oClose ?oSkip ?oDoc ?oEntry ?sEof ?sClose ?sSkip ?sComma ?sElem ?aStop ?aAttr ?collect
    ?rStop ?rComment ?rDoc ?rMore h
  case leaf => intro l ls a h _ hn hs; exact ⟨leaf_sound h hn, hs⟩
  case unit => intro sp ls _ _ hs; exact ⟨trivial, hs⟩
  case unitBare => intro sp sp' v ls _ _ _ hs; exact ⟨trivial, cons_sound trivial hs⟩
  case tag => intro sp name hp ls _ _ _ hs; exact ⟨trivial, hs⟩
  case tagPayload =>
    intro sp name hp ls nxt ls' p evs ls'' h1 _ _ ih he hn hs
    obtain ⟨i1, i2⟩ := ih he (buildTagChain_payload hn) hs
    exact ⟨trivial, next_sound h1 i1 i2⟩
  case tagDot => intro sp name hp sp' v ls _ _ _ _ hs; exact ⟨trivial, cons_sound trivial hs⟩
  case object => intro sp ls a evs ls' _ ih he hn hs; exact ⟨trivial, (ih he hn hs).1⟩
  case sequence => intro sp ls a evs ls' _ ih he hn hs; exact ⟨trivial, (ih he hn hs).1⟩
  case attrs =>
    intro sp ks key ls nxt ls' v evs ls'' attrs evs' ls''' h1 _ _ ih1 ih2 he hn hs
    rw [emitValue] at hn
    obtain ⟨hn, -⟩ := noError_split hn
    have hn := noError_tail hn
    rw [emitAttrs] at hn
    obtain ⟨n1, n2⟩ := noError_split hn
    obtain ⟨e1, e2⟩ := noError_split he
    obtain ⟨i1, i2⟩ := ih1 e1 (noError_tail (noError_tail n1)) (ih2 e2 (noError_tail n2) hs)
    exact ⟨trivial, next_sound h1 i1 i2⟩
  case oEof =>
    intro start entries seen dups docs _ hn _
    cases (object_entries hn).2
  case oClose =>
    intro start entries seen dups docs sp ls _ hn hs
    exact ⟨cons_sound trivial hs, (object_entries hn).1⟩
  case oSkip =>
    intro start entries seen dups docs l ls a evs ls' h1 _ ih he hn hs
    obtain ⟨i1, i2⟩ := ih he hn hs
    exact ⟨cons_sound (objSkip_sound h1) i1, i2⟩
  case oDoc =>
    intro start entries seen dups docs sp text ls a evs ls' _ ih he hn hs
    obtain ⟨i1, i2⟩ := ih he hn hs
    exact ⟨cons_sound trivial i1, i2⟩
  case oEntry =>
    intro start entries seen dups docs l ls key rest evs ls' a evs' ls'' _ _ _ ih1 ih2 he hn hs
    obtain ⟨e1, e2⟩ := noError_split he
    obtain ⟨i1, i2⟩ := ih2 e2 hn hs
    rw [List.reverse_cons] at i2
    obtain ⟨i2, i3⟩ := noError_entries_append i2
    obtain ⟨n1, n2⟩ := entry_parts i3
    obtain ⟨j1, j2⟩ := ih1 e1 n1 n2 i1
    exact ⟨cons_sound j1 j2, i2⟩
  case sEof =>
    intro start elems commas _ hn _
    cases (sequence_elems hn).2
  case sClose =>
    intro start elems commas sp ls _ hn hs
    exact ⟨cons_sound trivial hs, (sequence_elems hn).1⟩
  case sSkip =>
    intro start elems commas l ls a evs ls' h1 _ ih he hn hs
    obtain ⟨i1, i2⟩ := ih he hn hs
    exact ⟨cons_sound (seqSkip_sound h1) i1, i2⟩
  case sComma =>
    intro start elems commas sp ls a evs ls' _ ih he hn hs
    obtain ⟨i1, i2⟩ := ih he hn hs
    exact ⟨cons_sound trivial i1, i2⟩
  case sElem =>
    intro start elems commas l ls e evs ls' a evs' ls'' _ _ _ ih1 ih2 he hn hs
    obtain ⟨e1, e2⟩ := noError_split he
    obtain ⟨i1, i2⟩ := ih2 e2 hn hs
    rw [List.reverse_cons] at i2
    obtain ⟨i2, i3⟩ := noError_elems_append i2
    rw [emitElems, emitElems, List.append_nil] at i3
    obtain ⟨j1, j2⟩ := ih1 e1 i3 i1
    exact ⟨cons_sound j1 j2, i2⟩
  case aStop => intro ls _ _ _ hs; exact hs
  case aAttr =>
    intro sp ks key ls nxt ls' v evs ls'' attrs evs' ls''' h1 _ _ ih1 ih2 he hn hs
    rw [emitAttrs] at hn
    obtain ⟨n1, n2⟩ := noError_split hn
    obtain ⟨e1, e2⟩ := noError_split he
    obtain ⟨i1, i2⟩ := ih1 e1 (noError_tail (noError_tail n1)) (ih2 e2 (noError_tail n2) hs)
    exact cons_sound trivial (next_sound h1 i1 i2)
  case collect =>
    intro l ls a evs ls' rest evs' ls'' _ _ ih1 ih2 he hk hr hs
    obtain ⟨e1, e2⟩ := noError_split he
    exact ih1 e1 hk (ih2 e2 hr hs)
  case rStop => intro first only ls _ _ _ hs; exact hs
  case rComment => intro first only sp text ls _ _ hs; exact cons_sound trivial hs
  case rDoc => intro first only sp text ls _ _ hs; exact cons_sound trivial hs
  case rMore =>
    intro first only l ls a evs ls' rest evs' ls'' _ _ _ ih1 ih2 he hn hs
    obtain ⟨e1, e2⟩ := noError_split he
    rw [emitElems] at hn
    obtain ⟨n1, n2⟩ := noError_split hn
    obtain ⟨j1, j2⟩ := ih1 (noError_split e1).2 n1 (ih2 e2 n2 hs)
    exact cons_sound j1 j2

theorem rest_sound {input : List Char} {first only ls rest evs ls'} (h : RestR input first only ls rest evs ls') :
    NoError evs → NoError (emitElems rest) → (∀ x ∈ ls', Sound input x) → ∀ x ∈ ls, Sound input x := by
  refine RestR.rec (motive_1 := fun _ _ _ _ _ _ => True) (motive_2 := fun _ _ _ _ _ _ _ _ _ _ => True)
    (motive_3 := fun _ _ _ _ _ _ _ _ => True) (motive_4 := fun _ _ _ _ _ => True)
    (motive_5 := fun _ _ _ _ _ _ _ => True)
    (motive_6 := fun _ _ ls rest evs ls' _ => NoError evs → NoError (emitElems rest) →
      (∀ x ∈ ls', Sound input x) → ∀ x ∈ ls, Sound input x)
    ?_ ?_ ?_ ?_ ?_ ?_ ?_ ?_ ?_ ?_ ?_ ?_ ?_ ?_ ?_ ?_ ?_ ?_ ?_ ?_ ?_ ?_ ?stop ?comment ?doc ?more h
  case stop => intro first only ls _ _ _ hs; exact hs
  case comment => intro first only sp text ls _ _ hs; exact cons_sound trivial hs
  case doc => intro first only sp text ls _ _ hs; exact cons_sound trivial hs
  case more =>
    intro first only l ls a evs ls' rest evs' ls'' _ h1 _ _ ih2 he hn hs
    obtain ⟨e1, e2⟩ := noError_split he
    rw [emitElems] at hn
    obtain ⟨n1, n2⟩ := noError_split hn
    obtain ⟨j1, j2⟩ := atom_sound h1 (noError_split e1).2 n1 (ih2 e2 n2 hs)
    exact cons_sound j1 j2
  all_goals (intros; trivial)

theorem collect_sound {input : List Char} {l ls key rest evs ls'} (h : CollectR input l ls key rest evs ls')
    (he : NoError evs) (hk : NoError (emitValue key)) (hr : NoError (emitElems rest))
    (hs : ∀ x ∈ ls', Sound input x) : Sound input l ∧ ∀ x ∈ ls, Sound input x := by
  cases h with
  | mk h1 h2 =>
    obtain ⟨e1, e2⟩ := noError_split he
    exact atom_sound h1 e1 hk (rest_sound h2 e2 hr hs)

/-! ## The states of the parser -/

theorem rest_events {sp : Span} {rest : List Atom} (h1 : NoError (entryValueEvents sp rest))
    (h2 : NoError (tooManyEvents rest)) : NoError (emitElems rest) := by
  match rest, h1, h2 with
  | [], _, _ => intro e he; simp [emitElems] at he
  | [v], h1, _ =>
    rw [emitElems, emitElems, List.append_nil]
    exact h1
  | v :: x :: _, _, h2 => exact (noError_err h2).elim

theorem simple_events {key : Atom} {rest : List Atom} (h : NoError (emitSimpleEntry key rest)) :
    NoError (emitValue key) ∧ NoError (emitElems rest) := by
  unfold emitSimpleEntry at h
  obtain ⟨h, -⟩ := noError_split h
  obtain ⟨h, h3⟩ := noError_split h
  obtain ⟨h, h2⟩ := noError_split h
  exact ⟨emitKey_value (noError_tail h), rest_events h2 h3⟩

theorem dotted_events {text : List Char} {sp : Span} {rest : List Atom} {path : Option PathState}
    (h : NoError (emitDotted text sp rest path).1) : NoError (emitElems rest) := by
  unfold emitDotted at h
  simp only at h
  split at h
  · exact (noError_err h).elim
  · obtain ⟨h, -⟩ := noError_split h
    obtain ⟨h, h3⟩ := noError_split h
    obtain ⟨-, h2⟩ := noError_split h
    exact rest_events h2 h3

theorem scalar_value {sp : Span} {v : List Char} {k : ScalarKind} : NoError (emitValue (.scalar sp v k)) := by
  intro e he
  simp only [emitValue, List.mem_singleton] at he
  subst he
  simp

theorem root_events {input : List Char} {key : Atom} {rest : List Atom} {path : PathState}
    (h : NoError (emitEntryAtRoot input key rest path).1) : NoError (emitValue key) ∧ NoError (emitElems rest) := by
  unfold emitEntryAtRoot at h
  simp only at h
  split at h
  · split at h
    · exact ⟨scalar_value, dotted_events h⟩
    · exact simple_events (noError_split h).2
  · exact simple_events (noError_split h).2

theorem object_events {key : Atom} {rest : List Atom} {seen : List (KeyValue × Span)}
    (h : NoError (emitEntryInObject key rest seen).1) : NoError (emitValue key) ∧ NoError (emitElems rest) := by
  have hs : NoError (match lookupKey (KeyValue.fromAtom key) seen with
      | some original => ((match key with | .scalar sp _ .heredoc => [errEv sp .invalidKey] | _ => []) ++
          errEv key.span (.duplicateKey original) :: emitSimpleEntry key rest, seen)
      | none => ((match key with | .scalar sp _ .heredoc => [errEv sp .invalidKey] | _ => []) ++
          emitSimpleEntry key rest, (KeyValue.fromAtom key, key.span) :: seen)).1 →
      NoError (emitValue key) ∧ NoError (emitElems rest) := by
    intro h
    split at h
    · exact (noError_err (noError_split h).2).elim
    · exact simple_events (noError_split h).2
  unfold emitEntryInObject at h
  simp only at h
  split at h
  · split at h
    · exact ⟨scalar_value, dotted_events h⟩
    · exact hs h
  · exact hs h

theorem rootSkip_sound {input : List Char} {l : Lexeme} (h : l.rootSkip = true) : Sound input l := by
  cases l <;> first | trivial | cases h

theorem trailing_sound {input : List Char} {ls : List Lexeme} {evs : List Event}
    (h : checkTrailing ls = some (evs, .afterDocument, [])) (hn : NoError evs) : ∀ x ∈ ls, Sound input x := by
  induction ls with
  | nil => simp
  | cons l ls ih =>
    cases l with
    | newline => rw [checkTrailing] at h; exact cons_sound trivial (ih h)
    | comment => rw [checkTrailing] at h; exact cons_sound trivial (ih h)
    | panic =>
      rw [checkTrailing] at h
      cases h
      exact (noError_panic hn).elim
    | _ =>
      simp only [checkTrailing, Option.some.injEq, Prod.mk.injEq] at h
      obtain ⟨rfl, -⟩ := h
      exact (noError_err hn).elim

/-- The lexemes of a run without errors have no errors. -/
theorem run_sound {input : List Char} {st : PState} {ls : List Lexeme} {evs : List Event}
    (h : RunR input st ls evs) (hst : st ≠ .beforeExpression) (hn : NoError evs) : ∀ x ∈ ls, Sound input x := by
  induction h with
  | start _ ih => exact ih (by simp) (noError_tail hn)
  | rootEof => simp
  | rootSkip h _ ih => exact cons_sound (rootSkip_sound h) (ih (by simp) hn)
  | rootComment _ ih => exact cons_sound trivial (ih (by simp) (noError_tail hn))
  | rootDoc _ ih => exact cons_sound trivial (ih (by simp) (noError_tail (noError_split hn).2))
  | rootBrace _ ih => exact cons_sound trivial (ih (by simp) (noError_tail hn))
  | rootEntry _ h _ ih =>
    obtain ⟨hn, n3⟩ := noError_split hn
    obtain ⟨hn, n2⟩ := noError_split hn
    obtain ⟨-, n1⟩ := noError_split hn
    obtain ⟨k1, k2⟩ := root_events n2
    obtain ⟨c1, c2⟩ := collect_sound h n1 k1 k2 (ih (by simp) n3)
    exact cons_sound c1 c2
  | objEof => simp
  | objClose _ ih => exact cons_sound trivial (ih (by simp) (noError_split hn).2)
  | objSkip h _ ih => exact cons_sound (rootSkip_sound h) (ih (by simp) hn)
  | objComment _ ih => exact cons_sound trivial (ih (by simp) (noError_tail hn))
  | objDoc _ ih => exact cons_sound trivial (ih (by simp) (noError_tail hn))
  | objEntry _ h _ ih =>
    obtain ⟨hn, n3⟩ := noError_split hn
    obtain ⟨n1, n2⟩ := noError_split hn
    obtain ⟨k1, k2⟩ := object_events n2
    obtain ⟨c1, c2⟩ := collect_sound h n1 k1 k2 (ih (by simp) n3)
    exact cons_sound c1 c2
  | after h => exact trailing_sound h hn
  | exprEnd => simp
  | exprSkip => exact (hst rfl).elim
  | expr => exact (hst rfl).elim

end Styx
