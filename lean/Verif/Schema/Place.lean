import Verif.Schema.PlaceSpec
import Verif.Schema.Report

/-!
# Errors and warnings are about the part of the document at their path
-/

namespace Styx.Schema

variable {F : Type} {E : Env F} {sf : SchemaFile F}

/-- The place of the value with path `q`, as the validator knows it: none behind a tag. -/
def Placed (p : List Char) (v : Value) (q : List Char) (w : Value) (place : Option Span) : Prop :=
  PathTo p v q w ∧ (place = w.span ∨ place = none ∧ BehindTag p v q w)

/-- All errors and warnings are about parts of the value. -/
def AllPlaced (p : List Char) (v : Value) (r : Result) : Prop :=
  (∀ e ∈ r.errors, ∃ q w place, Placed p v q w place ∧ About q w place e) ∧
  ∀ x ∈ r.warnings, ∃ q w, Placed p v q w x.span ∧ x.path = q

theorem AllPlaced.ok {p v} : AllPlaced p v .ok := ⟨by simp [Result.ok], by simp [Result.ok]⟩

theorem AllPlaced.merge {p v r s} (h : AllPlaced p v r) (g : AllPlaced p v s) : AllPlaced p v (r.merge s) := by
  constructor
  · intro e he
    rcases List.mem_append.1 he with he | he
    · exact h.1 e he
    · exact g.1 e he
  · intro e he
    rcases List.mem_append.1 he with he | he
    · exact h.2 e he
    · exact g.2 e he

theorem AllPlaced.fail {p : List Char} {v : Value} {k : Kind} (h1 : ∀ name, k ≠ .missingField name)
    (h2 : ∀ name a b, k ≠ .unknownField name a b) : AllPlaced p v (.fail p v.span k) := by
  refine ⟨fun e he => ?_, by simp [Result.fail, Result.error, Result.ok]⟩
  simp only [Result.fail, Result.error, Result.ok, List.nil_append, List.mem_singleton] at he
  subst he
  exact ⟨p, v, _, ⟨.here, .inl rfl⟩, .inl ⟨rfl, rfl, h1, h2⟩⟩

theorem AllPlaced.when {p : List Char} {v : Value} {k : Kind} {c : Bool} (h1 : ∀ name, k ≠ .missingField name)
    (h2 : ∀ name a b, k ≠ .unknownField name a b) : AllPlaced p v (.when c p v.span k) := by
  cases c
  · exact .ok
  · exact .fail h1 h2

/-- From a part to the whole. -/
theorem AllPlaced.lift {p v p' v' r} (h : AllPlaced p' v' r) (hl : ∀ {q w}, PathTo p' v' q w → PathTo p v q w) :
    AllPlaced p v r := by
  have hp : ∀ {q w place}, Placed p' v' q w place → Placed p v q w place := by
    rintro q w place ⟨h1, h2 | ⟨h2, t, pl, sp, q', h3, h4⟩⟩
    · exact ⟨hl h1, .inl h2⟩
    · exact ⟨hl h1, .inr ⟨h2, t, pl, sp, q', hl h3, h4⟩⟩
  constructor
  · intro e he
    obtain ⟨q, w, place, h1, h2⟩ := h.1 e he
    exact ⟨q, w, place, hp h1, h2⟩
  · intro x hx
    obtain ⟨q, w, h1, h2⟩ := h.2 x hx
    exact ⟨q, w, hp h1, h2⟩

/-- The place of a value does not matter for what is inside. -/
theorem PathTo.moved {p : List Char} {pl : Payload} {sp sp' : Option Span} {q : List Char} {w : Value}
    (h : PathTo p (.mk none (some pl) sp) q w) :
    (q = p ∧ w = .mk none (some pl) sp) ∨ PathTo p (.mk none (some pl) sp') q w := by
  cases h with
  | here => exact .inl ⟨rfl, rfl⟩
  | entry h1 h2 h3 => exact .inr (.entry h1 h2 h3)
  | key h1 h2 => exact .inr (.key h1 h2)
  | item h1 h2 => exact .inr (.item h1 h2)

theorem About.moved {q : List Char} {w w' : Value} {place : Option Span} {e : Err} (hp : w'.payload = w.payload)
    (h : About q w place e) : About q w' place e := by
  unfold About at h ⊢
  rw [hp]
  exact h

theorem AllPlaced.payload {p : List Char} {t : Tag} {pl : Payload} {sp : Option Span} {r : Result}
    (h : AllPlaced (pathAt p t.name) (.mk none (some pl) none) r) : AllPlaced p (.mk (some t) (some pl) sp) r := by
  have hp : ∀ {q w place}, Placed (pathAt p t.name) (.mk none (some pl) none) q w place →
      ∃ w', w'.payload = w.payload ∧ Placed p (.mk (some t) (some pl) sp) q w' place := by
    rintro q w place ⟨h1, h2⟩
    rcases h1.moved (sp' := sp) with ⟨rfl, rfl⟩ | h1
    · refine ⟨.mk none (some pl) sp, rfl, .payload .here, .inr ⟨?_, t, pl, sp, p, .here, rfl, rfl⟩⟩
      rcases h2 with h2 | h2
      · exact h2
      · exact h2.1
    · refine ⟨w, rfl, .payload h1, ?_⟩
      rcases h2 with h2 | ⟨h2, t', pl', sp', q', h3, h4⟩
      · exact .inl h2
      · rcases h3.moved (sp' := sp) with ⟨_, h3⟩ | h3
        · cases h3
        · exact .inr ⟨h2, t', pl', sp', q', .payload h3, h4⟩
  constructor
  · intro e he
    obtain ⟨q, w, place, h1, h2⟩ := h.1 e he
    obtain ⟨w', h3, h4⟩ := hp h1
    exact ⟨q, w', place, h4, h2.moved h3⟩
  · intro x hx
    obtain ⟨q, w, h1, h2⟩ := h.2 x hx
    obtain ⟨w', h3, h4⟩ := hp h1
    exact ⟨q, w', h4, h2⟩

theorem mergeAll_placed {α : Type} {f : α → Option Result} {p v} : ∀ {xs : List α} {r},
    (∀ x ∈ xs, ∀ a, f x = some a → AllPlaced p v a) → mergeAll f xs = some r → AllPlaced p v r
  | [], r, _, h => by cases h; exact .ok
  | x :: xs, r, hf, h => by
    simp only [mergeAll, Option.bind_eq_some_iff, Option.map_eq_some_iff] at h
    obtain ⟨a, ha, b, hb, rfl⟩ := h
    exact (hf x (List.mem_cons_self ..) a ha).merge
      (mergeAll_placed (fun y hy => hf y (List.mem_cons_of_mem _ hy)) hb)

theorem keyOpt_shown {e : Entry} {key : Option (List Char)} (h : keyOpt e = some key) :
    KeyShown e (key.getD (chars! "@")) := by
  obtain ⟨⟨t, p, sp⟩, v, d⟩ := e
  rw [keyOpt] at h
  rcases t with _ | t <;> rcases p with _ | ⟨_ | _ | _⟩ <;>
    simp [Entry.key, Value.isUnit, Value.asStr, Value.tag, Value.payload] at h <;> subst h
  · exact .inr ⟨⟨sp, rfl⟩, rfl⟩
  · exact .inl ⟨_, _, _, rfl⟩

theorem asStr_shown {e : Entry} {key : List Char} (h : e.key.asStr = some key) : KeyShown e key := by
  obtain ⟨⟨t, p, sp⟩, v, d⟩ := e
  rcases t with _ | t <;> rcases p with _ | ⟨_ | _ | _⟩ <;> simp [Entry.key, Value.asStr] at h <;> subst h
  exact .inl ⟨_, _, _, rfl⟩

theorem object_of {v : Value} {es : List Entry} (h : v.asObject = some es) :
    ∃ t o sp, v = .mk t (some (.object es o)) sp := by
  obtain ⟨t, p, sp⟩ := v
  rcases p with _ | ⟨_ | _ | _⟩ <;> simp [Value.asObject] at h
  subst h
  exact ⟨t, _, sp, rfl⟩

theorem sequence_of {v : Value} {vs : List Value} (h : v.asSequence = some vs) :
    ∃ t o sp, v = .mk t (some (.sequence vs o)) sp := by
  obtain ⟨t, p, sp⟩ := v
  rcases p with _ | ⟨_ | _ | _⟩ <;> simp [Value.asSequence] at h
  subst h
  exact ⟨t, _, sp, rfl⟩

theorem object_placed {n : Nat} {t : Option Tag} {es : List Entry} {o sp : Option Span}
    {fields : List (ObjectKey × Schema F)} {p : List Char}
    (ih : ∀ v s p r, validate E sf n v s p = some r → AllPlaced p v r) {r : Result}
    (h : validateObject E (validate E sf n) (.mk t (some (.object es o)) sp) fields p = some r) :
    AllPlaced p (.mk t (some (.object es o)) sp) r := by
  simp only [validateObject, Value.asObject, Option.map_eq_some_iff] at h
  obtain ⟨a, ha, rfl⟩ := h
  refine .merge (mergeAll_placed ?_ ha) ?_
  · intro e he b hb
    rw [validateEntry] at hb
    split at hb
    · cases hb
      refine ⟨fun x hx => ?_, by simp [Result.fail, Result.error, Result.ok]⟩
      simp only [Result.fail, Result.error, Result.ok, List.nil_append, List.mem_singleton] at hx
      subst hx
      exact ⟨p, _, _, ⟨.here, .inl rfl⟩, .inr (.inr (.inr ⟨e, es, o, rfl, he, rfl, .inl rfl, rfl⟩))⟩
    · rename_i key hk
      dsimp only at hb
      have hs := keyOpt_shown hk
      rw [fieldPath_eq] at hb
      split at hb
      · exact (ih _ _ _ _ hb).lift (.entry he hs)
      · split at hb
        · exact (ih _ _ _ _ hb).lift (.entry he hs)
        · cases hb
          refine ⟨fun x hx => ?_, by simp [Result.fail, Result.error, Result.ok]⟩
          simp only [Result.fail, Result.error, Result.ok, List.nil_append, List.mem_singleton] at hx
          subst hx
          exact ⟨p, _, _, ⟨.here, .inl rfl⟩, .inr (.inr (.inl ⟨e, _, _, _, es, o, rfl, he, hs, rfl, rfl, rfl⟩))⟩
  · refine ⟨fun x hx => ?_, by simp [missingFields]⟩
    simp only [missingFields, List.mem_filterMap] at hx
    obtain ⟨f, -, hx⟩ := hx
    split at hx
    · cases hx
    · rename_i name _
      split at hx
      · cases hx
      · rename_i hc
        cases hx
        refine ⟨p, _, _, ⟨.here, .inl rfl⟩, .inr (.inl ⟨name, es, o, rfl, ?_, fieldPath_eq .., rfl, rfl⟩)⟩
        intro e he hk
        refine hc ?_
        rw [Bool.or_eq_true]
        left
        rw [List.contains_iff_mem, List.mem_filterMap]
        exact ⟨e, he, keyOpt_named.2 hk⟩

theorem map_placed {n : Nat} {t : Option Tag} {es : List Entry} {o sp : Option Span} {ks : Option (Schema F)}
    {vs : Schema F} {p : List Char} (ih : ∀ v s p r, validate E sf n v s p = some r → AllPlaced p v r) {r : Result}
    (h : mergeAll (validateMapEntry (validate E sf n) ks vs p) es = some r) :
    AllPlaced p (.mk t (some (.object es o)) sp) r := by
  refine mergeAll_placed ?_ h
  intro e he b hb
  unfold validateMapEntry at hb
  split at hb
  · cases hb
    refine ⟨fun x hx => ?_, by simp [Result.fail, Result.error, Result.ok]⟩
    simp only [Result.fail, Result.error, Result.ok, List.nil_append, List.mem_singleton] at hx
    subst hx
    exact ⟨p, _, _, ⟨.here, .inl rfl⟩, .inr (.inr (.inr ⟨e, es, o, rfl, he, rfl, .inr rfl, rfl⟩))⟩
  · rename_i key hk
    have hs := asStr_shown hk
    simp only [Option.bind_eq_some_iff, Option.map_eq_some_iff] at hb
    obtain ⟨a, ha, c, hc, rfl⟩ := hb
    rw [fieldPath_eq] at hc
    refine .merge ?_ ((ih _ _ _ _ hc).lift (.entry he hs))
    cases ks with
    | none => cases ha; exact .ok
    | some k => exact (ih _ _ _ _ ha).lift (.key he)

theorem validate_placed : ∀ (n : Nat) (v : Value) (s : Schema F) (p : List Char) (r : Result),
    validate E sf n v s p = some r → AllPlaced p v r := by
  intro n
  induction n with
  | zero => intro v s p r h; cases h
  | succ n ih =>
    intro v s p r h
    rw [validate] at h
    cases s with
    | string c =>
      cases h
      rw [validateString]
      split
      · exact .fail (by simp) (by simp)
      · split
        · exact .ok
        · exact .merge (.when (by simp) (by simp)) (.when (by simp) (by simp))
    | int c =>
      cases h
      rw [validateInt]
      split
      · exact .fail (by simp) (by simp)
      · split
        · exact .fail (by simp) (by simp)
        · split
          · exact .ok
          · exact .merge (.when (by simp) (by simp)) (.when (by simp) (by simp))
    | float c =>
      cases h
      rw [validateFloat]
      split
      · exact .fail (by simp) (by simp)
      · split
        · exact .fail (by simp) (by simp)
        · split
          · exact .ok
          · exact .merge (.when (by simp) (by simp)) (.when (by simp) (by simp))
    | bool =>
      cases h
      rw [validateBool]
      split
      · split
        · exact .ok
        · exact .fail (by simp) (by simp)
      · exact .fail (by simp) (by simp)
    | unit =>
      cases h
      rw [validateUnit]
      split
      · exact .ok
      · exact .fail (by simp) (by simp)
    | any => cases h; exact .ok
    | object fields =>
      cases ho : v.asObject with
      | none =>
        simp only [Schema.step, validateObject, ho] at h
        cases h
        exact .fail (by simp) (by simp)
      | some es =>
        obtain ⟨t, o, sp, rfl⟩ := object_of ho
        exact object_placed ih h
    | seq item =>
      simp only [Schema.step, validateSeq] at h
      split at h
      · cases h; exact .fail (by simp) (by simp)
      · rename_i items hi
        obtain ⟨t, o, sp, rfl⟩ := sequence_of hi
        refine mergeAll_placed ?_ h
        rintro ⟨x, i⟩ hx a ha
        have := List.mem_zipIdx_iff_getElem?.1 hx
        exact (ih _ _ _ _ ha).lift fun hp => .item this (by simpa [itemPath] using hp)
    | tuple ss =>
      simp only [Schema.step, validateTuple] at h
      split at h
      · cases h; exact .fail (by simp) (by simp)
      · rename_i items hi
        obtain ⟨t, o, sp, rfl⟩ := sequence_of hi
        simp only [Option.map_eq_some_iff] at h
        obtain ⟨b, hb, rfl⟩ := h
        refine .merge (.when (by simp) (by simp)) (mergeAll_placed ?_ hb)
        rintro ⟨⟨x, s⟩, i⟩ hx a ha
        have := List.mem_zipIdx_iff_getElem?.1 hx
        have h2 : items[i]? = some x := by
          simp only [List.getElem?_zip_eq_some] at this
          exact this.1
        exact (ih _ _ _ _ ha).lift fun hp => .item h2 (by simpa [itemPath] using hp)
    | map types =>
      simp only [Schema.step, validateMap] at h
      split at h
      · cases h; exact .fail (by simp) (by simp)
      · rename_i es hi
        obtain ⟨t, o, sp, rfl⟩ := object_of hi
        split at h
        · exact map_placed ih h
        · exact map_placed ih h
        · cases h; exact .fail (by simp) (by simp)
    | union ss =>
      simp only [Schema.step, validateUnion] at h
      split at h
      · cases h; exact .fail (by simp) (by simp)
      · simp only [Option.map_eq_some_iff] at h
        obtain ⟨b, -, rfl⟩ := h
        split
        · exact .ok
        · exact .fail (by simp) (by simp)
    | optional s =>
      simp only [Schema.step, validateOptional] at h
      split at h
      · cases h; exact .ok
      · exact ih _ _ _ _ h
    | enum vs =>
      simp only [Schema.step, validateEnum] at h
      split at h
      · split at h
        · exact ih _ _ _ _ h
        · cases h; exact .fail (by simp) (by simp)
      · rename_i tag ht
        split at h
        · split at h
          · split at h
            · cases h; exact .ok
            · cases h; exact .fail (by simp) (by simp)
          · rename_i pl hp
            obtain ⟨t, p', sp⟩ := v
            simp only [Value.tag, Value.payload] at ht hp
            subst ht hp
            rw [fieldPath_eq] at h
            exact (ih _ _ _ _ h).payload
        · cases h; exact .fail (by simp) (by simp)
    | oneOf base allowed =>
      simp only [Schema.step, validateOneOf, Option.map_eq_some_iff] at h
      obtain ⟨b, hb, rfl⟩ := h
      split
      · exact ih _ _ _ _ hb
      · split
        · exact .ok
        · split
          · exact .fail (by simp) (by simp)
          · split
            · exact .ok
            · exact .fail (by simp) (by simp)
    | flatten s => exact ih _ _ _ _ h
    | default d s => exact ih _ _ _ _ h
    | deprecated reason s =>
      simp only [Schema.step, validateDeprecated, Option.map_eq_some_iff] at h
      obtain ⟨b, hb, rfl⟩ := h
      have := ih _ _ _ _ hb
      refine ⟨this.1, fun x hx => ?_⟩
      rcases List.mem_append.1 hx with hx | hx
      · exact this.2 x hx
      · rw [List.mem_singleton] at hx
        subst hx
        exact ⟨p, v, ⟨.here, .inl rfl⟩, rfl⟩
    | literal t =>
      cases h
      rw [validateLiteral]
      split
      · split
        · exact .ok
        · exact .fail (by simp) (by simp)
      · exact .fail (by simp) (by simp)
    | type name =>
      simp only [Schema.step, validateTypeRef] at h
      split at h
      · cases h
        rw [validateUnit]
        split
        · exact .ok
        · exact .fail (by simp) (by simp)
      · split at h
        · exact ih _ _ _ _ h
        · cases h; exact .fail (by simp) (by simp)

theorem validateDocument_placed {n : Nat} {doc : Value} {r : Result} (h : validateDocument E sf n doc = some r) :
    AllPlaced [] doc r := by
  unfold validateDocument at h
  split at h
  · exact validate_placed _ _ _ _ _ h
  · cases h
    exact .fail (by simp) (by simp)

end Styx.Schema
