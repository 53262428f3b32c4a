import Verif.Props.Navigate

/-!
# C82: the value proposed for a field is accepted by its schema
-/

namespace Styx.Props

open Styx Styx.Spec Styx.Lsp Styx.Schema

variable {F : Type} (E : Env F) (sf : SchemaFile F)

/-- The validator accepts the value at every path. -/
def Welcome (v : Value) (s : Schema F) : Prop := ∃ n, ∀ p, ∃ r, validate E sf n v s p = some r ∧ r.isValid = true

mutual
/-- The schemas for which the text proposed works, with the value it stands for and how the text ends: strings
that may be empty, numbers whose bounds allow zero, objects whose fields may be absent, enums whose first variant
has no payload, literals that are bare words, defaults and listed values that the schema accepts, and what
is made of them by optional, deprecated, union, flatten and tuple. -/
inductive Proposes : Schema F → Value → Tail → Prop
  | string {c} : (∀ c', c = some c' → ∀ m, c'.minLen = some m → m = 0) →
      Proposes (.string c) (scalarValue [] .quoted) .closed
  | int {c} : IntOk c 0 → Proposes (.int c) (scalarValue ['0'] .bare) .word
  | float {c x} : E.parseF (chars! "0.0") = some x → FloatOk E c x →
      Proposes (.float c) (scalarValue (chars! "0.0") .bare) .word
  | bool : Proposes .bool (scalarValue (chars! "false") .bare) .word
  | unit : Proposes .unit (.mk none none none) .word
  | any : Proposes .any (.mk none none none) .word
  | map (vs) : Proposes (.map [vs]) (.mk none (some (.object [] none)) none) .closed
  | keyedMap (ks vs) : Proposes (.map [ks, vs]) (.mk none (some (.object [] none)) none) .closed
  | object {decl} : (∀ d ∈ decl, d.1.value = none ∨ (∃ s, d.2 = .optional s) ∨ ∃ t s, d.2 = .default t s) →
      Proposes (.object decl) (.mk none (some (.object [] none)) none) .closed
  | optional {s v e} : Proposes s v e → Proposes (.optional s) v e
  | deprecated (r) {s v e} : Proposes s v e → Proposes (.deprecated r s) v e
  | flatten {s v e} : Proposes s v e → Proposes (.flatten s) v e
  | default {t s v e} : ValueText v e t → Welcome E sf v s → Proposes (.default t s) v e
  | union {s ss v e} : Proposes s v e → Proposes (.union (s :: ss)) v e
  | enum {n s rest} : TagName n → (s = .unit ∨ s = .type none) →
      Proposes (.enum ((n, s) :: rest)) (.mk (some ⟨n, none⟩) none none) .word
  | oneOf {s v e} : Proposes s v e → Proposes (.oneOf s []) v e
  | listed {s t ts} : BareText t → Welcome E sf (scalarValue t .bare) s →
      Proposes (.oneOf s (t :: ts)) (scalarValue t .bare) .word
  | literal {t} : BareText t → Proposes (.literal t) (scalarValue t .bare) .word
  | unitType : Proposes (.type none) (.mk none none none) .word
  | tuple {ss vs} : ProposesAll ss vs → Proposes (.tuple ss) (.mk none (some (.sequence vs none)) none) .closed
/-- The same for the items of a tuple, whose texts must not need the end of the line. -/
inductive ProposesAll : List (Schema F) → List Value → Prop
  | nil : ProposesAll [] []
  | cons {s ss v vs e} : Proposes s v e → (e = .word ∨ e = .closed) → ProposesAll ss vs →
      ProposesAll (s :: ss) (v :: vs)
end

variable {E sf}

theorem items_blank {vs : List Value} {t : List Char} (h : ItemsText vs t) : ItemsText vs (' ' :: t) := by
  cases h with
  | @nil g hg => exact .nil (g := ' ' :: g) (.blank (.inl rfl) hg)
  | @cons g v e s vs t hg hv hs hf => exact ItemsText.cons (g := ' ' :: g) (.blank (.inl rfl) hg) hv hs hf

mutual
theorem proposes_text : ∀ {s : Schema F} {v e}, Proposes E sf s v e → ValueText v e (placeholder s)
  | _, _, _, .string _ => by
    rw [placeholder]
    exact .scalar (.quoted (body := []) .nil .nil)
  | _, _, _, .int _ => by rw [placeholder]; exact .scalar (.bare (bareText_of_ok rfl))
  | _, _, _, .float _ _ => by rw [placeholder]; exact .scalar (.bare (bareText_of_ok rfl))
  | _, _, _, .bool => by rw [placeholder]; exact .scalar (.bare (bareText_of_ok rfl))
  | _, _, _, .unit => by rw [placeholder]; exact .unit
  | _, _, _, .any => by rw [placeholder]; exact .unit
  | _, _, _, .map _ => by
    rw [placeholder]; exact .object (.nil (g := []) .nil) (by simp [Spec.DistinctKeys])
  | _, _, _, .keyedMap _ _ => by
    rw [placeholder]; exact .object (.nil (g := []) .nil) (by simp [Spec.DistinctKeys])
  | _, _, _, .object _ => by
    rw [placeholder]; exact .object (.nil (g := []) .nil) (by simp [Spec.DistinctKeys])
  | _, _, _, .optional h => by rw [placeholder]; exact proposes_text h
  | _, _, _, .deprecated _ h => by rw [placeholder]; exact proposes_text h
  | _, _, _, .flatten h => by rw [placeholder]; exact proposes_text h
  | _, _, _, .default h _ => by rw [placeholder]; exact h
  | _, _, _, .union h => by rw [placeholder]; exact proposes_text h
  | _, _, _, .enum h _ => by rw [placeholder]; exact .tag h
  | _, _, _, .oneOf h => by rw [placeholder]; exact proposes_text h
  | _, _, _, .listed h _ => by rw [placeholder]; exact .scalar (.bare h)
  | _, _, _, .literal h => by rw [placeholder]; exact .scalar (.bare h)
  | _, _, _, .unitType => by rw [placeholder]; exact .unit
  | _, _, _, .tuple h => by rw [placeholder]; exact .sequence (proposes_items h)
theorem proposes_items : ∀ {ss : List (Schema F)} {vs}, ProposesAll E sf ss vs → ItemsText vs (placeholders ss ++ [')'])
  | _, _, .nil => .nil (g := []) .nil
  | _, _, @ProposesAll.cons _ _ _ s ss v vs e h he hs => by
    have h1 := proposes_text h
    have h2 := proposes_items hs
    cases ss with
    | nil =>
      rw [placeholders] at h2
      rw [placeholders]
      refine ItemsText.cons (g := []) .nil h1 h2 ?_
      rcases he with rfl | rfl
      · exact .inr ⟨')', [], rfl, by simp⟩
      · trivial
    | cons s' ss =>
      have h3 := items_blank h2
      have := ItemsText.cons (g := []) .nil h1 h3 (by
        rcases he with rfl | rfl
        · exact .inr ⟨' ', _, rfl, by simp⟩
        · trivial)
      rw [placeholders]
      · simpa using this
      · simp
end

theorem welcome_mono {n m : Nat} {v : Value} {s : Schema F} (h : n ≤ m)
    (hn : ∀ p, ∃ r, validate E sf n v s p = some r ∧ r.isValid = true) :
    ∀ p, ∃ r, validate E sf m v s p = some r ∧ r.isValid = true := by
  intro p
  obtain ⟨r, h1, h2⟩ := hn p
  exact ⟨r, validate_mono h _ _ _ _ h1, h2⟩

theorem welcome_once {v : Value} {s : Schema F}
    (h : ∀ p, ∃ r, Schema.step E sf (validate E sf 0) v s p = some r ∧ r.isValid = true) : Welcome E sf v s :=
  ⟨1, h⟩

mutual
theorem proposes_welcome : ∀ {s : Schema F} {v e}, Proposes E sf s v e → Welcome E sf v s
  | _, _, _, .string h => welcome_once fun p => by
    refine ⟨_, rfl, ?_⟩
    simp only [validateString, scalarValue, Value.scalarText]
    split
    · rfl
    · rename_i c
      rw [isValid_merge, isValid_when, isValid_when]
      have h1 : (c.minLen.any fun m => decide (utf8Len [] < m)) = false := by
        cases hm : c.minLen with
        | none => rfl
        | some m => have := h c rfl m hm; subst this; rfl
      have h2 : (c.maxLen.any fun m => decide (m < utf8Len [])) = false := by
        cases hm : c.maxLen with
        | none => rfl
        | some m => simp [utf8Len]
      rw [h1, h2]; rfl
  | _, _, _, .int h => welcome_once fun p => by
    refine ⟨_, rfl, ?_⟩
    have hz : parseI128 ['0'] = some 0 := by decide
    simp only [validateInt, scalarValue, Value.scalarText, hz]
    split
    · rfl
    · rename_i c
      have hc := h c rfl
      rw [isValid_merge, isValid_when, isValid_when]
      have h1 : (c.min.any fun m => decide ((0 : Int) < m)) = false := by
        cases hm : c.min with
        | none => rfl
        | some m => have := hc.1 m hm; simpa using this
      have h2 : (c.max.any fun m => decide (m < (0 : Int))) = false := by
        cases hm : c.max with
        | none => rfl
        | some m => have := hc.2 m hm; simpa using this
      rw [h1, h2]; rfl
  | _, _, _, @Proposes.float _ _ _ _ y hx h => welcome_once fun p => by
    refine ⟨_, rfl, ?_⟩
    simp only [validateFloat, scalarValue, Value.scalarText, hx]
    split
    · rfl
    · rename_i c
      have hc := h c rfl
      rw [isValid_merge, isValid_when, isValid_when]
      have h1 : (c.min.any fun m => E.ltF y m) = false := by
        cases hm : c.min with
        | none => rfl
        | some m => exact hc.1 m hm
      have h2 : (c.max.any fun m => E.ltF m y) = false := by
        cases hm : c.max with
        | none => rfl
        | some m => exact hc.2 m hm
      rw [h1, h2]; rfl
  | _, _, _, .bool => welcome_once fun p => ⟨.ok, rfl, rfl⟩
  | _, _, _, .unit => welcome_once fun p => ⟨.ok, rfl, rfl⟩
  | _, _, _, .any => welcome_once fun p => ⟨.ok, rfl, rfl⟩
  | _, _, _, .map _ => welcome_once fun p => ⟨.ok, rfl, rfl⟩
  | _, _, _, .keyedMap _ _ => welcome_once fun p => ⟨.ok, rfl, rfl⟩
  | _, _, _, @Proposes.object _ _ _ decl h => welcome_once fun p => by
    refine ⟨_, rfl, ?_⟩
    rw [isValid_merge, isValid_ok, Bool.true_and]
    have : missingFields decl [] p none = ⟨[], []⟩ := by
      rw [missingFields]
      congr 1
      rw [List.filterMap_eq_nil_iff]
      intro d hd
      rcases h d hd with h | ⟨s, h⟩ | ⟨t, s, h⟩
      · rw [h]
      · cases d.1.value <;> simp [h, notRequired]
      · cases d.1.value <;> simp [h, notRequired]
    show (missingFields decl [] p none).isValid = true
    rw [this]; rfl
  | _, _, _, .optional h => by
    obtain ⟨n, hn⟩ := proposes_welcome h
    refine ⟨n + 1, fun p => ?_⟩
    obtain ⟨r, h1, h2⟩ := hn p
    simp only [validate, Schema.step, validateOptional]
    split
    · exact ⟨_, rfl, rfl⟩
    · exact ⟨r, h1, h2⟩
  | _, _, _, .deprecated _ h => by
    obtain ⟨n, hn⟩ := proposes_welcome h
    refine ⟨n + 1, fun p => ?_⟩
    obtain ⟨r, h1, h2⟩ := hn p
    simp only [validate, Schema.step, validateDeprecated, h1]
    exact ⟨_, rfl, by rw [isValid_warning]; exact h2⟩
  | _, _, _, .flatten h => by
    obtain ⟨n, hn⟩ := proposes_welcome h
    exact ⟨n + 1, hn⟩
  | _, _, _, .default _ h => by
    obtain ⟨n, hn⟩ := h
    exact ⟨n + 1, hn⟩
  | _, _, _, .union h => by
    obtain ⟨n, hn⟩ := proposes_welcome h
    refine ⟨n + 1, fun p => ?_⟩
    obtain ⟨r, h1, h2⟩ := hn p
    simp only [validate, Schema.step, validateUnion, List.isEmpty_cons, tryVariants, h1, Option.bind_some, h2]
    exact ⟨_, rfl, rfl⟩
  | _, _, _, @Proposes.enum _ _ _ n s rest _ hs => welcome_once fun p => by
    simp only [Schema.step, validateEnum, Value.tag, lookup, if_true, Value.payload]
    rcases hs with rfl | rfl
    · exact ⟨_, rfl, rfl⟩
    · exact ⟨_, rfl, rfl⟩
  | _, _, _, .oneOf h => by
    obtain ⟨n, hn⟩ := proposes_welcome h
    refine ⟨n + 1, fun p => ?_⟩
    obtain ⟨r, h1, h2⟩ := hn p
    simp only [validate, Schema.step, validateOneOf, h1, Option.map_some, h2]
    exact ⟨_, rfl, rfl⟩
  | _, _, _, @Proposes.listed _ _ _ s t ts _ h => by
    obtain ⟨n, hn⟩ := h
    refine ⟨n + 1, fun p => ?_⟩
    obtain ⟨r, h1, h2⟩ := hn p
    simp only [validate, Schema.step, validateOneOf, h1, Option.map_some, h2]
    refine ⟨_, rfl, ?_⟩
    simp [scalarValue, Value.scalarText, isValid_ok]
  | _, _, _, .literal _ => welcome_once fun p => by
    refine ⟨_, rfl, ?_⟩
    simp [validateLiteral, scalarValue, Value.scalarText, isValid_ok]
  | _, _, _, .unitType => welcome_once fun p => ⟨.ok, rfl, rfl⟩
  | _, _, _, @Proposes.tuple _ _ _ ss vs h => by
    obtain ⟨n, hlen, hn⟩ := proposes_all_welcome h
    refine ⟨n + 1, fun p => ?_⟩
    obtain ⟨r, h1, h2⟩ := hn p 0
    simp only [validate, Schema.step, validateTuple, Value.asSequence]
    rw [h1]
    refine ⟨_, rfl, ?_⟩
    rw [isValid_merge, isValid_when, h2, hlen]
    simp
theorem proposes_all_welcome : ∀ {ss : List (Schema F)} {vs}, ProposesAll E sf ss vs → ∃ n, vs.length = ss.length ∧
    ∀ p i, ∃ r, mergeAll (fun ((x, s), i) => validate E sf n x s (itemPath p i)) ((vs.zip ss).zipIdx i) = some r ∧
      r.isValid = true
  | _, _, .nil => ⟨0, rfl, fun p i => ⟨_, rfl, rfl⟩⟩
  | _, _, .cons h _ hs => by
    obtain ⟨n, hn⟩ := proposes_welcome h
    obtain ⟨m, hl, hm⟩ := proposes_all_welcome hs
    refine ⟨max n m, by simp [hl], fun p i => ?_⟩
    obtain ⟨r, h1, h2⟩ := welcome_mono (Nat.le_max_left n m) hn (itemPath p i)
    obtain ⟨r', h3, h4⟩ := hm p (i + 1)
    refine ⟨r.merge r', ?_, by rw [isValid_merge, h2, h4]; rfl⟩
    rw [List.zip_cons_cons, List.zipIdx_cons, mergeAll]
    simp only [h1, Option.bind_some, Option.map_eq_some_iff]
    exact ⟨r', mergeAll_mono (fun x _ a ha => validate_mono (Nat.le_max_right n m) _ _ _ _ ha) h3, rfl⟩
end

/-- **C82**, for the schemas of `Proposes`: the text proposed for a field is read as a value, and the validator
accepts this value for the schema of the field. -/
theorem C82_partial {s : Schema F} {v : Value} {e : Tail} (h : Proposes E sf s v e) (name : List Char)
    (hn : BareText name) (hd : '.' ∉ name) :
    (∃ t, parseTree (name ++ ' ' :: placeholder s) = some (.ok t) ∧
      erase t = .mk none (some (.object [.mk (scalarValue name .bare) v none] none)) none) ∧
    ∃ n, ∀ p, ∃ r, validate E sf n v s p = some r ∧ r.isValid = true :=
  ⟨C47_value hn hd (proposes_text h) (follows_end e), proposes_welcome h⟩

/-- A tuple of a literal, an optional number with bounds and an object with an optional field. -/
example : Proposes natEnv [] (.tuple [.literal ['x'], .optional (.int (some ⟨some (-1), some 3⟩)),
      .object [(.named ['a'], .optional .bool)]])
    (.mk none (some (.sequence [scalarValue ['x'] .bare, scalarValue ['0'] .bare,
      .mk none (some (.object [] none)) none] none)) none) .closed :=
  .tuple (.cons (.literal (bareText_of_ok rfl)) (.inl rfl) (.cons (.optional (.int (by
    intro c hc; cases hc
    exact ⟨fun m hm => by cases hm; decide, fun m hm => by cases hm; decide⟩))) (.inl rfl)
    (.cons (.object (by intro d hd; simp only [List.mem_singleton] at hd; subst hd; exact .inr (.inl ⟨_, rfl⟩))) (.inr rfl) .nil)))

/-- **C82** is false for every sequence: `[]` is read as a word, which no sequence schema accepts. -/
theorem C82_sequence_false (item : Schema F) (name : List Char) (hn : BareText name) (hd : '.' ∉ name) :
    ∃ t v, parseTree (name ++ ' ' :: placeholder (.seq item)) = some (.ok t) ∧
      erase t = .mk none (some (.object [.mk (scalarValue name .bare) v none] none)) none ∧
      v = scalarValue ['[', ']'] .bare ∧
      ∀ n p r, validate E sf n v (.seq item) p = some r → r.isValid = false := by
  obtain ⟨t, h1, h2⟩ := C47_value (v := scalarValue ['[', ']'] .bare) (s := ['[', ']']) hn hd
    (.scalar (.bare (bareText_of_ok rfl))) (.inl rfl)
  refine ⟨t, _, h1, h2, rfl, ?_⟩
  intro n p r h
  cases n with
  | zero => cases h
  | succ n => cases h; rfl

/-- **C82** is false for every named object type: `@T` is a tag without payload, not an object. -/
theorem C82_named_false (T : List Char) (decl : List (ObjectKey × Schema F)) (sf : SchemaFile F)
    (hT : lookup (some T) sf = some (.object decl)) (ht : TagName T) (name : List Char) (hn : BareText name)
    (hd : '.' ∉ name) :
    ∃ t v, parseTree (name ++ ' ' :: placeholder (.type (some T) : Schema F)) = some (.ok t) ∧
      erase t = .mk none (some (.object [.mk (scalarValue name .bare) v none] none)) none ∧
      v = .mk (some ⟨T, none⟩) none none ∧
      ∀ n p r, validate E sf n v (.type (some T)) p = some r → r.isValid = false := by
  obtain ⟨t, h1, h2⟩ := C47_value hn hd (.tag ht) (.inl rfl)
  refine ⟨t, _, by rw [placeholder]; exact h1, h2, rfl, ?_⟩
  intro n p r h
  match n, h with
  | 0, h => cases h
  | 1, h => simp [validate, Schema.step, validateTypeRef, hT] at h
  | n + 2, h =>
    simp only [validate, Schema.step, validateTypeRef, hT, validateObject, Value.asObject] at h
    cases h; rfl

/-- **C82** is false for numbers and strings with lower bounds, objects with required fields, enums whose first
variant has a payload, and literals with spaces. -/
theorem C82_bounds_false :
    (placeholder (.int (some ⟨some 1, none⟩) : Schema Nat) = ['0'] ∧
      (validate natEnv [] 9 (scalarValue ['0'] .bare) (.int (some ⟨some 1, none⟩)) []).map (·.isValid) = some false) ∧
    (placeholder (.string (some ⟨some 1, none, none⟩) : Schema Nat) = ['"', '"'] ∧
      (validate natEnv [] 9 (scalarValue [] .quoted) (.string (some ⟨some 1, none, none⟩)) []).map (·.isValid) =
        some false) ∧
    (placeholder (.object [(.named ['a'], .int none)] : Schema Nat) = ['{', '}'] ∧
      (validate natEnv [] 9 (.mk none (some (.object [] none)) none) (.object [(.named ['a'], .int none)]) []).map
        (·.isValid) = some false) ∧
    (placeholder (.enum [(['a'], .int none)] : Schema Nat) = ['@', 'a'] ∧
      (validate natEnv [] 9 (.mk (some ⟨['a'], none⟩) none none) (.enum [(['a'], .int none)]) []).map (·.isValid) =
        some false) ∧
    (placeholder (.literal ['a', ' ', 'b'] : Schema Nat) = ['a', ' ', 'b'] ∧ rootKeys (chars! "k a b") = none) := by
  decide +kernel

end Styx.Props
