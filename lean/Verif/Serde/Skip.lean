import Verif.Serde.Read

/-! # Fields in another order, unknown fields and missing fields -/

namespace Styx.Serde

open Styx.Spec Styx.Cst

/-- The two kinds of brackets. -/
def Brackets (op cl : TokenKind) : Prop := op = .lparen ∧ cl = .rparen ∨ op = .lbrace ∧ cl = .rbrace

theorem skipTo_scalar {op cl : TokenKind} (hb : Brackets op cl) {t : Token} {ts : List Token}
    (h : t.kind ≠ .lparen ∧ t.kind ≠ .rparen ∧ t.kind ≠ .lbrace ∧ t.kind ≠ .rbrace) (n : Nat) :
    skipTo op cl (n + 1) (t :: ts) = skipTo op cl (n + 1) ts := by
  rw [skipTo]
  rcases hb with ⟨rfl, rfl⟩ | ⟨rfl, rfl⟩ <;> simp [h]

theorem skipTo_close {op cl : TokenKind} (hb : Brackets op cl) {t : Token} {ts : List Token}
    (h : t.kind = .rparen ∨ t.kind = .rbrace) (n : Nat) :
    skipTo op cl (n + 1) (t :: ts) = skipTo op cl (if cl = t.kind then n else n + 1) ts := by
  rw [skipTo]
  rcases hb with ⟨rfl, rfl⟩ | ⟨rfl, rfl⟩ <;> rcases h with h | h <;> simp [h]

theorem skipTo_open {op cl : TokenKind} (hb : Brackets op cl) {t : Token} {ts : List Token}
    (h : t.kind = .lparen ∨ t.kind = .lbrace) (n : Nat) :
    skipTo op cl (n + 1) (t :: ts) = skipTo op cl ((if op = t.kind then n + 1 else n) + 1) ts := by
  rw [skipTo]
  rcases hb with ⟨rfl, rfl⟩ | ⟨rfl, rfl⟩ <;> rcases h with h | h <;> simp [h]

mutual
/-- Between brackets a value is skipped as a whole. -/
theorem skipTo_data {o : FormatOptions} {op cl : TokenKind} (hb : Brackets op cl) : ∀ (d : Data), Survives o d →
    ∀ rest p n, Follows .word rest →
      ∃ q, skipTo op cl (n + 1) (sigAt (dataText o d ++ rest) p) = skipTo op cl (n + 1) (sigAt rest q)
  | .unit, h, rest, p, n, hf => ⟨_, by
      rw [dataText, List.cons_append, List.nil_append, sig_unit hf, skipTo_scalar hb (by simp)]⟩
  | .none, h, rest, p, n, hf => ⟨_, by
      rw [dataText, List.cons_append, List.nil_append, sig_unit hf, skipTo_scalar hb (by simp)]⟩
  | .bool true, h, rest, p, n, hf => ⟨_, by
      rw [dataText]; simp only [if_true]; rw [sig_bare true_bare hf, skipTo_scalar hb (by simp)]⟩
  | .bool false, h, rest, p, n, hf => ⟨_, by
      rw [dataText]; simp only [Bool.false_eq_true, if_false]; rw [sig_bare false_bare hf, skipTo_scalar hb (by simp)]⟩
  | .int i, h, rest, p, n, hf => ⟨_, by
      rw [dataText, sig_bare (intText_bare i) hf, skipTo_scalar hb (by simp)]⟩
  | .char c, h, rest, p, n, hf => by
    obtain ⟨t, q, h1, h2⟩ := sig_char h hf p
    refine ⟨q, ?_⟩
    rw [dataText, h1, skipTo_scalar hb]
    rcases h2 with ⟨h2 | h2, -⟩ | ⟨h2, -⟩ <;> simp [h2]
  | .str s, h, rest, p, n, hf => by
    obtain ⟨t, q, h1, h2⟩ := sig_string h hf p
    refine ⟨q, ?_⟩
    rw [dataText, h1, skipTo_scalar hb]
    rcases h2 with ⟨h2, -⟩ | ⟨h2, -⟩ | ⟨h2, -⟩ <;> simp [h2]
  | .bytes bs, h, rest, p, n, hf => by
    obtain ⟨t, q, h1, h2, -⟩ := sig_bytes bs rest p
    refine ⟨q, ?_⟩
    rw [dataText]
    change skipTo op cl (n + 1) (sigAt ('"' :: hexText bs ++ ['"'] ++ rest) p) = _
    rw [h1, skipTo_scalar hb (by simp [h2])]
  | .some d, h, rest, p, n, hf => by
    rw [dataText]
    exact skipTo_data hb d h.1 rest p n hf
  | .seq ds, h, rest, p, n, hf => by
    rw [dataText, List.cons_append, sig_lparen, skipTo_open hb (.inl rfl)]
    obtain ⟨q, hq⟩ := skipTo_items hb ds h true rest (p + 1) (if op = .lparen then n + 1 else n)
    refine ⟨q, ?_⟩
    rw [hq]
    rcases hb with ⟨rfl, rfl⟩ | ⟨rfl, rfl⟩ <;> simp
  | .fields fs, h, rest, p, n, hf => by
    rw [dataText, List.cons_append, sig_lbrace, skipTo_open hb (.inr rfl)]
    obtain ⟨q, hq⟩ := skipTo_fields hb fs h true rest (p + 1) (if op = .lbrace then n + 1 else n)
    refine ⟨q, ?_⟩
    rw [hq]
    rcases hb with ⟨rfl, rfl⟩ | ⟨rfl, rfl⟩ <;> simp
  | .unitVariant _, h, _, _, _, _ | .newtypeVariant _ _, h, _, _, _, _ | .tupleVariant _ _, h, _, _, _, _
  | .structVariant _ _, h, _, _, _, _ => h.elim
theorem skipTo_items {o : FormatOptions} {op cl : TokenKind} (hb : Brackets op cl) : ∀ (ds : List Data),
    SurviveAll o ds → ∀ (first : Bool) rest p n,
      ∃ q, skipTo op cl (n + 1) (sigAt (itemsText o first ds ++ rest) p) =
        skipTo op cl (if cl = .rparen then n else n + 1) (sigAt rest q)
  | [], h, first, rest, p, n => ⟨p + 1, by
      rw [show itemsText o first [] ++ rest = ')' :: rest by simp [itemsText], sig_rparen, skipTo_close hb (.inl rfl)]⟩
  | d :: ds, h, first, rest, p, n => by
    obtain ⟨p', e⟩ : ∃ p', sigAt (itemsText o first (d :: ds) ++ rest) p =
        sigAt (dataText o d ++ (itemsText o false ds ++ rest)) p' := by
      cases first
      · exact ⟨p + 1, by rw [← sig_space]; simp [itemsText]⟩
      · exact ⟨p, by simp [itemsText]⟩
    obtain ⟨q, h1⟩ := skipTo_data hb d h.1 (itemsText o false ds ++ rest) p' n (items_follow o ds rest)
    obtain ⟨q', h2⟩ := skipTo_items hb ds h.2 false rest q n
    exact ⟨q', by rw [e, h1, h2]⟩
theorem skipTo_fields {o : FormatOptions} {op cl : TokenKind} (hb : Brackets op cl) : ∀ (fs : List Field),
    SurviveFields o fs → ∀ (first : Bool) rest p n,
      ∃ q, skipTo op cl (n + 1) (sigAt (fieldsText o first fs ++ rest) p) =
        skipTo op cl (if cl = .rbrace then n else n + 1) (sigAt rest q)
  | [], h, first, rest, p, n => ⟨p + 1, by
      rw [show fieldsText o first [] ++ rest = '}' :: rest by simp [fieldsText], sig_rbrace, skipTo_close hb (.inr rfl)]⟩
  | .mk k d :: fs, h, first, rest, p, n => by
    obtain ⟨p', e⟩ : ∃ p', skipTo op cl (n + 1) (sigAt (fieldsText o first (.mk k d :: fs) ++ rest) p) =
        skipTo op cl (n + 1) (sigAt (keyText k ++ ' ' :: (dataText o d ++ (fieldsText o false fs ++ rest))) p') := by
      cases first
      · refine ⟨p + 1 + 1, ?_⟩
        rw [show fieldsText o false (.mk k d :: fs) ++ rest =
          ',' :: ' ' :: (keyText k ++ ' ' :: (dataText o d ++ (fieldsText o false fs ++ rest))) by simp [fieldsText],
          sig_comma, sig_space, skipTo_scalar hb (by simp)]
      · exact ⟨p, by simp [fieldsText]⟩
    obtain ⟨t, q, h1, h2⟩ := sig_key (rest := ' ' :: (dataText o d ++ (fieldsText o false fs ++ rest))) h.1
      (.inr ⟨' ', _, rfl, by simp⟩) p'
    obtain ⟨q', h3⟩ := skipTo_data hb d h.2.1 (fieldsText o false fs ++ rest) (q + 1) n (fields_follow o fs rest)
    obtain ⟨q'', h4⟩ := skipTo_fields hb fs h.2.2 false rest q' n
    refine ⟨q'', ?_⟩
    rw [e, h1, skipTo_scalar hb (by rcases h2 with ⟨h2, -⟩ | ⟨h2, -⟩ <;> simp [h2]), sig_space, h3, h4]
end

theorem skipValue_scalar {t : Token} {ts : List Token}
    (h : t.kind ≠ .lparen ∧ t.kind ≠ .lbrace ∧ t.kind ≠ .at) : skipValue (t :: ts) = ts := by
  rw [skipValue.eq_def]
  simp only
  split <;> simp_all

theorem skipTo_zero (op cl : TokenKind) (ts : List Token) : skipTo op cl 0 ts = ts := by
  unfold skipTo; rfl

/-- A value is skipped as a whole. -/
theorem skipValue_data {o : FormatOptions} : ∀ (d : Data), Survives o d → notUnit d → ∀ rest p, Follows .word rest →
      ∃ q, skipValue (sigAt (dataText o d ++ rest) p) = sigAt rest q
  | .unit, _, hn, _, _, _ | .none, _, hn, _, _, _ => hn.elim
  | .bool true, h, _, rest, p, hf => ⟨_, by
      rw [dataText]; simp only [if_true]; rw [sig_bare true_bare hf, skipValue_scalar (by simp)]⟩
  | .bool false, h, _, rest, p, hf => ⟨_, by
      rw [dataText]; simp only [Bool.false_eq_true, if_false]; rw [sig_bare false_bare hf, skipValue_scalar (by simp)]⟩
  | .int i, h, _, rest, p, hf => ⟨_, by
      rw [dataText, sig_bare (intText_bare i) hf, skipValue_scalar (by simp)]⟩
  | .char c, h, _, rest, p, hf => by
    obtain ⟨t, q, h1, h2⟩ := sig_char h hf p
    refine ⟨q, ?_⟩
    rw [dataText, h1, skipValue_scalar]
    rcases h2 with ⟨h2 | h2, -⟩ | ⟨h2, -⟩ <;> simp [h2]
  | .str s, h, _, rest, p, hf => by
    obtain ⟨t, q, h1, h2⟩ := sig_string h hf p
    refine ⟨q, ?_⟩
    rw [dataText, h1, skipValue_scalar]
    rcases h2 with ⟨h2, -⟩ | ⟨h2, -⟩ | ⟨h2, -⟩ <;> simp [h2]
  | .bytes bs, h, _, rest, p, hf => by
    obtain ⟨t, q, h1, h2, -⟩ := sig_bytes bs rest p
    refine ⟨q, ?_⟩
    rw [dataText]
    change skipValue (sigAt ('"' :: hexText bs ++ ['"'] ++ rest) p) = _
    rw [h1, skipValue_scalar (by simp [h2])]
  | .some d, h, hn, rest, p, hf => by
    rw [dataText]
    exact skipValue_data d h.1 hn rest p hf
  | .seq ds, h, _, rest, p, hf => by
    rw [dataText, List.cons_append, sig_lparen, skipValue.eq_def]
    obtain ⟨q, hq⟩ := skipTo_items (.inl ⟨rfl, rfl⟩) ds h true rest (p + 1) 0
    rw [if_pos rfl, skipTo_zero] at hq
    exact ⟨q, hq⟩
  | .fields fs, h, _, rest, p, hf => by
    rw [dataText, List.cons_append, sig_lbrace, skipValue.eq_def]
    obtain ⟨q, hq⟩ := skipTo_fields (.inr ⟨rfl, rfl⟩) fs h true rest (p + 1) 0
    rw [if_pos rfl, skipTo_zero] at hq
    exact ⟨q, hq⟩
  | .unitVariant _, h, _, _, _, _ | .newtypeVariant _ _, h, _, _, _, _ | .tupleVariant _ _, h, _, _, _, _
  | .structVariant _ _, h, _, _, _, _ => h.elim

section Loops

variable {o : FormatOptions} {text : Bool → List Field → List Char} {E : List Token → Prop}

/-- Every field has a type, of which it is a value, or is unknown. -/
def Known (o : FormatOptions) (T : Fields) (gs : List Field) : Prop :=
  ∀ f ∈ gs, (∃ t, fieldTy T f.key = some t ∧ HasTy t f.data ∧ Reads o t) ∨
    fieldTy T f.key = none ∧ notUnit f.data

/-- The fields that the struct knows. -/
def known (T : Fields) (gs : List Field) : List Field := gs.filter fun f => (fieldTy T f.key).isSome

theorem structLoop_known (L : Layout o text E) (T : Fields) (gs : List Field) :
    ∀ (first : Bool) (acc fs : List Field) (n p : Nat), Known o T gs → SurviveFields o gs →
      ((acc ++ gs).map Field.key).Nodup → finishFields T (acc ++ known T gs) = some fs →
      (sigAt (text first gs) p).length < n →
      ∃ ts, structLoop (deField T) T n acc (sigAt (text first gs) p) = .ok (.fields fs, ts) ∧ E ts := by
  induction gs with
  | nil =>
    intro first acc fs n p _ _ hnd hT hn
    obtain ⟨n, rfl⟩ : ∃ m, n = m + 1 := ⟨n - 1, by omega⟩
    obtain ⟨ts, h1, h2⟩ := L.nil first p
    refine ⟨ts, ?_, h2⟩
    simp only [known, List.filter_nil, List.append_nil] at hT
    rw [structLoop, h1]
    simp [Out.bind, hT]
  | cons f gs ih =>
    intro first acc fs n p ht hs hnd hT hn
    obtain ⟨k, d⟩ := f
    obtain ⟨n, rfl⟩ : ∃ m, n = m + 1 := ⟨n - 1, by omega⟩
    have hk : k ∉ acc.map Field.key := by
      rw [List.map_append, List.nodup_append] at hnd
      intro hx
      exact hnd.2.2 k hx k (by simp [Field.key]) rfl
    rcases ht _ (List.mem_cons_self ..) with ⟨t, e, hd, hr⟩ | ⟨e, hu⟩ <;> simp only [Field.key, Field.data] at *
    · obtain ⟨q, q', h1, h2, h3⟩ := field_step L hr hs.1 hd hs.2.1 gs first p
      have e1 : known T (.mk k d :: gs) = .mk k d :: known T gs := by
        rw [known, List.filter_cons_of_pos (by simp [Field.key, e])]; rfl
      rw [e1] at hT
      obtain ⟨ts, h4, h5⟩ := ih false (acc ++ [.mk k d]) fs n q' (fun x hx => ht x (by simp [hx])) hs.2.2
        (by simpa using hnd) (by simpa using hT) (by omega)
      refine ⟨ts, ?_, h5⟩
      rw [structLoop, h1]
      simp only [Out.bind]
      rw [deField_eq, e]
      simp only [Option.map_some, fieldData_none hk, Option.isSome_none, Bool.false_eq_true, if_false]
      rw [h2]
      exact h4
    · obtain ⟨q, h1⟩ := L.cons first k d gs p hs.1
      obtain ⟨q', h2⟩ := skipValue_data d hs.2.1 hu (text false gs) q (L.follow gs)
      have h3 : (sigAt (text false gs) q').length < (sigAt (text first (.mk k d :: gs)) p).length := by
        obtain ⟨x, e, -, h3⟩ := nextKey_fine _ true (sig_tokens (text first (.mk k d :: gs)) p)
        have h4 := h3 k _ (e.symm.trans h1)
        have h5 := (skipValue_fine _ (sig_tokens (dataText o d ++ text false gs) q)).2
        rw [h2] at h5
        omega
      have e1 : known T (.mk k d :: gs) = known T gs := by
        rw [known, List.filter_cons_of_neg (by simp [Field.key, e])]; rfl
      rw [e1] at hT
      obtain ⟨ts, h4, h5⟩ := ih false acc fs n q' (fun x hx => ht x (by simp [hx])) hs.2.2
        (by
          rw [List.map_append, List.nodup_append] at hnd ⊢
          simp only [List.map_cons, List.nodup_cons, List.mem_cons] at hnd
          exact ⟨hnd.1, hnd.2.1.2, fun a ha b hb => hnd.2.2 a ha b (.inr hb)⟩) hT (by omega)
      refine ⟨ts, ?_, h5⟩
      rw [structLoop, h1]
      simp only [Out.bind]
      rw [deField_eq, e]
      simp only [Option.map_none, h2]
      exact h4

end Loops

theorem hasVariant_none : ∀ (vs : Variants), ¬ HasVariant vs .none
  | .nil, h => by rw [HasVariant] at h; exact h
  | .cons n s r, h => by
    rw [HasVariant] at h
    rcases h with h | h
    · cases s <;> simp [HasShape] at h
    · exact hasVariant_none r h

theorem hasTy_none {t : Ty} (h : HasTy t .none) : ∃ t', t = .option t' := by
  cases t <;> simp only [HasTy] at h
  · exact ⟨_, rfl⟩
  · exact (hasVariant_none _ h).elim

theorem finishFields_found : ∀ (T : Fields) (fs acc : List Field), HasFields T fs →
    (∀ f ∈ fs, fieldData f.key acc = some f.data ∨ f.data = .none ∧ fieldData f.key acc = none) →
    finishFields T acc = some fs
  | .nil, [], _, _, _ => rfl
  | .nil, .mk _ _ :: _, _, h, _ => by simp [HasFields] at h
  | .cons _ _ _, [], _, h, _ => by simp [HasFields] at h
  | .cons name t rest, .mk k d :: fs, acc, h, hf => by
    rw [HasFields] at h
    obtain ⟨rfl, h2, h3⟩ := h
    have ih := finishFields_found rest fs acc h3 fun f hm => hf f (by simp [hm])
    have := hf _ (List.mem_cons_self ..)
    simp only [Field.key, Field.data] at this
    rw [finishFields.eq_def]
    rcases this with e | ⟨rfl, e⟩
    · simp only [e, ih]; rfl
    · obtain ⟨t', rfl⟩ := hasTy_none h2
      simp only [e, ih]; rfl

theorem fieldData_mem {k : List Char} {d : Data} {gs : List Field} (h : .mk k d ∈ gs) (hn : (gs.map Field.key).Nodup) :
    fieldData k gs = some d := by
  obtain ⟨a, b, rfl⟩ := List.append_of_mem h
  refine fieldData_append ?_
  rw [List.map_append, List.nodup_append] at hn
  intro hx
  exact hn.2.2 k hx k (by simp [Field.key]) rfl

theorem fieldTy_of_mem : ∀ (T : Fields) (fs : List Field), HasFields T fs → ∀ f ∈ fs, ∃ t, fieldTy T f.key = some t
  | .nil, [], _, f, hf => by cases hf
  | .nil, .mk _ _ :: _, h, _, _ => by simp [HasFields] at h
  | .cons _ _ _, [], h, _, _ => by simp [HasFields] at h
  | .cons name t rest, .mk k d :: fs, h, f, hf => by
    rw [HasFields] at h
    rw [fieldTy]
    split
    · exact ⟨_, rfl⟩
    · rename_i hne
      rcases List.mem_cons.1 hf with rfl | hf
      · exact absurd h.1 hne
      · exact fieldTy_of_mem rest fs h.2.2 f hf

theorem fieldTy_none : ∀ (T : Fields) (k : List Char), k ∉ fieldNames T → fieldTy T k = none := by
  intro T k h
  cases e : fieldTy T k with
  | none => rfl
  | some t => exact absurd (fieldTy_mem T k t e) h

theorem finish_listed {T : Fields} {fs gs : List Field} (h : HasFields T fs) (hl : Listed T fs gs) :
    finishFields T (known T gs) = some fs := by
  have hn : ((known T gs).map Field.key).Nodup := hl.1.sublist (List.Sublist.map _ List.filter_sublist)
  refine finishFields_found T fs _ h fun f hf => ?_
  rcases hl.2.1 f hf with hm | ⟨hd, hk⟩
  · refine .inl (fieldData_mem ?_ hn)
    obtain ⟨t, e⟩ := fieldTy_of_mem T fs h f hf
    obtain ⟨k, d⟩ := f
    simp only [Field.key, Field.data] at e ⊢
    exact List.mem_filter.2 ⟨hm, by simp [Field.key, e]⟩
  · refine .inr ⟨hd, fieldData_none fun hx => hk ?_⟩
    obtain ⟨g, hg, e⟩ := List.mem_map.1 hx
    exact List.mem_map.2 ⟨g, (List.mem_filter.1 hg).1, e⟩

theorem known_listed {o : FormatOptions} {T : Fields} {fs gs : List Field} (hw : WfTy (.struct T)) (hb : BasicTy (.struct T))
    (h : HasFields T fs) (hl : Listed T fs gs) : Known o T gs := by
  rw [WfTy] at hw
  rw [BasicTy] at hb
  intro g hg
  rcases hl.2.2 g hg with hm | ⟨hk, hu⟩
  · exact .inl (typed_of T fs h hw.1 (fields_read o T hw.2 hb) g hm)
  · exact .inr ⟨fieldTy_none T _ hk, hu⟩

theorem toStyx_listed {o : FormatOptions} {T : Fields} {fs gs : List Field} (hw : WfTy (.struct T))
    (hb : BasicTy (.struct T)) (h : HasTy (.struct T) (.fields fs)) (hl : Listed T fs gs) (hs : SurviveFields o gs) :
    ∃ s, toStyx o (.fields gs) = some s ∧ fromStyx (.struct T) s = .ok (.fields fs) := by
  rw [HasTy] at h
  refine ⟨_, ser_root o (.fields gs) hs, ?_⟩
  obtain ⟨ts, h1, -⟩ := structLoop_known (root_layout o) T gs true [] fs _ 0 (known_listed hw hb h hl) hs
    (by simpa using hl.1) (by simpa using finish_listed h hl) (Nat.lt_succ_self _)
  rw [fromStyx, significant_eq, de, rootText, (openMap_root _ hs 0).1, h1]
  rfl

theorem toCompact_listed {T : Fields} {fs gs : List Field} (hw : WfTy (.struct T))
    (hb : BasicTy (.struct T)) (h : HasTy (.struct T) (.fields fs)) (hl : Listed T fs gs)
    (hs : SurviveFields { forceStyle := .inline } gs) :
    ∃ s, toCompact (.fields gs) = some s ∧ fromStyx (.struct T) s = .ok (.fields fs) := by
  rw [HasTy] at h
  refine ⟨_, ser_compact (.fields gs) hs, ?_⟩
  obtain ⟨ts, h1, -⟩ := structLoop_known (nested_layout _ []) T gs true [] fs _ 1 (known_listed hw hb h hl) hs
    (by simpa using hl.1) (by simpa using finish_listed h hl) (Nat.lt_succ_self _)
  simp only [List.append_nil] at h1
  rw [fromStyx, significant_eq, de, dataText, sig_lbrace, openMap]
  simp only [if_true]
  rw [h1]
  rfl

/-! ## Tuples and enums -/

theorem items_step (o : FormatOptions) (first : Bool) (d : Data) (ds : List Data) (rest : List Char) (p : Nat) :
    ∃ p', sigAt (itemsText o first (d :: ds) ++ rest) p =
      sigAt (dataText o d ++ (itemsText o false ds ++ rest)) p' := by
  cases first
  · exact ⟨p + 1, by rw [← sig_space]; simp [itemsText]⟩
  · exact ⟨p, by simp [itemsText]⟩

theorem tuple_read {o : FormatOptions} (rest : List Char) : ∀ (T : Tys) (ds : List Data), WfTys T → BasicTys T →
    HasTys T ds → SurviveAll o ds → ∀ (first : Bool) p,
      ∃ q, deTuple T (sigAt (itemsText o first ds ++ rest) p) = .ok (ds, sigAt (')' :: rest) q)
  | .nil, [], _, _, _, _, first, p => ⟨p, by simp [deTuple, itemsText]⟩
  | .nil, _ :: _, _, _, h, _, _, _ => by simp [HasTys] at h
  | .cons _ _, [], _, _, h, _, _, _ => by simp [HasTys] at h
  | .cons t T, d :: ds, hw, hb, h, hs, first, p => by
    rw [WfTys] at hw
    rw [BasicTys] at hb
    rw [HasTys] at h
    obtain ⟨p', e⟩ := items_step o first d ds rest p
    obtain ⟨q, h1⟩ := nextElement_read (de_reads o t hw.1 hb.1) h.1 hs.1 (items_follow o ds rest) p'
    obtain ⟨q', h2⟩ := tuple_read rest T ds hw.2 hb.2 h.2 hs.2 false q
    refine ⟨q', ?_⟩
    rw [e, deTuple, h1]
    simp only [Out.bind]
    rw [h2]
    rfl

theorem toStyx_tuple {o : FormatOptions} {T : Tys} {d : Data} (hw : WfTy (.tuple T)) (hb : BasicTys T)
    (h : HasTy (.tuple T) d) (hs : Survives o d) : ∃ s, toStyx o d = some s ∧ fromStyx (.tuple T) s = .ok d := by
  cases d <;> simp only [HasTy] at h
  rename_i ds
  refine ⟨_, ser_root o _ hs, ?_⟩
  rw [WfTy] at hw
  obtain ⟨q, h1⟩ := tuple_read [] T ds hw hb h hs true 1
  rw [List.append_nil] at h1
  rw [fromStyx, significant_eq, de, rootText, dataText, sig_lparen, openSeq]
  · simp only [nextToken, if_true]
    rw [h1]
    rfl
  all_goals simp

theorem enum_unit_fails (o : FormatOptions) {vs : Variants} {name : List Char} (h : TagName name) :
    ∃ s, toStyx o (.unitVariant name) = some s ∧ fromStyx (.enum vs) s = .err := by
  refine ⟨'@' :: name, rfl, ?_⟩
  have := toks_tag h (rest := []) (.inl rfl) 0
  rw [List.append_nil] at this
  rw [fromStyx, significant_eq, de, sig_cons this rfl, deEnum]
  simp [nextToken, Out.map, Out.bind]

end Styx.Serde
