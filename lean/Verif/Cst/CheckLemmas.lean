import Verif.Cst.CheckSpec
import Verif.Cst.Lemmas
import Verif.Cst.AgainNode

/-! # Lemmas about the checks of concrete syntax trees -/

namespace Styx.Cst

open Styx Styx.Spec

/-! ## The texts of keys -/

theorem unescapeLoop_spelled (n : Nat) : ∀ s : List Char, s.length ≤ n → Spelled s (unescapeLoop s) := by
  induction n with
  | zero => intro s h; cases s <;> simp at h; exact .nil
  | succ n ih =>
    intro s h
    match s with
    | [] => exact .nil
    | c :: [] =>
      by_cases hc : c = '\\'
      · subst hc; exact .last
      · have : unescapeLoop [c] = [c] := by
          rw [unescapeLoop] <;> simp_all [unescapeLoop]
        rw [this]; exact .plain hc .nil
    | c :: d :: s =>
      by_cases hc : c = '\\'
      · subst hc
        have hs : Spelled s (unescapeLoop s) := ih s (by simp at h; omega)
        rw [unescapeLoop]
        split
        · subst_vars; exact .simple (by simp) hs
        split
        · subst_vars; exact .simple (by simp) hs
        split
        · subst_vars; exact .simple (by simp) hs
        split
        · subst_vars; exact .simple (by simp) hs
        split
        · subst_vars; exact .simple (by simp) hs
        · exact .other (by simp [*]) hs
      · have : unescapeLoop (c :: d :: s) = c :: unescapeLoop (d :: s) := by
          rw [unescapeLoop] <;> simp_all
        rw [this]
        exact .plain hc (ih _ (by simp at h ⊢; omega))

theorem _root_.Styx.Spec.Spelled.fun_ {s v w : List Char} (h : Spelled s v) (h' : Spelled s w) : v = w := by
  induction h generalizing w with
  | nil => cases h'; rfl
  | plain hc _ ih =>
    cases h' with
    | plain _ h => rw [ih h]
    | simple => simp at hc
    | other => simp at hc
    | last => simp at hc
  | simple hm _ ih =>
    cases h' with
    | plain hc => simp at hc
    | simple hm' h =>
      rw [ih h]
      simp only [List.mem_cons, Prod.mk.injEq, List.not_mem_nil, or_false] at hm hm'
      grind
    | other hm' => grind
  | other hm _ ih =>
    cases h' with
    | plain hc => simp at hc
    | simple hm' => grind
    | other _ h => rw [ih h]
  | last =>
    cases h' with
    | plain hc => simp at hc
    | last => rfl

theorem unescapeLoop_iff {s v : List Char} : unescapeLoop s = v ↔ Spelled s v :=
  ⟨fun h => h ▸ unescapeLoop_spelled _ s (Nat.le_refl _), fun h => (unescapeLoop_spelled _ s (Nat.le_refl _)).fun_ h⟩

theorem stripQuotes_quoted (body : List Char) : stripQuotes ('"' :: body ++ ['"']) = body := by
  simp [stripQuotes]

theorem stripQuotes_broken {t : List Char} (h : ∀ body, t ≠ '"' :: body ++ ['"']) : stripQuotes t = t := by
  unfold stripQuotes
  split
  · rename_i r
    split
    · rename_i hl
      obtain ⟨b, rfl⟩ := List.getLast?_eq_some_iff.1 hl
      exact absurd rfl (h b)
    · rfl
  · rfl

theorem tokenContent_iff {k : SyntaxKind} {t v : List Char} : tokenContent k t = some v ↔ TokenSpells k t v := by
  constructor
  · intro h
    unfold tokenContent at h
    split at h
    · subst_vars; cases h; exact .bare
    split at h
    · subst_vars
      simp only [Option.some.injEq] at h
      by_cases hb : ∃ body, t = '"' :: body ++ ['"']
      · obtain ⟨body, rfl⟩ := hb
        rw [unescapeQuoted, stripQuotes_quoted] at h
        exact .quoted (unescapeLoop_iff.1 h)
      · have hb : ∀ body, t ≠ '"' :: body ++ ['"'] := fun body e => hb ⟨body, e⟩
        rw [unescapeQuoted, stripQuotes_broken hb] at h
        exact .broken hb (unescapeLoop_iff.1 h)
    split at h
    · subst_vars; cases h; exact .raw
    · simp at h
  · intro h
    cases h with
    | bare => rfl
    | raw => rfl
    | @quoted body _ h =>
      have e : unescapeQuoted ('"' :: body ++ ['"']) = v := by
        rw [unescapeQuoted, stripQuotes_quoted]; exact unescapeLoop_iff.2 h
      rw [tokenContent, if_neg (by decide), if_pos rfl, e]
    | broken hb h => simp [tokenContent, unescapeQuoted, stripQuotes_broken hb, unescapeLoop_iff.2 h]

theorem tokenContent_none {k : SyntaxKind} {t : List Char} : tokenContent k t = none ↔ k ∉ scalarKinds := by
  unfold tokenContent scalarKinds
  cases k <;> simp

theorem scalarContent_eq {v : List Char} (hv : v ≠ []) : ∀ cs : List Green, scalarContent cs = v ↔
    ∃ pre k t post, cs = pre ++ .token k t :: post ∧ (∀ g ∈ pre, ∀ k t, g = .token k t → k ∉ scalarKinds) ∧
      TokenSpells k t v := by
  intro cs
  induction cs with
  | nil => simp [scalarContent, Ne.symm hv]
  | cons g gs ih =>
    cases g with
    | node k c =>
      rw [scalarContent, ih]
      constructor
      · rintro ⟨pre, k', t, post, rfl, h1, h2⟩
        refine ⟨.node k c :: pre, k', t, post, rfl, ?_, h2⟩
        intro g hg
        rcases List.mem_cons.1 hg with rfl | hg
        · simp
        · exact h1 g hg
      · rintro ⟨pre, k', t, post, h, h1, h2⟩
        cases pre with
        | nil => simp at h
        | cons x pre =>
          simp only [List.cons_append, List.cons.injEq] at h
          exact ⟨pre, k', t, post, h.2, fun g hg => h1 g (List.mem_cons_of_mem _ hg), h2⟩
    | token k t =>
      rw [scalarContent]
      cases hc : tokenContent k t with
      | some w =>
        rw [Option.getD_some]
        constructor
        · rintro rfl
          exact ⟨[], k, t, gs, rfl, by simp, tokenContent_iff.1 hc⟩
        · rintro ⟨pre, k', t', post, h, h1, h2⟩
          cases pre with
          | nil =>
            simp only [List.nil_append, List.cons.injEq, Green.token.injEq] at h
            obtain ⟨⟨rfl, rfl⟩, -⟩ := h
            rw [tokenContent_iff.2 h2] at hc
            simp_all
          | cons x pre =>
            simp only [List.cons_append, List.cons.injEq] at h
            have := h1 x (by simp) k t h.1.symm
            rw [← tokenContent_none (t := t), hc] at this
            simp at this
      | none =>
        rw [Option.getD_none, ih]
        constructor
        · rintro ⟨pre, k', t', post, rfl, h1, h2⟩
          refine ⟨.token k t :: pre, k', t', post, rfl, ?_, h2⟩
          intro g hg
          rcases List.mem_cons.1 hg with rfl | hg
          · intro k1 t1 h
            cases h
            exact tokenContent_none.1 hc
          · exact h1 g hg
        · rintro ⟨pre, k', t', post, h, h1, h2⟩
          cases pre with
          | nil =>
            simp only [List.nil_append, List.cons.injEq, Green.token.injEq] at h
            obtain ⟨⟨rfl, rfl⟩, -⟩ := h
            rw [tokenContent_iff.2 h2] at hc
            simp at hc
          | cons x pre =>
            simp only [List.cons_append, List.cons.injEq] at h
            exact ⟨pre, k', t', post, h.2, fun g hg => h1 g (List.mem_cons_of_mem _ hg), h2⟩

theorem keySpells_cons {g : Green} {gs : List Green} {v : List Char} (hg : NotScalar g) :
    KeySpells (g :: gs) v ↔ KeySpells gs v := by
  constructor
  · intro h
    generalize hl : g :: gs = l at h
    cases h with
    | @token pre k t post v h1 h2 =>
      cases pre with
      | nil =>
        simp only [List.nil_append, List.cons.injEq] at hl
        obtain ⟨rfl, -⟩ := hl
        have : tokenContent k t = none := tokenContent_none.2 hg
        rw [tokenContent_iff.2 h2] at this
        simp at this
      | cons x pre =>
        simp only [List.cons_append, List.cons.injEq] at hl
        rw [hl.2]
        exact .token (fun g hg => h1 g (List.mem_cons_of_mem _ hg)) h2
    | @node pre pre' k t post' post v h1 h2 h3 =>
      cases pre with
      | nil =>
        simp only [List.nil_append, List.cons.injEq] at hl
        obtain ⟨rfl, -⟩ := hl
        exact absurd rfl hg
      | cons x pre =>
        simp only [List.cons_append, List.cons.injEq] at hl
        rw [hl.2]
        exact .node (fun g hg => h1 g (List.mem_cons_of_mem _ hg)) h2 h3
  · intro h
    have hcons : ∀ {pre : List Green}, (∀ x ∈ pre, NotScalar x) →
        ∀ x ∈ g :: pre, NotScalar x := by
      intro pre hp x hx
      rcases List.mem_cons.1 hx with rfl | hx
      · exact hg
      · exact hp x hx
    cases h with
    | token h1 h2 => exact .token (hcons h1) h2
    | node h1 h2 h3 => exact .node (hcons h1) h2 h3

theorem keyContent_iff {v : List Char} (hv : v ≠ []) : ∀ cs : List Green, keyContent cs = v ↔ KeySpells cs v := by
  intro cs
  induction cs with
  | nil =>
    simp only [keyContent, Ne.symm hv, false_iff]
    intro h
    generalize hl : ([] : List Green) = l at h
    cases h <;> simp at hl
  | cons g gs ih =>
    cases g with
    | token k t =>
      rw [keyContent]
      cases hc : tokenContent k t with
      | none => rw [Option.getD_none, ih, keySpells_cons (g := .token k t) (tokenContent_none.1 hc)]
      | some w =>
        rw [Option.getD_some]
        constructor
        · rintro rfl
          exact .token (pre := []) (by simp) (tokenContent_iff.1 hc)
        · intro h
          generalize hl : Green.token k t :: gs = l at h
          cases h with
          | @token pre k' t' post v h1 h2 =>
            cases pre with
            | nil =>
              simp only [List.nil_append, List.cons.injEq, Green.token.injEq] at hl
              obtain ⟨⟨rfl, rfl⟩, -⟩ := hl
              rw [tokenContent_iff.2 h2] at hc
              simp_all
            | cons x pre =>
              simp only [List.cons_append, List.cons.injEq] at hl
              have := h1 x (by simp)
              rw [← hl.1] at this
              have h' : tokenContent k t = none := tokenContent_none.2 this
              rw [h'] at hc; simp at hc
          | @node pre pre' k' t' post' post v h1 h2 h3 =>
            cases pre with
            | nil => simp at hl
            | cons x pre =>
              simp only [List.cons_append, List.cons.injEq] at hl
              have := h1 x (by simp)
              rw [← hl.1] at this
              have h' : tokenContent k t = none := tokenContent_none.2 this
              rw [h'] at hc; simp at hc
    | node k c =>
      rw [keyContent]
      by_cases hk : k = .SCALAR
      · subst hk
        rw [if_pos rfl, scalarContent_eq hv]
        constructor
        · rintro ⟨pre, k', t, post, rfl, h1, h2⟩
          exact .node (pre := []) (by simp) h1 h2
        · intro h
          generalize hl : Green.node .SCALAR c :: gs = l at h
          cases h with
          | @token pre k' t' post v h1 h2 =>
            cases pre with
            | nil => simp at hl
            | cons x pre =>
              simp only [List.cons_append, List.cons.injEq] at hl
              have := h1 x (by simp)
              rw [← hl.1] at this
              exact absurd rfl this
          | @node pre pre' k' t' post' post v h1 h2 h3 =>
            cases pre with
            | nil =>
              simp only [List.nil_append, List.cons.injEq, Green.node.injEq, true_and] at hl
              exact ⟨pre', k', t', post', hl.1, h2, h3⟩
            | cons x pre =>
              simp only [List.cons_append, List.cons.injEq] at hl
              have := h1 x (by simp)
              rw [← hl.1] at this
              exact absurd rfl this
      · rw [if_neg hk, ih, keySpells_cons (g := .node k c) hk]

/-! ## Keys given twice -/

theorem utf8Len_append' (a b : List Char) : utf8Len (a ++ b) = utf8Len a + utf8Len b := by
  induction a with
  | nil => simp [utf8Len]
  | cons c cs ih => simp [utf8Len, ih, Nat.add_assoc]

theorem keyAt_iff {m : Nat} {key : List Green} : ∀ {off : Nat} {cs : List Green},
    keyAt off cs = some (m, key) ↔ EntryKey off cs m key := by
  intro off cs
  induction cs generalizing off with
  | nil => simp [keyAt, EntryKey]
  | cons g gs ih =>
    have hstep : ∀ n, n = utf8Len g.text → (∀ ds, g ≠ .node .KEY ds) →
        (EntryKey (off + n) gs m key ↔ EntryKey off (g :: gs) m key) := by
      rintro n rfl hg
      constructor
      · rintro ⟨pre, post, rfl, h1, h2⟩
        refine ⟨g :: pre, post, rfl, ?_, ?_⟩
        · intro x hx
          rcases List.mem_cons.1 hx with rfl | hx
          · exact hg
          · exact h1 x hx
        · rw [h2, Green.texts, utf8Len_append']; omega
      · rintro ⟨pre, post, h, h1, h2⟩
        cases pre with
        | nil => simp only [List.nil_append, List.cons.injEq] at h; exact absurd h.1 (hg _)
        | cons x pre =>
          simp only [List.cons_append, List.cons.injEq] at h
          obtain ⟨rfl, rfl⟩ := h
          refine ⟨pre, post, rfl, fun x hx => h1 x (List.mem_cons_of_mem _ hx), ?_⟩
          rw [h2, Green.texts, utf8Len_append']; omega
    cases g with
    | token k t => rw [keyAt, ih]; exact hstep _ rfl (by simp)
    | node k c =>
      rw [keyAt]
      by_cases hk : k = .KEY
      · subst hk
        rw [if_pos rfl]
        constructor
        · rintro h
          simp only [Option.some.injEq, Prod.mk.injEq] at h
          obtain ⟨rfl, rfl⟩ := h
          exact ⟨[], gs, rfl, by simp, by simp [Green.texts]⟩
        · rintro ⟨pre, post, h, h1, h2⟩
          cases pre with
          | nil =>
            simp only [List.nil_append, List.cons.injEq, Green.node.injEq, true_and] at h
            simp [h2, h.1, Green.texts]
          | cons x pre =>
            simp only [List.cons_append, List.cons.injEq] at h
            exact absurd h.1.symm (h1 x (by simp) _)
      · rw [if_neg hk, ih]
        exact hstep _ rfl (by simp [hk])

/-- The entry has a key with the text `v`. -/
def HasKey (e : List Green) (v : List Char) : Prop := ∃ n m key, EntryKey n e m key ∧ keyContent key = v

theorem entryKey_shift {n m : Nat} {e key : List Green} (n' : Nat) (h : EntryKey n e m key) :
    ∃ m', EntryKey n' e m' key := by
  obtain ⟨pre, post, h1, h2, -⟩ := h
  exact ⟨_, pre, post, h1, h2, rfl⟩

theorem entryKey_fun {n m m' : Nat} {e key key' : List Green} (h : EntryKey n e m key) (h' : EntryKey n e m' key') :
    m = m' ∧ key = key' := by
  rw [← keyAt_iff] at h h'
  rw [h] at h'
  simpa using h'

theorem hasKey_fun {n m : Nat} {e key : List Green} {v : List Char} (h : EntryKey n e m key) :
    HasKey e v ↔ keyContent key = v := by
  constructor
  · rintro ⟨n', m', key', h', rfl⟩
    obtain ⟨m'', h''⟩ := entryKey_shift n h'
    rw [(entryKey_fun h h'').2]
  · exact fun hv => ⟨_, _, _, h, hv⟩

theorem duplicates_iff (d : Diagnostic) : ∀ (cs : List Green) (off : Nat) (seen : List (List Char)),
    d ∈ duplicates off cs seen ↔ ∃ pre e post m key v, cs = pre ++ .node .ENTRY e :: post ∧
      EntryKey (off + utf8Len (Green.texts pre)) e m key ∧ keyContent key = v ∧ v ≠ [] ∧
      (v ∈ seen ∨ ∃ e1, .node .ENTRY e1 ∈ pre ∧ HasKey e1 v) ∧
      d = duplicateWarning m (m + utf8Len (Green.texts key)) v := by
  intro cs
  induction cs with
  | nil => simp [duplicates]
  | cons g gs ih =>
    intro off seen
    -- elements that add no key
    have skip : (∀ e v, v ≠ [] → g = .node .ENTRY e → ¬ HasKey e v) →
        (d ∈ duplicates (off + utf8Len g.text) gs seen ↔
        ∃ pre e post m key v, g :: gs = pre ++ .node .ENTRY e :: post ∧
          EntryKey (off + utf8Len (Green.texts pre)) e m key ∧ keyContent key = v ∧ v ≠ [] ∧
          (v ∈ seen ∨ ∃ e1, .node .ENTRY e1 ∈ pre ∧ HasKey e1 v) ∧
          d = duplicateWarning m (m + utf8Len (Green.texts key)) v) := by
      intro hg
      rw [ih]
      constructor
      · rintro ⟨pre, e, post, m, key, v, rfl, h1, h2, h3, h4, h5⟩
        refine ⟨g :: pre, e, post, m, key, v, rfl, ?_, h2, h3, ?_, h5⟩
        · rw [Green.texts, utf8Len_append', ← Nat.add_assoc]; exact h1
        · rcases h4 with h4 | ⟨e1, h4, h6⟩
          · exact .inl h4
          · exact .inr ⟨e1, List.mem_cons_of_mem _ h4, h6⟩
      · rintro ⟨pre, e, post, m, key, v, h0, h1, h2, h3, h4, h5⟩
        cases pre with
        | nil =>
          simp only [List.nil_append, List.cons.injEq] at h0
          exact absurd ((hasKey_fun h1).2 h2) (hg e v h3 h0.1)
        | cons x pre =>
          simp only [List.cons_append, List.cons.injEq] at h0
          obtain ⟨rfl, rfl⟩ := h0
          refine ⟨pre, e, post, m, key, v, rfl, ?_, h2, h3, ?_, h5⟩
          · rw [Green.texts, utf8Len_append', ← Nat.add_assoc] at h1; exact h1
          · rcases h4 with h4 | ⟨e1, h4, h6⟩
            · exact .inl h4
            · rcases List.mem_cons.1 h4 with h4 | h4
              · exact absurd h6 (hg e1 v h3 h4.symm)
              · exact .inr ⟨e1, h4, h6⟩
    cases g with
    | token k t => rw [duplicates]; exact skip (by simp)
    | node k c =>
      rw [duplicates]
      by_cases hk : k = .ENTRY
      · subst hk
        simp only [if_true]
        cases hka : keyAt off c with
        | none =>
          refine skip ?_
          rintro e v hv h ⟨n, m, key, h1, -⟩
          cases h
          obtain ⟨m', h'⟩ := entryKey_shift off h1
          rw [keyAt_iff.2 h'] at hka
          simp at hka
        | some p =>
          obtain ⟨m, key⟩ := p
          have hek := keyAt_iff.1 hka
          simp only []
          by_cases ht : keyContent key = []
          · rw [if_pos ht]
            refine skip ?_
            rintro e v hv h h1
            cases h
            rw [hasKey_fun hek, ht] at h1
            exact hv h1.symm
          · rw [if_neg ht]
            by_cases hs : keyContent key ∈ seen
            · rw [if_pos hs, List.mem_cons, ih]
              constructor
              · rintro (h | ⟨pre, e, post, m', key', v, rfl, h1, h2, h3, h4, h5⟩)
                · exact ⟨[], c, gs, m, key, _, rfl, by simpa [Green.texts, utf8Len] using hek, rfl, ht, .inl hs, h⟩
                · refine ⟨.node .ENTRY c :: pre, e, post, m', key', v, rfl, ?_, h2, h3, ?_, h5⟩
                  · rw [Green.texts, utf8Len_append', ← Nat.add_assoc, Green.text]; exact h1
                  · rcases h4 with h4 | ⟨e1, h4, h6⟩
                    · exact .inl h4
                    · exact .inr ⟨e1, List.mem_cons_of_mem _ h4, h6⟩
              · rintro ⟨pre, e, post, m', key', v, h0, h1, h2, h3, h4, h5⟩
                cases pre with
                | nil =>
                  simp only [List.nil_append, List.cons.injEq, Green.node.injEq, true_and] at h0
                  obtain ⟨rfl, rfl⟩ := h0
                  simp only [Green.texts, utf8Len, Nat.add_zero] at h1
                  obtain ⟨rfl, rfl⟩ := entryKey_fun hek h1
                  left; rw [h5, ← h2]; rfl
                | cons x pre =>
                  simp only [List.cons_append, List.cons.injEq] at h0
                  obtain ⟨rfl, rfl⟩ := h0
                  right
                  refine ⟨pre, e, post, m', key', v, rfl, ?_, h2, h3, ?_, h5⟩
                  · rw [Green.texts, utf8Len_append', ← Nat.add_assoc, Green.text] at h1; exact h1
                  · rcases h4 with h4 | ⟨e1, h4, h6⟩
                    · exact .inl h4
                    · rcases List.mem_cons.1 h4 with h4 | h4
                      · cases h4
                        rw [hasKey_fun hek] at h6
                        exact .inl (h6 ▸ hs)
                      · exact .inr ⟨e1, h4, h6⟩
            · rw [if_neg hs, ih]
              constructor
              · rintro ⟨pre, e, post, m', key', v, rfl, h1, h2, h3, h4, h5⟩
                refine ⟨.node .ENTRY c :: pre, e, post, m', key', v, rfl, ?_, h2, h3, ?_, h5⟩
                · rw [Green.texts, utf8Len_append', ← Nat.add_assoc, Green.text]; exact h1
                · rcases h4 with h4 | ⟨e1, h4, h6⟩
                  · rcases List.mem_cons.1 h4 with h4 | h4
                    · exact .inr ⟨c, by simp, (hasKey_fun hek).2 h4.symm⟩
                    · exact .inl h4
                  · exact .inr ⟨e1, List.mem_cons_of_mem _ h4, h6⟩
              · rintro ⟨pre, e, post, m', key', v, h0, h1, h2, h3, h4, h5⟩
                cases pre with
                | nil =>
                  simp only [List.nil_append, List.cons.injEq, Green.node.injEq, true_and] at h0
                  obtain ⟨rfl, rfl⟩ := h0
                  simp only [Green.texts, utf8Len, Nat.add_zero] at h1
                  obtain ⟨rfl, rfl⟩ := entryKey_fun hek h1
                  rcases h4 with h4 | ⟨e1, h4, -⟩
                  · exact absurd (h2 ▸ h4) hs
                  · simp at h4
                | cons x pre =>
                  simp only [List.cons_append, List.cons.injEq] at h0
                  obtain ⟨rfl, rfl⟩ := h0
                  refine ⟨pre, e, post, m', key', v, rfl, ?_, h2, h3, ?_, h5⟩
                  · rw [Green.texts, utf8Len_append', ← Nat.add_assoc, Green.text] at h1; exact h1
                  · rcases h4 with h4 | ⟨e1, h4, h6⟩
                    · exact .inl (List.mem_cons_of_mem _ h4)
                    · rcases List.mem_cons.1 h4 with h4 | h4
                      · cases h4
                        rw [hasKey_fun hek] at h6
                        exact .inl (by simp [h6])
                      · exact .inr ⟨e1, h4, h6⟩
      · rw [if_neg hk]
        refine skip ?_
        rintro e v - h
        cases h
        exact absurd rfl hk

/-! ## All nodes of a tree -/

/-- What is reported for a node itself. -/
def nodeChecks (off : Nat) : Green → List Diagnostic
  | .token _ _ => []
  | .node k cs =>
    if k = .DOCUMENT then duplicates off cs [] else if k = .OBJECT then validateObject off cs else []

theorem placed_trans {a b c : Green} {n m : Nat} (h1 : Placed a n b) (h2 : Placed b m c) : Placed a (n + m) c := by
  induction h2 with
  | root => exact h1
  | child _ ih => rw [← Nat.add_assoc]; exact .child ih

theorem validateKids_mem {d : Diagnostic} {g : Green} {post : List Green} : ∀ {pre : List Green} {off : Nat},
    d ∈ validateNode (off + utf8Len (Green.texts pre)) g → d ∈ validateKids off (pre ++ g :: post) := by
  intro pre
  induction pre with
  | nil => intro off h; simp only [Green.texts, utf8Len, Nat.add_zero] at h; simp [validateKids, h]
  | cons x pre ih =>
    intro off h
    rw [Green.texts, utf8Len_append', ← Nat.add_assoc] at h
    simp only [List.cons_append, validateKids, List.mem_append]
    exact .inr (ih h)

theorem placed_sub {root : Green} {d : Diagnostic} {n : Nat} {g : Green} (h : Placed root n g) :
    d ∈ validateNode n g → d ∈ validateNode 0 root := by
  induction h with
  | root => exact id
  | child _ ih =>
    intro h
    apply ih
    rw [validateNode, List.mem_append]
    exact .inr (validateKids_mem h)

mutual
theorem validateNode_sub : ∀ (g : Green) (off : Nat) (d : Diagnostic), d ∈ validateNode off g →
    ∃ n h, Placed g n h ∧ d ∈ nodeChecks (off + n) h
  | .token _ _, off, d, h => by simp [validateNode] at h
  | .node k cs, off, d, h => by
    rw [validateNode, List.mem_append] at h
    rcases h with h | h
    · exact ⟨0, _, .root, h⟩
    · obtain ⟨pre, g, post, n, x, rfl, h1, h2⟩ := validateKids_sub cs off d h
      refine ⟨utf8Len (Green.texts pre) + n, x, ?_, by rw [← Nat.add_assoc]; exact h2⟩
      have : Placed (.node k (pre ++ g :: post)) (0 + utf8Len (Green.texts pre)) g := .child .root
      rw [Nat.zero_add] at this
      exact placed_trans this h1
theorem validateKids_sub : ∀ (gs : List Green) (off : Nat) (d : Diagnostic), d ∈ validateKids off gs →
    ∃ pre g post n x, gs = pre ++ g :: post ∧ Placed g n x ∧ d ∈ nodeChecks (off + utf8Len (Green.texts pre) + n) x
  | [], off, d, h => by simp [validateKids] at h
  | g :: gs, off, d, h => by
    rw [validateKids, List.mem_append] at h
    rcases h with h | h
    · obtain ⟨n, x, h1, h2⟩ := validateNode_sub g off d h
      exact ⟨[], g, gs, n, x, rfl, h1, by simpa [Green.texts, utf8Len] using h2⟩
    · obtain ⟨pre, g', post, n, x, rfl, h1, h2⟩ := validateKids_sub gs _ d h
      refine ⟨g :: pre, g', post, n, x, rfl, h1, ?_⟩
      rw [Green.texts, utf8Len_append', ← Nat.add_assoc off]; exact h2
end

theorem validate_iff {root : Green} {d : Diagnostic} :
    d ∈ validate root ↔ ∃ n g, Placed root n g ∧ d ∈ nodeChecks n g := by
  constructor
  · intro h
    obtain ⟨n, g, h1, h2⟩ := validateNode_sub root 0 d h
    exact ⟨n, g, h1, by simpa using h2⟩
  · rintro ⟨n, g, h1, h2⟩
    apply placed_sub h1
    cases g with
    | token k t => simp [nodeChecks] at h2
    | node k cs => rw [validateNode, List.mem_append]; exact .inl h2

theorem dup_ne_mixed (a b a' b' : Nat) (v : List Char) : duplicateWarning a b v ≠ mixedWarning a' b' := by
  simp [duplicateWarning, mixedWarning]

theorem duplicateWarning_inj {a b a' b' : Nat} {v v' : List Char} (h : duplicateWarning a b v = duplicateWarning a' b' v') :
    a = a' ∧ b = b' ∧ v = v' := by
  simpa [duplicateWarning] using h

theorem mem_nodeChecks_dup {n a b : Nat} {g : Green} {v : List Char} : duplicateWarning a b v ∈ nodeChecks n g ↔
    ∃ k cs, g = .node k cs ∧ (k = .DOCUMENT ∨ k = .OBJECT) ∧ duplicateWarning a b v ∈ duplicates n cs [] := by
  cases g with
  | token k t => simp [nodeChecks]
  | node k cs =>
    have hm : duplicateWarning a b v ∈ validateObject n cs ↔ duplicateWarning a b v ∈ duplicates n cs [] := by
      rw [validateObject, List.mem_append]
      constructor
      · rintro (h | h)
        · split at h
          · exact absurd (List.mem_singleton.1 h) (dup_ne_mixed a b n (n + utf8Len (Green.texts cs)) v)
          · simp at h
        · exact h
      · exact .inr
    simp only [nodeChecks]
    constructor
    · intro h
      split at h
      · exact ⟨k, cs, rfl, .inl ‹_›, h⟩
      · split at h
        · exact ⟨k, cs, rfl, .inr ‹_›, hm.1 h⟩
        · simp at h
    · rintro ⟨k', cs', h, hk, h'⟩
      cases h
      rcases hk with rfl | rfl
      · simpa using h'
      · simpa using hm.2 h'

theorem given_twice_iff {root : Green} {a b : Nat} {v : List Char} :
    duplicateWarning a b v ∈ validate root ↔ GivenTwice root a b v := by
  rw [validate_iff]
  constructor
  · rintro ⟨n, g, h1, h2⟩
    obtain ⟨k, cs, rfl, hk, h⟩ := mem_nodeChecks_dup.1 h2
    obtain ⟨pre, e, post, m, key, v', rfl, h3, h4, h5, h6, h7⟩ := (duplicates_iff _ _ _ _).1 h
    obtain ⟨rfl, rfl, rfl⟩ := duplicateWarning_inj h7
    rcases h6 with h6 | ⟨e1, h6, n', m', key', h8, h9⟩
    · simp at h6
    · obtain ⟨p, mid, rfl⟩ := List.append_of_mem h6
      refine ⟨n, k, p, e1, mid, e, post, by simpa using h1, hk, h5, ⟨n', m', key', h8, (keyContent_iff h5 _).1 h9⟩, key, h3,
        (keyContent_iff h5 _).1 h4, rfl⟩
  · rintro ⟨n, k, pre, e1, mid, e2, post, h1, hk, hv, ⟨n', m', key', h2, h3⟩, key, h4, h5, rfl⟩
    refine ⟨n, _, h1, mem_nodeChecks_dup.2 ⟨k, _, rfl, hk, ?_⟩⟩
    rw [duplicates_iff]
    exact ⟨_, e2, post, a, key, v, rfl, h4, (keyContent_iff hv _).2 h5, hv,
      .inr ⟨e1, by simp, n', m', key', h2, (keyContent_iff hv _).2 h3⟩, rfl⟩

theorem mixed_iff {root : Green} {a b : Nat} : mixedWarning a b ∈ validate root ↔ MixedObject root a b := by
  rw [validate_iff]
  constructor
  · rintro ⟨n, g, h1, h2⟩
    have hd : ∀ cs, mixedWarning a b ∉ duplicates n cs [] := by
      intro cs h
      obtain ⟨pre, e, post, m, key, v', rfl, h3, h4, h5, h6, h7⟩ := (duplicates_iff _ _ _ _).1 h
      exact dup_ne_mixed _ _ _ _ _ h7.symm
    cases g with
    | token k t => simp [nodeChecks] at h2
    | node k cs =>
      simp only [nodeChecks] at h2
      split at h2
      · exact absurd h2 (hd cs)
      · split at h2
        · rename_i hk
          subst hk
          rw [validateObject, List.mem_append] at h2
          rcases h2 with h2 | h2
          · split at h2
            · rename_i hs
              simp only [List.mem_singleton, mixedWarning, Diagnostic.mk.injEq, and_true] at h2
              obtain ⟨rfl, rfl⟩ := h2
              rw [separator] at hs
              split at hs
              · rename_i hh
                rw [Bool.and_eq_true, hasToken_mem, hasToken_mem] at hh
                obtain ⟨⟨t, ht⟩, t', ht'⟩ := hh
                exact ⟨cs, t, t', h1, ht, ht', rfl⟩
              · split at hs <;> simp at hs
            · simp at h2
          · exact absurd h2 (hd cs)
        · simp at h2
  · rintro ⟨cs, t, t', h1, h2, h3, rfl⟩
    refine ⟨a, _, h1, ?_⟩
    have : separator cs = .mixed := by
      rw [separator, if_pos (by rw [Bool.and_eq_true, hasToken_mem, hasToken_mem]; exact ⟨⟨t, h2⟩, t', h3⟩)]
    simp [nodeChecks, validateObject, this, mixedWarning]

/-- Every diagnostic is one of the two warnings. -/
theorem validate_kinds {root : Green} {d : Diagnostic} (h : d ∈ validate root) :
    ∃ a b, d = mixedWarning a b ∨ ∃ v, d = duplicateWarning a b v := by
  obtain ⟨n, g, h1, h2⟩ := validate_iff.1 h
  have hd : ∀ cs, d ∈ duplicates n cs [] → ∃ a b, d = mixedWarning a b ∨ ∃ v, d = duplicateWarning a b v := by
    intro cs h
    obtain ⟨pre, e, post, m, key, v', rfl, h3, h4, h5, h6, h7⟩ := (duplicates_iff _ _ _ _).1 h
    exact ⟨_, _, .inr ⟨_, h7⟩⟩
  cases g with
  | token k t => simp [nodeChecks] at h2
  | node k cs =>
    simp only [nodeChecks] at h2
    split at h2
    · exact hd cs h2
    · split at h2
      · rw [validateObject, List.mem_append] at h2
        rcases h2 with h2 | h2
        · split at h2
          · exact ⟨_, _, .inl (List.mem_singleton.1 h2)⟩
          · simp at h2
        · exact hd cs h2
      · simp at h2

/-- A part of a tree is a part of its text. -/
theorem placed_text {root : Green} {n : Nat} {g : Green} (h : Placed root n g) :
    ∃ a b, root.text = a ++ g.text ++ b ∧ utf8Len a = n := by
  induction h with
  | root => exact ⟨[], [], by simp, rfl⟩
  | @child n k pre g post _ ih =>
    obtain ⟨a, b, h1, rfl⟩ := ih
    refine ⟨a ++ Green.texts pre, Green.texts post ++ b, ?_, utf8Len_append' _ _⟩
    rw [h1, Green.text, texts_append, Green.texts]
    simp

end Styx.Cst
