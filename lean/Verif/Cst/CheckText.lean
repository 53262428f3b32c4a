import Verif.Cst.CheckLemmas

/-! # The checks on the concrete syntax trees of documents -/

namespace Styx.Cst

open Styx Styx.Spec

/-! ## Lists of key texts -/

/-- The text of the key of an entry. -/
def keyWord (c : List Green) : List Char :=
  match keyAt 0 c with
  | some (_, key) => keyContent key
  | none => []

theorem keyWord_some {off m : Nat} {c key : List Green} (h : keyAt off c = some (m, key)) : keyWord c = keyContent key := by
  obtain ⟨m', h'⟩ := entryKey_shift 0 (keyAt_iff.1 h)
  rw [keyWord, keyAt_iff.2 h']

theorem keyWord_none {off : Nat} {c : List Green} (h : keyAt off c = none) : keyWord c = [] := by
  rw [keyWord]
  split
  · rename_i h'
    obtain ⟨m', h''⟩ := entryKey_shift off (keyAt_iff.1 h')
    rw [keyAt_iff.2 h''] at h
    simp at h
  · rfl

theorem dups_words {v : List Char} (hv : v ≠ []) : ∀ (cs : List Green) (off : Nat) (seen : List (List Char)),
    (∃ a b, duplicateWarning a b v ∈ duplicates off cs seen) ↔
      (v ∈ seen ∧ v ∈ (entriesOf cs).map keyWord) ∨ [v, v].Sublist ((entriesOf cs).map keyWord) := by
  intro cs
  induction cs with
  | nil => simp [duplicates, entriesOf, nodesOf]
  | cons g gs ih =>
    intro off seen
    cases g with
    | token k t => rw [duplicates, entriesOf, nodesOf]; exact ih _ _
    | node k c =>
      rw [duplicates]
      by_cases hk : k = .ENTRY
      · subst hk
        have he : entriesOf (.node .ENTRY c :: gs) = c :: entriesOf gs := by rw [entriesOf, nodesOf, if_pos rfl]; rfl
        simp only [if_true, he, List.map_cons]
        have skip : keyWord c = [] → ((∃ a b, duplicateWarning a b v ∈
            duplicates (off + utf8Len (Green.texts c)) gs seen) ↔
            (v ∈ seen ∧ v ∈ keyWord c :: (entriesOf gs).map keyWord) ∨
              [v, v].Sublist (keyWord c :: (entriesOf gs).map keyWord)) := by
          intro hw
          rw [ih, hw, List.sublist_cons_iff]
          simp [hv]
        cases hka : keyAt off c with
        | none => exact skip (keyWord_none hka)
        | some p =>
          obtain ⟨m, key⟩ := p
          have hw := keyWord_some hka
          simp only []
          rw [← hw]
          by_cases ht : keyWord c = []
          · rw [if_pos ht]; exact skip ht
          · rw [if_neg ht]
            by_cases hs : keyWord c ∈ seen
            · rw [if_pos hs]
              have : (∃ a b, duplicateWarning a b v ∈
                  (⟨m, m + utf8Len (Green.texts key), .warning, chars! "duplicate key: `" ++ keyWord c ++ ['`']⟩ :: duplicates (off + utf8Len (Green.texts c)) gs seen :
                    List Diagnostic)) ↔ v = keyWord c ∨ ∃ a b, duplicateWarning a b v ∈
                  duplicates (off + utf8Len (Green.texts c)) gs seen := by
                constructor
                · rintro ⟨a, b, h⟩
                  rcases List.mem_cons.1 h with h | h
                  · exact .inl (duplicateWarning_inj (a' := m) (b' := m + utf8Len (Green.texts key)) (v' := keyWord c) h).2.2
                  · exact .inr ⟨a, b, h⟩
                · rintro (rfl | ⟨a, b, h⟩)
                  · exact ⟨m, m + utf8Len (Green.texts key), List.mem_cons.2 (.inl rfl)⟩
                  · exact ⟨a, b, List.mem_cons_of_mem _ h⟩
              rw [this, ih, List.sublist_cons_iff, List.mem_cons]
              constructor
              · rintro (rfl | ⟨h1, h2⟩ | h)
                · exact .inl ⟨hs, .inl rfl⟩
                · exact .inl ⟨h1, .inr h2⟩
                · exact .inr (.inl h)
              · rintro (⟨h1, h2 | h2⟩ | h | ⟨r, h1, h2⟩)
                · exact .inl h2
                · exact .inr (.inl ⟨h1, h2⟩)
                · exact .inr (.inr h)
                · cases h1; exact .inl rfl
            · rw [if_neg hs, ih, List.sublist_cons_iff]
              simp only [List.mem_cons]
              constructor
              · rintro (⟨h1, h2⟩ | h)
                · rcases h1 with h1 | h1
                  · refine .inr (.inr ⟨[v], by rw [h1], by simpa using h2⟩)
                  · exact .inl ⟨h1, .inr h2⟩
                · exact .inr (.inl h)
              · rintro (⟨h1, h2 | h2⟩ | h | ⟨r, h1, h2⟩)
                · exact absurd (h2 ▸ h1) hs
                · exact .inl ⟨.inr h1, h2⟩
                · exact .inr h
                · cases h1
                  exact .inl ⟨.inl rfl, by simpa using h2⟩
      · have he : entriesOf (.node k c :: gs) = entriesOf gs := by rw [entriesOf, nodesOf, if_neg hk]; rfl
        simp only [if_neg hk, he]
        exact ih _ _

theorem dups_iff {v : List Char} (hv : v ≠ []) (cs : List Green) (off : Nat) :
    (∃ a b, duplicateWarning a b v ∈ duplicates off cs []) ↔ [v, v].Sublist ((entriesOf cs).map keyWord) := by
  rw [dups_words hv]; simp

theorem mem_duplicates {d : Diagnostic} {off : Nat} {cs : List Green} (h : d ∈ duplicates off cs []) :
    ∃ a b v, v ≠ [] ∧ d = duplicateWarning a b v := by
  obtain ⟨_, _, _, _, _, _, _, _, _, h1, _, h2⟩ := (duplicates_iff _ _ _ _).1 h
  exact ⟨_, _, _, h1, h2⟩

/-- The words of the entries and of the kids are the same, except for empty ones. -/
theorem kids_words : ∀ {cs : List Green} {pend : List (List Char)} {ks : List Kid}, (∀ k c, .node k c ∈ cs → k = .ENTRY) →
    kidsOf pend cs = some ks →
    ((entriesOf cs).map keyWord).filter (· ≠ []) = (ks.map (keyWord ·.2)).filter (· ≠ []) := by
  intro cs
  induction cs with
  | nil =>
    intro pend ks _ h
    rw [kidsOf] at h
    split at h <;> cases h
    rfl
  | cons g gs ih =>
    intro pend ks hn h
    have hn' : ∀ k c, .node k c ∈ gs → k = .ENTRY := fun k c hc => hn k c (List.mem_cons_of_mem _ hc)
    cases g with
    | token k t =>
      rw [kidsOf] at h
      rw [entriesOf, nodesOf]
      split at h
      · exact ih hn' h
      · exact ih hn' h
    | node k c =>
      obtain rfl := hn k c (by simp)
      rw [kidsOf] at h
      rw [entriesOf, nodesOf, if_pos rfl, ← entriesOf]
      split at h
      · rename_i he
        subst he
        simpa [keyWord, keyAt] using ih hn' h
      · obtain ⟨ks', h1, rfl⟩ := Option.map_eq_some_iff.1 h
        have := ih hn' h1
        simp only [List.map_cons, List.filter_cons, this]

theorem sublist_filter {v : List Char} (hv : v ≠ []) (l : List (List Char)) :
    [v, v].Sublist l ↔ [v, v].Sublist (l.filter (· ≠ [])) := by
  constructor
  · intro h
    have := h.filter (· ≠ [])
    simpa [hv] using this
  · intro h
    exact h.trans List.filter_sublist

/-! ## The text of a key -/

/-- The text of a key that is a scalar. -/
def wordOf : Value → List Char
  | .mk none (some (.scalar v _ _)) _ => v
  | _ => []

theorem NoUnicodeEscape.part {a b c : List Char} (h : NoUnicodeEscape (a ++ b ++ c)) : NoUnicodeEscape b := by
  rintro x y rfl
  exact h (a ++ x) (y ++ c) (by simp)

theorem spelled_of_escaped {body v : List Char} (h : Escaped body v) (hu : NoUnicodeEscape body) : Spelled body v := by
  induction h with
  | nil => exact .nil
  | @plain c raw v hc _ ih => exact .plain hc (ih (NoUnicodeEscape.part (a := [c]) (c := []) (by simpa using hu)))
  | @simple e d raw v hm _ ih =>
    exact .simple hm (ih (NoUnicodeEscape.part (a := ['\\', e]) (c := []) (by simpa using hu)))
  | four => exact absurd rfl (hu [] _)
  | braced => exact absurd rfl (hu [] _)

theorem scalar_content {v : List Char} {k : ScalarKind} {e : Tail} {t : List Char} {tk : SyntaxKind}
    (h : ScalarText v k e t) (hk : k ≠ .heredoc) (hr : k ≠ .raw) (htk : ScalarTok tk) (hl : LeafText tk t)
    (hu : NoUnicodeEscape t) : keyContent [.node .SCALAR [.token tk t]] = v := by
  have e1 : ∀ w, tokenContent tk t = some w → keyContent [.node .SCALAR [.token tk t]] = w := by
    intro w hw
    simp [keyContent, scalarContent, hw]
  apply e1
  rw [tokenContent_iff]
  cases h with
  | bare hb =>
    obtain ⟨h1, c, r, rfl, h2⟩ := hb
    rcases htk with rfl | rfl | rfl
    · exact .bare
    · obtain ⟨body, h3, -⟩ := hl
      cases h3
      exact absurd (by simp [bareForbidden]) (h1 '"' (by simp)).1
    · obtain ⟨n, body, h3⟩ := hl
      have : '"' ∈ c :: r := by rw [h3]; simp
      exact absurd (by simp [bareForbidden]) (h1 '"' this).1
  | @quoted body v hq he =>
    have hu' : NoUnicodeEscape body := NoUnicodeEscape.part (a := ['"']) (c := ['"']) (by simpa using hu)
    rcases htk with rfl | rfl | rfl
    · exact absurd (by simp [bareForbidden]) (hl.2 '"' (by simp)).1
    · exact .quoted (spelled_of_escaped he hu')
    · obtain ⟨n, b, h3⟩ := hl
      simp at h3
  | raw => exact absurd rfl hr
  | heredoc => exact absurd rfl hk

theorem scalar_start {v : List Char} {k : ScalarKind} {e : Tail} {t : List Char} (h : ScalarText v k e t) :
    t.head? ≠ some '@' := by
  cases h with
  | bare hb =>
    obtain ⟨-, c, r, rfl, h2, -⟩ := hb
    intro h
    simp only [List.head?_cons, Option.some.injEq] at h
    exact h2 (by simp [h])
  | quoted => simp
  | raw => simp
  | heredoc => simp

theorem key_content {k : Value} {ke : Tail} {kt : List Char} {gk : Green} (h : KeyText k ke kt) (hn : KeyNode kt gk)
    (hok : OkG gk) (hu : NoUnicodeEscape kt) (hr : NotRawKey k) : keyContent [gk] = wordOf k := by
  cases hn with
  | @scalar tk t htk h0 =>
    cases h with
    | scalar h1 h2 =>
      exact scalar_content h1 h2 (by simpa [NotRawKey, scalarValue] using hr) htk (hok.kids _ (by simp)).leaf hu
    | unit => simp at h0
    | tag => simp at h0
    | tagged => simp at h0
  | unit =>
    generalize hg : ['@'] = t at h
    cases h with
    | scalar h1 => exact absurd (by rw [← hg]; rfl) (scalar_start h1)
    | _ => simp [keyContent, wordOf]
  | tag hn =>
    generalize hg : '@' :: _ = t at h
    cases h with
    | scalar h1 => exact absurd (by rw [← hg]; rfl) (scalar_start h1)
    | _ => simp [keyContent, wordOf]
  | tagged =>
    generalize hg : '@' :: _ ++ _ = t at h
    cases h with
    | scalar h1 => exact absurd (by rw [← hg]; rfl) (scalar_start h1)
    | _ => simp [keyContent, wordOf]

/-! ## Values without warnings for keys -/

/-- Nothing but mixed separators is reported. -/
def Quiet (g : Green) : Prop := ∀ off a b v, duplicateWarning a b v ∉ validateNode off g

theorem quiet_kids {a b : Nat} {v : List Char} : ∀ {cs : List Green} {off : Nat}, (∀ g ∈ cs, Quiet g) →
    duplicateWarning a b v ∉ validateKids off cs := by
  intro cs
  induction cs with
  | nil => intro off _; simp [validateKids]
  | cons g gs ih =>
    intro off h hm
    rw [validateKids, List.mem_append] at hm
    rcases hm with hm | hm
    · exact h g (by simp) _ _ _ _ hm
    · exact ih (fun x hx => h x (List.mem_cons_of_mem _ hx)) hm

theorem quiet_token (k : SyntaxKind) (t : List Char) : Quiet (.token k t) := by
  intro off a b v h
  simp [validateNode] at h

theorem mem_validateNode {off a b : Nat} {v : List Char} {k : SyntaxKind} {cs : List Green} :
    duplicateWarning a b v ∈ validateNode off (.node k cs) ↔
      ((k = .DOCUMENT ∨ k = .OBJECT) ∧ duplicateWarning a b v ∈ duplicates off cs []) ∨
        duplicateWarning a b v ∈ validateKids off cs := by
  have := mem_nodeChecks_dup (n := off) (a := a) (b := b) (g := .node k cs) (v := v)
  rw [validateNode, List.mem_append]
  rw [nodeChecks] at this
  rw [this]
  constructor
  · rintro (⟨k', cs', h, h1, h2⟩ | h)
    · cases h; exact .inl ⟨h1, h2⟩
    · exact .inr h
  · rintro (⟨h1, h2⟩ | h)
    · exact .inl ⟨k, cs, rfl, h1, h2⟩
    · exact .inr h

theorem quiet_node {k : SyntaxKind} {cs : List Green} (h : ∀ g ∈ cs, Quiet g)
    (hd : k = .DOCUMENT ∨ k = .OBJECT → ∀ v, v ≠ [] → ¬ [v, v].Sublist ((entriesOf cs).map keyWord)) :
    Quiet (.node k cs) := by
  intro off a b v hm
  rcases mem_validateNode.1 hm with ⟨h1, h2⟩ | h1
  · obtain ⟨a', b', v', hv, he⟩ := mem_duplicates h2
    obtain ⟨rfl, rfl, rfl⟩ := duplicateWarning_inj he
    exact hd h1 _ hv ((dups_iff hv cs off).1 ⟨_, _, h2⟩)
  · exact quiet_kids h h1

theorem quiet_other {k : SyntaxKind} {cs : List Green} (hk : k ≠ .DOCUMENT ∧ k ≠ .OBJECT) (h : ∀ g ∈ cs, Quiet g) :
    Quiet (.node k cs) :=
  quiet_node h fun hk' => by rcases hk' with rfl | rfl <;> simp at hk

theorem quiet_tokens {k : SyntaxKind} {cs : List Green} (hk : k ≠ .DOCUMENT ∧ k ≠ .OBJECT)
    (h : ∀ g ∈ cs, ∃ k t, g = .token k t) : Quiet (.node k cs) :=
  quiet_other hk fun g hg => by obtain ⟨k, t, rfl⟩ := h g hg; exact quiet_token k t

theorem quiet_scalar (k : SyntaxKind) (t : List Char) : Quiet (.node .SCALAR [.token k t]) :=
  quiet_tokens (by simp) (by simp)

theorem quiet_key {kt : List Char} {gk : Green} (h : KeyNode kt gk) : Quiet gk := by
  cases h with
  | scalar => exact quiet_scalar _ _
  | unit => exact quiet_tokens (by simp) (by simp)
  | tag => exact quiet_tokens (by simp) (by simp)
  | tagged =>
    refine quiet_other (by simp) fun g hg => ?_
    simp only [List.mem_cons, List.not_mem_nil, or_false] at hg
    rcases hg with rfl | rfl
    · exact quiet_token _ _
    · refine quiet_other (by simp) fun g hg => ?_
      rw [List.mem_singleton.1 hg]
      exact quiet_scalar _ _

theorem quiet_ws {g : Green} (h : IsWs g) : Quiet g := by
  obtain ⟨t, rfl⟩ := h
  exact quiet_token _ _

theorem quiet_pair {kt : List Char} {gk gv : Green} {cs : List Green} (h : PairNode gk gv cs) (hk : KeyNode kt gk)
    (hv : Quiet gv) : ∀ g ∈ cs, Quiet g := by
  obtain ⟨ws, ws', rfl, h1, h2⟩ := h
  intro g hg
  simp only [List.cons_append, List.mem_cons, List.mem_append] at hg
  rcases hg with rfl | hg | rfl | hg
  · exact quiet_other (by simp) fun g hg => by rw [List.mem_singleton.1 hg]; exact quiet_key hk
  · exact quiet_ws (h1 g hg)
  · exact quiet_other (by simp) fun g hg => by rw [List.mem_singleton.1 hg]; exact hv
  · exact quiet_ws (h2 g hg)

theorem quiet_lone {kt : List Char} {gk : Green} {cs : List Green} (h : LoneNode gk cs) (hk : KeyNode kt gk) :
    ∀ g ∈ cs, Quiet g := by
  obtain ⟨ws, rfl, h1⟩ := h
  intro g hg
  rcases List.mem_cons.1 hg with rfl | hg
  · exact quiet_other (by simp) fun g hg => by rw [List.mem_singleton.1 hg]; exact quiet_key hk
  · exact quiet_ws (h1 g hg)

theorem pair_word {gk gv : Green} {cs : List Green} (h : PairNode gk gv cs) : keyWord cs = keyContent [gk] := by
  obtain ⟨ws, ws', rfl, -⟩ := h
  simp [keyWord, keyAt]

theorem lone_word {gk : Green} {cs : List Green} (h : LoneNode gk cs) : keyWord cs = keyContent [gk] := by
  obtain ⟨ws, rfl, -⟩ := h
  simp [keyWord, keyAt]

theorem pair_key_mem {gk gv : Green} {cs : List Green} (h : PairNode gk gv cs) :
    .node .KEY [gk] ∈ cs ∧ .node .VALUE [gv] ∈ cs := by
  obtain ⟨ws, ws', rfl, -⟩ := h
  simp

theorem lone_key_mem {gk : Green} {cs : List Green} (h : LoneNode gk cs) : .node .KEY [gk] ∈ cs := by
  obtain ⟨ws, rfl, -⟩ := h
  simp

theorem keyNode_text {kt : List Char} {gk : Green} (h : KeyNode kt gk) : gk.text = kt := by
  cases h <;> simp [Green.text, Green.texts]

/-- The texts of the parts of a tree are parts of its text. -/
def UniFree (g : Green) : Prop := NoUnicodeEscape g.text

theorem UniFree.kids {k : SyntaxKind} {cs : List Green} (h : UniFree (.node k cs)) : ∀ g ∈ cs, UniFree g := by
  intro g hg
  obtain ⟨a, b, rfl⟩ := List.append_of_mem hg
  rw [UniFree, Green.text, texts_append, Green.texts, ← List.append_assoc] at h
  exact NoUnicodeEscape.part h

/-- A good tree without unicode escapes. -/
structure Calm (g : Green) : Prop where
  ok : OkG g
  uni : UniFree g

theorem Calm.kids {k : SyntaxKind} {cs : List Green} (h : Calm (.node k cs)) : ∀ g ∈ cs, Calm g :=
  fun g hg => ⟨h.ok.kids g hg, h.uni.kids g hg⟩

theorem calm_key {k : Value} {ke : Tail} {kt : List Char} {gk : Green} (h : KeyText k ke kt) (hn : KeyNode kt gk)
    (hc : Calm gk) (hr : NotRawKey k) : keyContent [gk] = wordOf k :=
  key_content h hn hc.ok (keyNode_text hn ▸ hc.uni) hr

theorem distinct_words {es : List Entry} (h : DistinctKeys es) {v : List Char} (hv : v ≠ []) :
    ¬ [v, v].Sublist (es.map fun e => wordOf (Spec.entryKey e)) := by
  have key : ∀ k : Value, wordOf k = v → keyId k = (none, some v) := by
    intro k hk
    obtain ⟨t, p, s⟩ := k
    cases t with
    | some _ => simp [wordOf] at hk; exact absurd hk hv
    | none =>
      cases p with
      | none => simp [wordOf] at hk; exact absurd hk hv
      | some p =>
        cases p with
        | scalar w _ _ => simp only [wordOf] at hk; simp [keyId, hk]
        | _ => simp [wordOf] at hk; exact absurd hk hv
  have h' : (es.map fun e => wordOf (Spec.entryKey e)).Pairwise fun a b => ¬ (a = v ∧ b = v) := by
    rw [DistinctKeys, List.pairwise_map] at h
    rw [List.pairwise_map]
    refine h.imp ?_
    rintro a b hab ⟨h1, h2⟩
    exact hab (by rw [key _ h1, key _ h2])
  intro hs
  have := h'.sublist hs
  simp at this

theorem sequence_calm {cs : List Green} (h : OkG (.node .SEQUENCE cs)) :
    (∀ g ∈ itemsOf cs, ∃ k c, g = .node k c ∧ .node .ENTRY [.node .KEY [g]] ∈ cs) ∧
      ((∀ g ∈ itemsOf cs, Quiet g) → ∀ g ∈ cs, Quiet g) := by
  obtain ⟨mid, hcs, hm⟩ := h.shape
  have hel : ∀ g ∈ cs, (∃ k t, g = .token k t) ∨ ∃ k' cs', g = .node .ENTRY [.node .KEY [.node k' cs']] := by
    intro g hg
    rw [hcs] at hg
    simp only [List.cons_append, List.mem_cons, List.mem_append, List.not_mem_nil, or_false] at hg
    rcases hg with rfl | hg | rfl
    · exact .inl ⟨_, _, rfl⟩
    · cases g with
      | token k t => exact .inl ⟨_, _, rfl⟩
      | node k c =>
        obtain ⟨rfl, k', cs', rfl, -⟩ := hm _ hg
        exact .inr ⟨_, _, rfl⟩
    · exact .inl ⟨_, _, rfl⟩
  clear hcs hm h
  induction cs with
  | nil => simp [itemsOf]
  | cons g gs ih =>
    obtain ⟨ih1, ih2⟩ := ih fun x hx => hel x (List.mem_cons_of_mem _ hx)
    rcases hel g (by simp) with ⟨k, t, rfl⟩ | ⟨k', cs', rfl⟩
    · rw [itemsOf]
      refine ⟨fun x hx => ?_, fun h x hx => ?_⟩
      · obtain ⟨k, c, h1, h2⟩ := ih1 x hx
        exact ⟨k, c, h1, List.mem_cons_of_mem _ h2⟩
      · rcases List.mem_cons.1 hx with rfl | hx
        · exact quiet_token _ _
        · exact ih2 h x hx
    · rw [itemsOf]
      refine ⟨fun x hx => ?_, fun h x hx => ?_⟩
      · simp only [List.singleton_append, List.mem_cons] at hx
        rcases hx with rfl | hx
        · exact ⟨_, _, rfl, by simp⟩
        · obtain ⟨k, c, h1, h2⟩ := ih1 x hx
          exact ⟨k, c, h1, List.mem_cons_of_mem _ h2⟩
      · simp only [List.singleton_append, List.mem_cons, forall_eq_or_imp] at h
        rcases List.mem_cons.1 hx with rfl | hx
        · refine quiet_other (by simp) fun y hy => ?_
          rw [List.mem_singleton.1 hy]
          refine quiet_other (by simp) fun y hy => ?_
          rw [List.mem_singleton.1 hy]
          exact h.1
        · exact ih2 h.2 x hx

theorem kidsOf_node : ∀ {cs : List Green} {pend : List (List Char)} {ks : List Kid}, kidsOf pend cs = some ks →
    ∀ k c, .node k c ∈ cs → c ≠ [] → ∃ x ∈ ks, x.2 = c := by
  intro cs
  induction cs with
  | nil => intro pend ks _ k c hc; simp at hc
  | cons g gs ih =>
    intro pend ks h k c hc hne
    cases g with
    | token k' t =>
      rw [kidsOf] at h
      have hc' : .node k c ∈ gs := by simpa using hc
      split at h
      · exact ih h k c hc' hne
      · exact ih h k c hc' hne
    | node k' cs' =>
      rw [kidsOf] at h
      split at h
      · rename_i he
        rcases List.mem_cons.1 hc with hc | hc
        · cases hc; exact absurd he hne
        · exact ih h k c hc hne
      · obtain ⟨ks', h1, rfl⟩ := Option.map_eq_some_iff.1 h
        rcases List.mem_cons.1 hc with hc | hc
        · cases hc; exact ⟨_, List.mem_cons_self .., rfl⟩
        · obtain ⟨x, hx, hx'⟩ := ih h1 k c hc hne
          exact ⟨x, by simp [hx], hx'⟩

theorem kids_quiet {cs : List Green} {pend : List (List Char)} {ks : List Kid} (h : kidsOf pend cs = some ks)
    (hn : ∀ k c, .node k c ∈ cs → k = .ENTRY) (hq : ∀ x ∈ ks, ∀ g ∈ x.2, Quiet g) : ∀ g ∈ cs, Quiet g := by
  intro g hg
  cases g with
  | token k t => exact quiet_token _ _
  | node k c =>
    obtain rfl := hn k c hg
    by_cases hc : c = []
    · subst hc; exact quiet_tokens (by simp) (by simp)
    · obtain ⟨x, hx, rfl⟩ := kidsOf_node h _ c hg hc
      exact quiet_other (by simp) (hq x hx)

theorem mem_nodesOf {k : SyntaxKind} {c : List Green} : ∀ {cs : List Green}, .node k c ∈ cs → c ∈ nodesOf k cs := by
  intro cs
  induction cs with
  | nil => intro h; simp at h
  | cons g gs ih =>
    intro h
    cases g with
    | token _ _ => rw [nodesOf]; exact ih (by simpa using h)
    | node k' c' =>
      rw [nodesOf]
      rcases List.mem_cons.1 h with h | h
      · cases h; rw [if_pos rfl]; simp
      · split
        · exact List.mem_cons_of_mem _ (ih h)
        · exact ih h

theorem value_quiet {v : Value} {e : Tail} {g : Green} (h : ValueNode v e g) : NoRawKeys v → Calm g → Quiet g := by
  refine ValueNode.rec
    (motive_1 := fun v e g _ => NoRawKeys v → Calm g → Quiet g)
    (motive_2 := fun nl vs gs _ => NoRawKeysItems vs → (∀ g ∈ gs, Calm g) → ∀ g ∈ gs, Quiet g)
    (motive_3 := fun nl es ks _ => NoRawKeysEntries es → (∀ x ∈ ks, ∀ g ∈ x.2, Calm g) →
      (∀ x ∈ ks, ∀ g ∈ x.2, Quiet g) ∧ ks.map (keyWord ·.2) = es.map fun e => wordOf (Spec.entryKey e))
    (motive_4 := fun es e as _ => NoRawKeysEntries es → (∀ a ∈ as, ∀ g ∈ a, Calm g) → ∀ a ∈ as, ∀ g ∈ a, Quiet g)
    ?scalar ?heredoc ?unit ?tag ?tagged ?sequence ?object ?attributes ?inil ?icons ?knil ?kpair ?klone ?aone ?acons h
  case scalar => intros; exact quiet_scalar _ _
  case heredoc =>
    intro v e cs h1 h2 _ _ _
    exact quiet_tokens (by simp) h2
  case unit => intros; exact quiet_tokens (by simp) (by simp)
  case tag => intros; exact quiet_tokens (by simp) (by simp)
  case tagged =>
    intro n p e g hn hv hp ih hl hg
    have hl' : NoRawKeys (.mk none (some p) none) := by
      cases p with
      | scalar _ _ _ => simp [NoRawKeys]
      | sequence _ _ => simpa only [NoRawKeys] using hl
      | object _ _ => simpa only [NoRawKeys] using hl
    refine quiet_other (by simp) fun x hx => ?_
    simp only [List.mem_cons, List.not_mem_nil, or_false] at hx
    rcases hx with rfl | rfl
    · exact quiet_token _ _
    · refine quiet_other (by simp) fun y hy => ?_
      obtain rfl := List.mem_singleton.1 hy
      exact ih hl' ((hg.kids _ (List.mem_cons_of_mem _ (List.mem_singleton.2 rfl))).kids _ hy)
  case sequence =>
    intro vs cs hv ih hl hg
    obtain ⟨h1, h2⟩ := sequence_calm hg.ok
    refine quiet_other (by simp) (h2 (ih (by simpa only [NoRawKeys] using hl) fun g hgm => ?_))
    obtain ⟨k, c, -, h4⟩ := h1 g hgm
    exact ((hg.kids _ h4).kids _ (List.mem_singleton.2 rfl)).kids _ (List.mem_singleton.2 rfl)
  case object =>
    intro es ks cs hk hv hd ih hl hg
    have hn : ∀ k c, .node k c ∈ cs → k = .ENTRY := by
      obtain ⟨mid, hcs, hm⟩ := hg.ok.shape
      intro k c hc
      rw [hcs] at hc
      have : .node k c ∈ mid := by simpa using hc
      exact hm _ this
    obtain ⟨h1, h2⟩ := ih (by simpa only [NoRawKeys] using hl) fun x hx g hg' => by
      obtain ⟨k, hm⟩ := kidsOf_mem hk x hx
      exact (hg.kids _ hm).kids g hg'
    refine quiet_node (kids_quiet hk hn h1) fun _ v hv' hs => ?_
    rw [sublist_filter hv', kids_words hn hk, ← sublist_filter hv', h2] at hs
    exact distinct_words hd hv' hs
  case attributes =>
    intro es e cs hv ih hl hg
    refine quiet_other (by simp) fun g hgm => ?_
    rcases hg.ok.shape g hgm with h | ⟨c, rfl⟩
    · exact quiet_ws h
    · refine quiet_other (by simp) (ih (by simpa only [NoRawKeys] using hl) (fun a ha g' hg' => ?_) c ?_)
      · exact (hg.kids _ (nodesOf_mem a ha)).kids g' hg'
      · exact mem_nodesOf hgm
  case inil => intros; simp_all
  case icons =>
    intro nl v e g vs gs h1 h2 h3 h4 ih1 ih2 hl hg
    rw [NoRawKeysItems] at hl
    intro x hx
    rcases List.mem_cons.1 hx with rfl | hx
    · exact ih1 hl.1 (hg _ (by simp))
    · exact ih2 hl.2 (fun y hy => hg y (List.mem_cons_of_mem _ hy)) x hx
  case knil => intros; simp
  case kpair =>
    intro nl ls ds k ke kt gk v e gv cs es ks h1 h2 h3 h4 h5 h6 h7 ih1 ih2 hl hg
    rw [NoRawKeysEntries] at hl
    obtain ⟨m1, m2⟩ := pair_key_mem h6
    have hcs := hg (ds, cs) (by simp)
    obtain ⟨q1, q2⟩ := ih2 hl.2.2 fun y hy => hg y (List.mem_cons_of_mem _ hy)
    refine ⟨fun x hx => ?_, ?_⟩
    · rcases List.mem_cons.1 hx with rfl | hx
      · exact quiet_pair h6 h3 (ih1 hl.2.1 ((hcs _ m2).kids _ (by simp)))
      · exact q1 x hx
    · rw [List.map_cons, List.map_cons, q2, pair_word h6, calm_key h2 h3 ((hcs _ m1).kids _ (by simp)) hl.1]
      rfl
  case klone =>
    intro nl ls ds k ke kt gk cs es ks h1 h2 h3 h4 h5 ih2 hl hg
    rw [NoRawKeysEntries] at hl
    have hcs := hg (ds, cs) (by simp)
    obtain ⟨q1, q2⟩ := ih2 hl.2.2 fun y hy => hg y (List.mem_cons_of_mem _ hy)
    refine ⟨fun x hx => ?_, ?_⟩
    · rcases List.mem_cons.1 hx with rfl | hx
      · exact quiet_lone h4 h3
      · exact q1 x hx
    · rw [List.map_cons, List.map_cons, q2, lone_word h4, calm_key h2 h3 ((hcs _ (lone_key_mem h4)).kids _ (by simp)) hl.1]
      rfl
  case aone =>
    intro k v e g h1 h2 h3 ih hl hg a ha x hx
    rw [NoRawKeysEntries] at hl
    rw [List.mem_singleton.1 ha] at hx
    simp only [List.mem_cons, List.not_mem_nil, or_false] at hx
    rcases hx with rfl | rfl | rfl
    · exact quiet_token _ _
    · exact quiet_token _ _
    · exact ih hl.2.1 (hg _ (List.mem_singleton.2 rfl) _ (by simp))
  case acons =>
    intro k v e g es e' as h1 h2 h3 h4 h5 ih1 ih2 hl hg a ha
    rw [NoRawKeysEntries] at hl
    rcases List.mem_cons.1 ha with rfl | ha
    · intro x hx
      simp only [List.mem_cons, List.not_mem_nil, or_false] at hx
      rcases hx with rfl | rfl | rfl
      · exact quiet_token _ _
      · exact quiet_token _ _
      · exact ih1 hl.2.1 (hg _ (List.mem_cons_self ..) _ (by simp))
    · exact ih2 hl.2.2 (fun y hy => hg y (List.mem_cons_of_mem _ hy)) a ha

/-! ## Documents -/

theorem dotted_inj : ∀ {a b : List (List Char)}, a ≠ [] → b ≠ [] → (∀ s ∈ a, '.' ∉ s) → (∀ s ∈ b, '.' ∉ s) →
    dotted a = dotted b → a = b := by
  have cut : ∀ {x y : List Char} {u w : List Char}, '.' ∉ x → '.' ∉ y → x ++ '.' :: u = y ++ '.' :: w → x = y ∧ u = w := by
    intro x
    induction x with
    | nil =>
      intro y u w _ hy h
      cases y with
      | nil => simpa using h
      | cons c y => simp only [List.nil_append, List.cons_append, List.cons.injEq] at h; simp [← h.1] at hy
    | cons c x ih =>
      intro y u w hx hy h
      cases y with
      | nil => simp only [List.nil_append, List.cons_append, List.cons.injEq] at h; simp [h.1] at hx
      | cons d y =>
        simp only [List.cons_append, List.cons.injEq] at h
        obtain ⟨rfl, rfl⟩ := ih (fun hm => hx (by simp [hm])) (fun hm => hy (by simp [hm])) h.2
        exact ⟨by rw [h.1], rfl⟩
  intro a
  induction a with
  | nil => intro b h; exact absurd rfl h
  | cons x a ih =>
    intro b _ hb ha hb' h
    cases b with
    | nil => exact absurd rfl hb
    | cons y b =>
      cases a with
      | nil =>
        cases b with
        | nil => simpa [dotted] using h
        | cons z b =>
          simp only [dotted] at h
          exact absurd (by rw [h]; simp) (ha x (by simp))
      | cons z a =>
        cases b with
        | nil =>
          simp only [dotted] at h
          exact absurd (by rw [← h]; simp) (hb' y (by simp))
        | cons w b =>
          simp only [dotted] at h
          obtain ⟨rfl, h'⟩ := cut (ha x (by simp)) (hb' y (by simp)) h
          rw [ih (by simp) (by simp) (fun s hs => ha s (List.mem_cons_of_mem _ hs))
            (fun s hs => hb' s (List.mem_cons_of_mem _ hs)) h']

theorem rootKey_word {ks : List Value} {path : List (List Char)} {ke : Tail} {kt : List Char} {gk : Green}
    {v : Value} {d : Option (List Char)} (h : RootKeyText ks path ke kt) (hn : KeyNode kt gk) (hc : Calm gk)
    (hw : WordKey ⟨ks, path, v, d⟩) :
    keyContent [gk] = dotted path ∧ path ≠ [] ∧ ∀ s ∈ path, '.' ∉ s := by
  cases h with
  | path h1 h2 h3 =>
    exact ⟨calm_key (.scalar (.bare h3) (by simp)) hn hc (by simp [NotRawKey, scalarValue]), h1, fun s hs => (h2 s hs).2⟩
  | other h1 h2 =>
    rcases hw with hw | ⟨w, hw, hd⟩
    · obtain ⟨w, rfl⟩ := hw _ (List.mem_singleton.2 rfl)
      exact absurd rfl (h2 w)
    · simp only [List.cons.injEq, and_true] at hw
      subst hw
      refine ⟨calm_key h1 hn hc (by simp [NotRawKey, scalarValue]), by simp, ?_⟩
      simpa [keyName, scalarValue] using hd

theorem root_words {es : List RootEntry} {kids : List Kid} (h : RootNodes es kids) :
    (∀ e ∈ es, WordKey e) → (∀ e ∈ es, NoRawKeys e.value) → (∀ x ∈ kids, ∀ g ∈ x.2, Calm g) →
    (∀ x ∈ kids, ∀ g ∈ x.2, Quiet g) ∧ kids.map (keyWord ·.2) = es.map (fun e => dotted e.path) ∧
      ∀ e ∈ es, e.path ≠ [] ∧ ∀ s ∈ e.path, '.' ∉ s := by
  induction h with
  | nil => intros; simp
  | @pair ls ds ks path ke kt gk v e gv cs es kids h1 h2 h3 h4 h5 _ ih =>
    intro hw hr hc
    obtain ⟨q1, q2, q3⟩ := ih (fun x hx => hw x (List.mem_cons_of_mem _ hx)) (fun x hx => hr x (List.mem_cons_of_mem _ hx))
      (fun x hx => hc x (List.mem_cons_of_mem _ hx))
    obtain ⟨m1, m2⟩ := pair_key_mem h5
    have hcs := hc (ds, cs) (by simp)
    obtain ⟨w1, w2, w3⟩ := rootKey_word h2 h3 ((hcs _ m1).kids _ (by simp)) (hw _ (List.mem_cons_self ..))
    refine ⟨fun x hx => ?_, ?_, fun x hx => ?_⟩
    · rcases List.mem_cons.1 hx with rfl | hx
      · exact quiet_pair h5 h3 (value_quiet h4 (hr _ (List.mem_cons_self ..)) ((hcs _ m2).kids _ (by simp)))
      · exact q1 x hx
    · rw [List.map_cons, List.map_cons, q2, pair_word h5, w1]
    · rcases List.mem_cons.1 hx with rfl | hx
      · exact ⟨w2, w3⟩
      · exact q3 x hx
  | @lone ls ds ks path ke kt gk cs es kids h1 h2 h3 h4 _ ih =>
    intro hw hr hc
    obtain ⟨q1, q2, q3⟩ := ih (fun x hx => hw x (List.mem_cons_of_mem _ hx)) (fun x hx => hr x (List.mem_cons_of_mem _ hx))
      (fun x hx => hc x (List.mem_cons_of_mem _ hx))
    have hcs := hc (ds, cs) (by simp)
    obtain ⟨w1, w2, w3⟩ := rootKey_word h2 h3 ((hcs _ (lone_key_mem h4)).kids _ (by simp)) (hw _ (List.mem_cons_self ..))
    refine ⟨fun x hx => ?_, ?_, fun x hx => ?_⟩
    · rcases List.mem_cons.1 hx with rfl | hx
      · exact quiet_lone h4 h3
      · exact q1 x hx
    · rw [List.map_cons, List.map_cons, q2, lone_word h4, w1]
    · rcases List.mem_cons.1 hx with rfl | hx
      · exact ⟨w2, w3⟩
      · exact q3 x hx

theorem sublist_two {α β : Type} (f : α → β) (v : β) : ∀ l : List α, [v, v].Sublist (l.map f) ↔
    ∃ l1 x l2 y l3, l = l1 ++ x :: l2 ++ y :: l3 ∧ f x = v ∧ f y = v := by
  intro l
  induction l with
  | nil => simp
  | cons a l ih =>
    rw [List.map_cons, List.sublist_cons_iff, ih]
    constructor
    · rintro (⟨l1, x, l2, y, l3, rfl, h1, h2⟩ | ⟨r, h1, h2⟩)
      · exact ⟨a :: l1, x, l2, y, l3, rfl, h1, h2⟩
      · simp only [List.cons.injEq] at h1
        obtain ⟨h1, rfl⟩ := h1
        obtain ⟨y, hy, hy'⟩ := List.mem_map.1 (List.singleton_sublist.1 h2)
        obtain ⟨l2, l3, rfl⟩ := List.append_of_mem hy
        exact ⟨[], a, l2, y, l3, rfl, h1.symm, hy'⟩
    · rintro ⟨l1, x, l2, y, l3, h, h1, h2⟩
      cases l1 with
      | nil =>
        simp only [List.nil_append, List.cons_append, List.cons.injEq] at h
        obtain ⟨rfl, rfl⟩ := h
        exact .inr ⟨[v], by rw [h1], List.singleton_sublist.2 (List.mem_map.2 ⟨y, by simp, h2⟩)⟩
      | cons b l1 =>
        simp only [List.cons_append, List.cons.injEq] at h
        exact .inl ⟨l1, x, l2, y, l3, by simpa using h.2, h1, h2⟩

theorem document_duplicates {es : List RootEntry} {kids : List Kid} {cs : List Green} (hk : kidsOf [] cs = some kids)
    (h : RootNodes es kids) (hc : Calm (.node .DOCUMENT cs)) (hw : ∀ e ∈ es, WordKey e)
    (hr : ∀ e ∈ es, NoRawKeys e.value) {v : List Char} (hv : v ≠ []) :
    (∃ a b, duplicateWarning a b v ∈ validate (.node .DOCUMENT cs)) ↔
      ∃ l1 e1 l2 e2 l3, es = l1 ++ e1 :: l2 ++ e2 :: l3 ∧ e1.path = e2.path ∧ dotted e1.path = v := by
  have hn : ∀ k c, .node k c ∈ cs → k = .ENTRY := fun k c hm => hc.ok.shape _ hm
  obtain ⟨q1, q2, q3⟩ := root_words h hw hr fun x hx g hg => by
    obtain ⟨k, hm⟩ := kidsOf_mem hk x hx
    exact (hc.kids _ hm).kids g hg
  have hq := kids_quiet hk hn q1
  have e1 : (∃ a b, duplicateWarning a b v ∈ validate (.node .DOCUMENT cs)) ↔
      ∃ a b, duplicateWarning a b v ∈ duplicates 0 cs [] := by
    constructor
    · rintro ⟨a, b, h⟩
      rcases mem_validateNode.1 h with ⟨-, h⟩ | h
      · exact ⟨a, b, h⟩
      · exact absurd h (quiet_kids hq)
    · rintro ⟨a, b, h⟩
      exact ⟨a, b, mem_validateNode.2 (.inl ⟨.inl rfl, h⟩)⟩
  rw [e1, dups_iff hv, sublist_filter hv, kids_words hn hk, ← sublist_filter hv, q2, sublist_two]
  constructor
  · rintro ⟨l1, x, l2, y, l3, rfl, h1, h2⟩
    obtain ⟨x1, x2⟩ := q3 x (by simp)
    obtain ⟨y1, y2⟩ := q3 y (by simp)
    exact ⟨l1, x, l2, y, l3, rfl, dotted_inj x1 y1 x2 y2 (by rw [h1, h2]), h1⟩
  · rintro ⟨l1, x, l2, y, l3, rfl, h1, h2⟩
    exact ⟨l1, x, l2, y, l3, rfl, h2, by rw [← h1]; exact h2⟩

end Styx.Cst
