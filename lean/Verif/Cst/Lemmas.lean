import Verif.Cst.Spec
import Verif.Tokenizer.RunLemmas

/-! # The tree has the tokens as its leaves; the fuel is enough -/

namespace Styx.Cst

open Styx Styx.Spec

theorem leavesL_append (a b : List Green) : leavesL (a ++ b) = leavesL a ++ leavesL b := by
  induction a with
  | nil => simp [leavesL]
  | cons g gs ih => simp [leavesL, ih]

theorem texts_append (a b : List Green) : Green.texts (a ++ b) = Green.texts a ++ Green.texts b := by
  induction a with
  | nil => simp [Green.texts]
  | cons g gs ih => simp [Green.texts, ih]

theorem _root_.Styx.Spec.TokensLeaves.append {a b la lb} (ha : TokensLeaves a la) (hb : TokensLeaves b lb) :
    TokensLeaves (a ++ b) (la ++ lb) := by
  induction ha with
  | nil => simpa
  | cons h _ ih =>
    rw [List.append_assoc]
    exact .cons h ih

/-- Tag tokens look like tags. -/
def TagsOk (ts : List Token) : Prop := ∀ t ∈ ts, t.kind = .tag → KindText .tag t.text

/-- From `st` to `st'` the tokens that are gone are the leaves of the trees `g`. -/
def Eats (st : St) (g : List Green) (st' : St) : Prop :=
  ∃ pre, st.toks = pre ++ st'.toks ∧ (TagsOk st.toks → TokensLeaves pre (leavesL g))

theorem Eats.refl {st st' : St} (h : st'.toks = st.toks) : Eats st [] st' :=
  ⟨[], by simp [h], fun _ => by simpa [leavesL] using TokensLeaves.nil⟩

theorem Eats.trans {st st' st'' : St} {g g' : List Green} (h : Eats st g st') (h' : Eats st' g' st'') :
    Eats st (g ++ g') st'' := by
  obtain ⟨p, h1, h2⟩ := h
  obtain ⟨q, h3, h4⟩ := h'
  refine ⟨p ++ q, by rw [h1, h3, List.append_assoc], fun ht => ?_⟩
  rw [leavesL_append]
  refine (h2 ht).append (h4 ?_)
  intro t htm hk
  exact ht t (by rw [h1]; simp [htm]) hk

theorem Eats.node {st st' : St} {g : List Green} (k : SyntaxKind) (h : Eats st g st') :
    Eats st [.node k g] st' := by
  obtain ⟨p, h1, h2⟩ := h
  exact ⟨p, h1, fun ht => by simpa [leavesL, leaves] using h2 ht⟩

theorem Eats.congr {st st' st₁ st₂ : St} {g : List Green} (h : Eats st g st')
    (h1 : st₁.toks = st.toks) (h2 : st₂.toks = st'.toks) : Eats st₁ g st₂ := by
  obtain ⟨p, h3, h4⟩ := h
  exact ⟨p, by rw [h1, h2, h3], fun ht => h4 (by rwa [h1] at ht)⟩

theorem Eats.le {st st' : St} {g : List Green} (h : Eats st g st') :
    st'.toks.length ≤ st.toks.length := by
  obtain ⟨p, h1, _⟩ := h
  simp [h1]

theorem eats_cons {t : Token} {ts : List Token} {e e' : List PErr} (hk : t.kind ≠ .tag) :
    Eats ⟨t :: ts, e⟩ [.token (SyntaxKind.ofToken t.kind) t.text] ⟨ts, e'⟩ :=
  ⟨[t], rfl, fun _ => by
    have := TokensLeaves.cons (.one hk) .nil
    simpa [leavesL, leaves] using this⟩

theorem bump_eats (st : St) (hk : st.peek ≠ .tag) : Eats st st.bump.1 st.bump.2 := by
  obtain ⟨ts, e⟩ := st
  cases ts with
  | nil => exact Eats.refl rfl
  | cons t ts => exact eats_cons (by simpa [St.peek] using hk)

theorem bumpWhile_eats (p : TokenKind → Bool) (hp : p .tag = false) (ts : List Token) (e e' : List PErr) :
    Eats ⟨ts, e⟩ (bumpWhile p ts).1 ⟨(bumpWhile p ts).2, e'⟩ := by
  induction ts with
  | nil => exact Eats.refl rfl
  | cons t ts ih =>
    rw [bumpWhile]
    split
    · rename_i h
      have hk : t.kind ≠ .tag := by rintro h'; simp [h', hp] at h
      exact (eats_cons (e' := e) hk).trans ih
    · exact Eats.refl rfl

theorem bumpDocs_eats (ts : List Token) : ∀ (a : Bool) (e e' : List PErr),
    Eats ⟨ts, e⟩ (bumpDocs a ts).1 ⟨(bumpDocs a ts).2, e'⟩ := by
  induction ts with
  | nil => intro a e e'; exact Eats.refl rfl
  | cons t ts ih =>
    intro a e e'
    rw [bumpDocs]
    split
    · rename_i h
      have hk : t.kind ≠ .tag := by rintro h'; simp [h'] at h
      exact (eats_cons (e' := e) hk).trans (ih true e e')
    · exact Eats.refl rfl

theorem skipTrivia_eats (st : St) : Eats st st.skipTrivia.1 st.skipTrivia.2 :=
  bumpWhile_eats _ rfl _ _ _

theorem skipWs_eats (st : St) : Eats st st.skipWs.1 st.skipWs.2 :=
  bumpWhile_eats _ rfl _ _ _

theorem bumpIf_eats (st st' : St) (c : Prop) [Decidable c] (hc : c → st.peek ≠ .tag)
    (h : st'.toks = st.toks) :
    Eats st (if c then st.bump else ([], st')).1 (if c then st.bump else ([], st')).2 := by
  split
  · exact bump_eats st (hc (by assumption))
  · exact Eats.refl h

theorem skipIf_eats (st : St) (c : Prop) [Decidable c] (m : Msg) :
    Eats st (if c then (st.err m).skipWs else ([], st)).1 (if c then (st.err m).skipWs else ([], st)).2 := by
  split
  · exact (skipWs_eats _).congr rfl rfl
  · exact Eats.refl rfl

theorem heredoc_eats (st : St) (h : st.peek = .heredocStart) :
    Eats st st.heredoc.1 st.heredoc.2 := by
  simp only [St.heredoc]
  exact Eats.node .HEREDOC (Eats.trans (Eats.trans (bump_eats st (by simp [h]))
    (bumpIf_eats _ _ _ (by intro h; simp [h]) rfl)) (bumpIf_eats _ _ _ (by intro h; simp [h]) rfl))

/-! ## Tags -/

theorem splitSlashAt_last (n : List Char) (h : '/' ∉ n) : splitSlashAt n = [n] := by
  induction n with
  | nil => rfl
  | cons c n ih =>
    cases n with
    | nil => rfl
    | cons d n =>
      have hc : c ≠ '/' := by rintro rfl; simp at h
      rw [splitSlashAt, if_neg (by simp [hc]), ih (by grind)]

theorem splitSlashAt_cons (n r : List Char) (h : '/' ∉ n) :
    splitSlashAt (n ++ '/' :: '@' :: r) = n :: splitSlashAt r := by
  induction n with
  | nil => simp [splitSlashAt]
  | cons c n ih =>
    have hc : c ≠ '/' := by rintro rfl; simp at h
    have ih := ih (by grind)
    cases n with
    | nil =>
      simp only [List.cons_append, List.nil_append] at ih ⊢
      rw [splitSlashAt, if_neg (by simp [hc]), ih]
    | cons d n =>
      simp only [List.cons_append] at ih ⊢
      rw [splitSlashAt, if_neg (by simp [hc]), ih]

theorem splitSlashAt_chain (n : List Char) (ns : List (List Char)) (h : '/' ∉ n)
    (hs : ∀ m ∈ ns, '/' ∉ m) :
    splitSlashAt (n ++ (ns.map (['/', '@'] ++ ·)).flatten) = n :: ns := by
  induction ns generalizing n with
  | nil => simpa using splitSlashAt_last n h
  | cons m ns ih =>
    rw [List.map_cons, List.flatten_cons, List.append_assoc]
    show splitSlashAt (n ++ '/' :: '@' :: (m ++ _)) = _
    rw [splitSlashAt_cons n _ h, ih m (hs m (by simp)) (fun x hx => hs x (by simp [hx]))]

theorem tagTree_leaves (seg : List Char) (segs : List (List Char)) (payload : List Green) :
    leaves (tagTree (seg :: segs) payload) =
      (.TAG_TOKEN, segmentText seg) ::
        (segs.map (fun m => [(.SLASH, ['/']), (.TAG_TOKEN, segmentText m)])).flatten ++
        leavesL payload := by
  induction segs generalizing seg with
  | nil => simp [tagTree, leaves, leavesL]
  | cons s segs ih =>
    rw [tagTree]
    simp only [leaves, leavesL, ih s]
    simp

theorem tagName_slash {n : List Char} (h : TagName n) : '/' ∉ n ∧ n.head? ≠ some '@' := by
  obtain ⟨c, r, rfl, hc, hr⟩ := h
  constructor
  · intro hm
    rcases List.mem_cons.mp hm with rfl | hm
    · rcases hc with hc | hc <;> revert hc <;> decide
    · rcases hr _ hm with h | h | h <;> revert h <;> decide
  · simp only [List.head?_cons, ne_eq, Option.some.injEq]
    rintro rfl
    rcases hc with hc | hc <;> revert hc <;> decide

theorem tag_eats (t : Token) (ts : List Token) (e : List PErr) (st' : St) (payload : List Green)
    (hk : t.kind = .tag) (h : Eats ⟨ts, e⟩ payload st') :
    Eats ⟨t :: ts, e⟩ [tagTree (splitSlashAt t.text) payload] st' := by
  obtain ⟨p, h1, h2⟩ := h
  refine ⟨t :: p, by simpa using h1, fun ht => ?_⟩
  have h3 := h2 (fun x hx => ht x (by grind))
  obtain ⟨n, ns, hs, hn, hns⟩ := ht t (by simp) hk
  have e1 : t.text = ('@' :: n) ++ (ns.map (['/', '@'] ++ ·)).flatten := hs
  have hn' := tagName_slash hn
  rw [e1, splitSlashAt_chain _ _ (by simpa using hn'.1) (fun m hm => (tagName_slash (hns m hm)).1)]
  simp only [leavesL, List.append_nil]
  rw [tagTree_leaves]
  have e2 : segmentText ('@' :: n) = '@' :: n := by simp [segmentText]
  have e3 : ns.map (fun m => [(SyntaxKind.SLASH, ['/']), (SyntaxKind.TAG_TOKEN, segmentText m)]) =
      ns.map (fun m => [(SyntaxKind.SLASH, ['/']), (SyntaxKind.TAG_TOKEN, '@' :: m)]) := by
    apply List.map_congr_left
    intro m hm
    simp [segmentText, (tagName_slash (hns m hm)).2]
  rw [e2, e3]
  exact .cons (.chain n ns hk hs hn'.1 (fun m hm => (tagName_slash (hns m hm)).1)) h3

/-! ## The functions that call each other -/

/-- What each function does with the tokens, at fuel `n`. -/
def AllEat (source : List Char) (n : Nat) : Prop :=
  (∀ c st r, parseEntries source n c st = some r → Eats st r.1 r.2) ∧
  (∀ c st r, parseEntry source n c st = some r → Eats st [r.1] r.2) ∧
  (∀ c k st r, parseValues source n c k st = some r → Eats st r.1 r.2) ∧
  (∀ c st r, parseAttributes source n c st = some r → Eats st r.1 r.2) ∧
  (∀ st r, st.peek ≠ .tag → parseAttribute source n st = some r → Eats st [r.1] r.2) ∧
  (∀ st r, parseAtom source n st = some r → Eats st r.1 r.2) ∧
  (∀ st r, parseItems source n st = some r → Eats st r.1 r.2)

theorem atAttribute_peek {source : List Char} {st : St} (h : st.atAttribute source = true) :
    st.peek = .bareScalar := by
  obtain ⟨ts, e⟩ := st
  cases ts with
  | nil => simp [St.atAttribute] at h
  | cons t ts => simp [St.atAttribute] at h; simp [St.peek, h.1]

theorem allEat (source : List Char) : ∀ n, AllEat source n := by
  intro n
  induction n with
  | zero =>
    refine ⟨?_, ?_, ?_, ?_, ?_, ?_, ?_⟩ <;> intros <;>
      simp_all [parseEntries, parseEntry, parseValues, parseAttributes, parseAttribute, parseAtom,
        parseItems]
  | succ n ih =>
    obtain ⟨iEntries, iEntry, iValues, iAttrs, iAttr, iAtom, iItems⟩ := ih
    refine ⟨?_, ?_, ?_, ?_, ?_, ?_, ?_⟩
    · intro c st r h
      rw [parseEntries] at h
      simp only [Option.bind_eq_bind] at h
      have h1 := (skipTrivia_eats st).trans (bumpDocs_eats st.skipTrivia.2.toks false
        st.skipTrivia.2.errors st.skipTrivia.2.errors)
      split at h
      · cases h
        exact h1
      · simp only [Option.bind_eq_some_iff, Prod.exists, Option.some.injEq] at h
        obtain ⟨g3, st3, h3, g6, st6, h6, rfl⟩ := h
        exact ((((h1.trans (iEntry _ _ _ h3)).trans (skipWs_eats _)).trans
          (bumpIf_eats _ _ _ (by intro h; rcases h with h | h <;> simp [h]) rfl)).trans
            (iEntries _ _ _ h6))
    · intro c st r h
      rw [parseEntry] at h
      simp only [Option.bind_eq_bind] at h
      split at h
      · simp only [Option.bind_eq_some_iff, Prod.exists, Option.some.injEq] at h
        obtain ⟨g, st1, h1, rfl⟩ := h
        exact ((iAttrs _ _ _ h1).node .ATTRIBUTES).node .ENTRY
      · simp only [Option.bind_eq_some_iff, Prod.exists, Option.some.injEq] at h
        obtain ⟨g1, st1, h1, g3, st3, h3, rfl⟩ := h
        have e1 : Eats st g1 st1 := by
          split at h1
          · cases h1; exact Eats.refl rfl
          · simp only [Option.bind_eq_some_iff, Prod.exists, Option.some.injEq, Prod.mk.injEq] at h1
            obtain ⟨g, st', h1, rfl, rfl⟩ := h1
            exact (iAtom _ _ h1).node .KEY
        exact ((e1.trans (skipWs_eats _)).trans (iValues _ _ _ _ h3)).node .ENTRY
    · intro c k st r h
      rw [parseValues] at h
      simp only [Option.bind_eq_bind] at h
      split at h
      · cases h; exact Eats.refl rfl
      · simp only [Option.bind_eq_some_iff, Prod.exists, Option.some.injEq] at h
        obtain ⟨g1, st1, h1, g3, st3, h3, rfl⟩ := h
        have e1 : Eats st g1 st1 := by
          split at h1
          · simp only [Option.bind_eq_some_iff, Prod.exists, Option.some.injEq, Prod.mk.injEq] at h1
            obtain ⟨g, st', h1, rfl, rfl⟩ := h1
            exact ((iAttrs _ _ _ h1).node .ATTRIBUTES).node .VALUE
          · simp only [Option.bind_eq_some_iff, Prod.exists, Option.some.injEq, Prod.mk.injEq] at h1
            obtain ⟨g, st', h1, rfl, rfl⟩ := h1
            refine ((iAtom _ _ h1).congr ?_ rfl).node .VALUE
            split <;> rfl
        exact (e1.trans (skipWs_eats _)).trans (iValues _ _ _ _ h3)
    · intro c st r h
      rw [parseAttributes] at h
      simp only [Option.bind_eq_bind] at h
      split at h
      · rename_i hat
        simp only [Option.bind_eq_some_iff, Prod.exists] at h
        obtain ⟨g1, st1, h1, h⟩ := h
        have e1 := (iAttr _ _ (by simp [atAttribute_peek hat]) h1).trans (skipWs_eats _)
        split at h
        · cases h; exact e1
        · simp only [Option.bind_eq_some_iff, Prod.exists, Option.some.injEq] at h
          obtain ⟨g3, st3, h3, rfl⟩ := h
          exact e1.trans (iAttrs _ _ _ h3)
      · cases h; exact Eats.refl rfl
    · intro st r hk h
      rw [parseAttribute] at h
      simp only [Option.bind_eq_bind, Option.bind_eq_some_iff, Prod.exists, Option.some.injEq] at h
      obtain ⟨g4, st4, h4, rfl⟩ := h
      exact (((Eats.trans (Eats.trans (bump_eats st hk)
        (bumpIf_eats _ (st.bump.2.err .expectedGt) (st.bump.2.peek = .gt) (by intro h; simp [h]) rfl))
        (skipIf_eats _ _ _))).trans (iAtom _ _ h4)).node .ATTRIBUTE
    · intro st r h
      rw [parseAtom.eq_def] at h
      simp only [Option.bind_eq_bind] at h
      split at h
      · rename_i hk
        simp only [Option.bind_eq_some_iff, Prod.exists, Option.some.injEq] at h
        obtain ⟨g2, st2, h2, rfl⟩ := h
        exact ((((bump_eats st (by simp [hk])).trans (iEntries _ _ _ h2)).trans
          (skipTrivia_eats _)).trans (bumpIf_eats _ (st2.skipTrivia.2.err .unclosedObject) (st2.skipTrivia.2.peek = .rbrace)
            (by intro h; simp [h]) rfl)).node .OBJECT
      · rename_i hk
        simp only [Option.bind_eq_some_iff, Prod.exists, Option.some.injEq] at h
        obtain ⟨g2, st2, h2, rfl⟩ := h
        exact (((bump_eats st (by simp [hk])).trans (iItems _ _ h2)).trans
          (bumpIf_eats _ _ _ (by intro h; simp [h]) rfl)).node .SEQUENCE
      · rename_i hk
        cases h
        exact (bump_eats st (by simp [hk])).node .UNIT
      · rename_i hk
        obtain ⟨ts, e⟩ := st
        cases ts with
        | nil => simp [St.peek] at hk
        | cons t ts =>
          simp only [Option.bind_eq_some_iff, Prod.exists, Option.some.injEq] at h
          obtain ⟨g, st1, h1, rfl⟩ := h
          refine tag_eats t ts e st1 g (by simpa [St.peek] using hk) ?_
          split at h1
          · simp only [Option.bind_eq_some_iff, Prod.exists, Option.some.injEq, Prod.mk.injEq] at h1
            obtain ⟨g', st', h1, rfl, rfl⟩ := h1
            exact (iAtom _ _ h1).node .TAG_PAYLOAD
          · cases h1; exact Eats.refl rfl
      · rename_i hk
        cases h
        exact (bump_eats st (by simp [hk])).node .SCALAR
      · rename_i hk
        cases h
        exact (bump_eats st (by simp [hk])).node .SCALAR
      · rename_i hk
        cases h
        exact (bump_eats st (by simp [hk])).node .SCALAR
      · rename_i hk
        cases h
        exact heredoc_eats st hk
      · rename_i hk _ _ _ _
        cases h
        exact (bump_eats (st.err _) (by simpa [St.err, St.peek] using hk)).congr rfl rfl
    · intro st r h
      rw [parseItems] at h
      simp only [Option.bind_eq_bind] at h
      split at h
      · cases h
        exact (skipTrivia_eats st).congr rfl rfl
      · split at h
        · cases h
          exact skipTrivia_eats st
        · simp only [Option.bind_eq_some_iff, Prod.exists, Option.some.injEq] at h
          obtain ⟨g2, st2, h2, g4, st4, h4, rfl⟩ := h
          exact (((skipTrivia_eats st).trans (((iAtom _ _ h2).node .KEY).node .ENTRY)).trans
            (skipWs_eats _)).trans (iItems _ _ h4)

end Styx.Cst
