import Verif.Swift.ReadPaths
import Verif.Impl.ReadRoot

/-! # How the Swift parser reads the documents of `Verif.Swift.Spec` -/

namespace Styx.Swift

open Styx.Spec
open Styx.Impl (sharedFollows_blank sharedKey_tail sharedKey_facts kind_shed nest_shed shedEntries_cons dotted_join)

/-- The token ends an entry that has no value yet (Parser.swift:174, 288). -/
def endsKey (t : Tok) : Bool := t.nl || t.kind == .eof || t.kind == .rBrace

/-- The token behind an entry without value. -/
theorem loneEnd_next {U : Classes} (hU : Standard U) {tr t : List Char} {st : St} (htr : Trailing tr) (h : LoneEnd tr t)
    (hk : ∀ e, kindOf U (behindBlank (tr ++ t)) ≠ .error e) (hr : Behind (tr ++ t) st) :
    endsKey (nextToken U st).1 = true := by
  obtain ⟨ws, hat⟩ := hr.at (U := U)
  unfold endsKey
  rw [hat.kind, hat, readToken_nl]
  unfold behindBlank at hk ⊢
  cases htr with
  | none =>
    rw [LoneEnd, if_pos rfl] at h
    obtain ⟨b, u, rfl, hb, h⟩ := h
    rw [List.nil_append, skip_blanks hb] at hk ⊢
    rcases h with h | ⟨r, rfl⟩
    · rcases lineEnd_next h (false || !b.isEmpty) false with h | h | ⟨r, h⟩
      · rw [h]; simp [kindOf, readToken]
      · rw [h]; rfl
      · rw [h] at hk
        obtain ⟨e, he⟩ := cr_error U hU r
        exact (hk e he).elim
    · rw [Swift.skip_start (Impl.start_char (by decide) (by decide))]
      rfl
  | @comment b c hb hc =>
    obtain ⟨r, rfl, hr', -⟩ := hc
    rw [List.append_assoc, skip_blanks hb, List.cons_append, List.cons_append, skip_slashes, skip_comment hr']
    rcases comment_next (false || !b.isEmpty) false t with h | h
    · rw [h]; simp [kindOf, readToken]
    · rw [h]; rfl

theorem opens_not_ends {t : Tok} (h1 : opens t.kind = true) (h2 : t.nl = false) : endsKey t = false := by
  unfold endsKey
  rw [h2]
  cases hk : t.kind <;> rw [hk] at h1 <;> first | rfl | cases h1

/-- What the parser does with the key of a root entry. -/
theorem rootKey_facts {U : Classes} (hU : Standard U) {ks path ke kt} (h : SwiftRootKey ks path ke kt) :
    path ≠ [] ∧ ∃ kv, Reads U kv ke kt ∧ shed kv = kv ∧ Impl.isObject kv = false ∧ Impl.validKey kv = true ∧
      (ke = .word ∨ ke = .closed) ∧
      ((∃ s, dottedKey kv = some s ∧ Impl.splitDots s = path ∧ [] ∉ path ∧
          2 ≤ path.length ∧ (ks = path.map fun s => scalarValue s .bare)) ∨
        (dottedKey kv = none ∧ ks = [kv] ∧ [keyText kv] = path)) := by
  cases h with
  | @path segs h1 h2 h3 =>
    have hg : Impl.GoodPath path := ⟨h1, fun s hs => (h2 s hs).2⟩
    refine ⟨h1, scalarValue (dotted path) .bare, reads_key hU (.scalar (.bare h3) (by simp)), rfl, rfl, rfl, .inl rfl, ?_⟩
    match path, h1, h2, h3, hg with
    | [s], _, h2, h3, _ =>
      right
      have hs := h2 s (by simp)
      exact ⟨by simp [dottedKey, scalarValue, dotted, hs.2], rfl, rfl⟩
    | s :: s' :: ss, _, h2, _, hg =>
      left
      refine ⟨dotted (s :: s' :: ss), ?_, ?_, fun hn => (h2 [] hn).1 rfl, by simp, rfl⟩
      · have : '.' ∈ dotted (s :: s' :: ss) := by rw [dotted_join]; exact Impl.join_dot
        simp only [dottedKey, scalarValue, if_pos this]
      · rw [dotted_join]; exact Impl.splitDots_join hg
  | @other k e s h1 h2 h3 h4 =>
    obtain ⟨f1, f2, f3, -⟩ := sharedKey_facts (shared_key h1)
    refine ⟨by simp, k, reads_key hU h1, f3, f1, f2, sharedKey_tail (shared_key h1), .inr ⟨?_, rfl, ?_⟩⟩
    · cases h1 with
      | @scalar v k _ _ _ _ =>
        cases k with
        | bare => exact (h2 v rfl).elim
        | _ => rfl
      | unit => rfl
      | tag => rfl
      | tagged => exact (h3 _ _ rfl).elim
    · cases h1 with
      | scalar => rfl
      | unit => rfl
      | tag => rfl
      | tagged => exact (h3 _ _ rfl).elim

theorem kind_ite {k : Kind} {p : Prop} [Decidable p] {x y : Tok × St} (hx : x.1.kind ≠ k) (hy : y.1.kind ≠ k) :
    (if p then x else y).1.kind ≠ k := by
  split
  · exact hx
  · exact hy

/-- A root entry does not begin with a brace. -/
theorem rootKey_not_brace {U : Classes} {ks path ke kt} (h : SwiftRootKey ks path ke kt) (x : List Char) :
    kindOf U (kt ++ x) ≠ .lBrace := by
  have hh : ∃ c r, kt = c :: r ∧ c ≠ '{' := by
    have hb : ∀ {s}, BareText s → ∃ c r, s = c :: r ∧ c ≠ '{' := by
      intro s hs
      cases s with
      | nil => obtain ⟨-, c, r, h, -⟩ := hs; cases h
      | cons c r =>
        refine ⟨c, r, rfl, ?_⟩
        rintro rfl
        have := (hs.1 '{' (by simp)).1
        exact absurd this (by decide)
    cases h with
    | path _ _ h3 => exact hb h3
    | other h1 =>
      cases h1 with
      | scalar h _ =>
        cases h with
        | bare h => exact hb h
        | quoted => exact ⟨'"', _, rfl, by decide⟩
        | raw => exact ⟨'r', _, rfl, by decide⟩
        | heredoc => exact ⟨'<', _, rfl, by decide⟩
      | unit => exact ⟨'@', _, rfl, by decide⟩
      | tag => exact ⟨'@', _, rfl, by decide⟩
      | tagged => exact ⟨'@', _, rfl, by decide⟩
  obtain ⟨c, r, rfl, hc⟩ := hh
  unfold kindOf
  rw [List.cons_append, readToken]
  rw [if_neg (by simpa using hc)]
  refine kind_ite nofun ?_
  refine kind_ite nofun ?_
  refine kind_ite nofun ?_
  refine kind_ite nofun ?_
  refine kind_ite nofun ?_
  refine kind_ite nofun ?_
  refine kind_ite ?_ ?_
  · cases readQuoted 0 (r ++ x) <;> nofun
  refine kind_ite ?_ ?_
  · refine kind_ite ?_ nofun
    cases Impl.readRaw ('"' :: List.replicate ((r ++ x).takeWhile (· == '#')).length '#')
      ((r ++ x).drop ((r ++ x).takeWhile (· == '#')).length).tail <;> nofun
  refine kind_ite ?_ ?_
  · refine kind_ite ?_ nofun
    cases readHeredoc U (r ++ x).tail <;> nofun
  exact kind_ite nofun nofun

theorem rootEntry_eq {U : Classes} {n : Nat} {ps : Paths} {st st2 : St} {kv : Value}
    (h : parseValue U n st = .ok kv st2) (ho : Impl.isObject kv = false) (hv : Impl.validKey kv = true) :
    parseRootEntry U n ps st =
      (match dottedKey kv with
      | some s =>
        if (Impl.splitDots s).contains [] then fail .emptySegment
        else if endsKey (nextToken U st2).1 then do
          let ps' ← track ps (Impl.splitDots s) .terminal
          pure (Impl.nestPath (.mk none none none) (Impl.splitDots s), ps')
        else do
          let v ← parseValue U n
          let ps' ← track ps (Impl.splitDots s) (Impl.valueKind v)
          pure (Impl.nestPath v (Impl.splitDots s), ps')
      | none =>
        if endsKey (nextToken U st2).1 then do
          let ps' ← track ps [keyText kv] .terminal
          pure (.mk kv (.mk none none none) none, ps')
        else do
          let v ← parseValue U n
          let ps' ← track ps [keyText kv] (Impl.valueKind v)
          pure (.mk kv v none, ps') : P (Entry × Paths)) st2 := by
  rw [parseRootEntry, bind_ok h]
  split
  · cases ho
  · rw [hv, if_neg (by simp)]
    cases dottedKey kv with
    | none =>
      simp only
      rw [bind_cur]
      rfl
    | some s =>
      simp only
      by_cases hc : (Impl.splitDots s).contains [] = true
      · rw [if_pos hc, if_pos hc]
      · rw [if_neg hc, if_neg hc, bind_cur]
        rfl

theorem root_value {U : Classes} (hU : Standard U) {ks path ke kt b v e s tail ws nl} {st : St} {ps : Paths}
    {doc : Option (List Char)} (hk : SwiftRootKey ks path ke kt) (hb : Blanks b) (hbn : b ≠ []) (hv : Reads U v e s)
    (hf : SharedFollows e tail) (hg : NoGt U tail) (hr : At U ws nl (kt ++ (b ++ (s ++ tail))) st) :
    ∃ N st' en, Behind tail st' ∧ shedEntries [nestKeys v ks doc] = [en] ∧
      ∀ n, N ≤ n → parseRootEntry U n ps st =
        (track ps path (objectKind v) >>= fun ps' => pure (en, ps')) st' := by
  obtain ⟨hne, kv, hkr, f3, f1, f2, hke, hcase⟩ := rootKey_facts hU hk
  obtain ⟨vs, vo⟩ := hv.start tail hf
  obtain ⟨N, st1, h1, h2⟩ := hkr.reads _ _ _ st (sharedFollows_blank hke hb hbn _) (blanks_noGt hb vs vo) hr
  have hat := h1.blanks (U := U) hb hbn vs
  have hend := opens_not_ends (t := (nextToken U st1).1) (by rw [hat.kind]; exact vo) (by rw [hat, readToken_nl])
  obtain ⟨N', st', h3, h4⟩ := hv.reads tail _ _ st1 hf hg hat
  rw [f3] at h2
  rcases hcase with ⟨s, e1, e2, e3, e4, e5⟩ | ⟨e1, e2, e3⟩
  · refine ⟨N + N', st', Impl.nestPath (shed v) path, h3, ?_, ?_⟩
    · rw [e5]; exact nest_shed v path doc hne
    · intro n hn
      rw [rootEntry_eq (h2 n (by omega)).1 f1 f2, e1]
      simp only [e2]
      rw [if_neg (by simpa using e3), if_neg (by rw [hend]; simp), bind_ok (h4 n (by omega)).1, kind_shed]
  · refine ⟨N + N', st', .mk kv (shed v) none, h3, ?_, ?_⟩
    · rw [e2, nestKeys, shedEntries, f3]; rfl
    · intro n hn
      rw [rootEntry_eq (h2 n (by omega)).1 f1 f2, e1]
      simp only [e3]
      rw [if_neg (by rw [hend]; simp), bind_ok (h4 n (by omega)).1, kind_shed]

theorem root_lone {U : Classes} (hU : Standard U) {ks seg ke kt tr t ws nl} {st : St} {ps : Paths}
    {doc : Option (List Char)} (hk : SwiftRootKey ks [seg] ke kt) (htr : Trailing tr)
    (hf : SharedFollows ke (tr ++ t)) (hend : LoneEnd tr t) (hg : NoGt U (tr ++ t))
    (hkd : ∀ e, kindOf U (behindBlank (tr ++ t)) ≠ .error e) (hr : At U ws nl (kt ++ (tr ++ t)) st) :
    ∃ N st' en, Behind (tr ++ t) st' ∧ shedEntries [nestKeys (.mk none none none) ks doc] = [en] ∧
      ∀ n, N ≤ n → parseRootEntry U n ps st =
        (track ps [seg] .terminal >>= fun ps' => pure (en, ps')) st' := by
  obtain ⟨hne, kv, hkr, f3, f1, f2, hke, hcase⟩ := rootKey_facts hU hk
  obtain ⟨N, st1, h1, h2⟩ := hkr.reads _ _ _ st hf hg hr
  have hend := loneEnd_next hU htr hend hkd h1
  rw [f3] at h2
  rcases hcase with ⟨s, -, -, -, e4, -⟩ | ⟨e1, e2, e3⟩
  · simp at e4
  · refine ⟨N, st1, .mk kv (.mk none none none) none, h1, ?_, ?_⟩
    · rw [e2, nestKeys, shedEntries, f3]; rfl
    · intro n hn
      rw [rootEntry_eq (h2 n (by omega)).1 f1 f2, e1]
      simp only [e3]
      rw [if_pos hend]

/-- The text `t` is read as the root entries `es` if the paths are in order, and rejected otherwise. -/
def ReadsRoot (U : Classes) (es : List RootEntry) (t : List Char) : Prop :=
  (kindOf U (behindBlank t) = .eof ∨
    (opens (kindOf U (behindBlank t)) = true ∧ kindOf U (behindBlank t) ≠ .lBrace)) ∧
  ∀ ws nl st ps h, At U ws nl (behindBlank t) st → Tracks h ps → Knows h ps → PathsInOrder h →
    (PathsInOrder (h ++ allPaths es) →
      ∃ N st', ∀ n, N ≤ n → parseRootEntries U n ps st = .ok (shedEntries (es.map RootEntry.tree)) st') ∧
    (¬ PathsInOrder (h ++ allPaths es) → ∃ N e, ∀ n, N ≤ n → parseRootEntries U n ps st = .fail e)

theorem ReadsRoot.kind {U : Classes} {es : List RootEntry} {t : List Char} (h : ReadsRoot U es t) :
    (∀ e, kindOf U (behindBlank t) ≠ .error e) ∧ kindOf U (behindBlank t) ≠ .gt := by
  rcases h.1 with h | ⟨h, -⟩
  · rw [h]; simp
  · constructor
    · intro e hh; rw [hh] at h; cases h
    · intro hh; rw [hh] at h; cases h

theorem bind_fail {α β : Type} {p : P α} {f : α → P β} {st : St} {e : Err} (h : p st = .fail e) :
    (p >>= f) st = .fail e := by
  show P.bind p f st = _
  unfold P.bind
  rw [h]

theorem root_step {U : Classes} {ps : Paths} {h : History} {e : RootEntry} {es : List RootEntry}
    {t tail : List Char} {st st' : St} {en : Entry} {N : Nat} (hr : ReadsRoot U es t)
    (hne : (nextToken U st).1.kind ≠ .eof) (hb : behindBlank tail = behindBlank t) (h1 : Behind tail st')
    (ht : Tracks h ps) (hkn : Knows h ps) (hio : PathsInOrder h) (hp : e.path ≠ [])
    (h4 : shedEntries [e.tree] = [en]) (h5 : ∀ n, N ≤ n → parseRootEntry U n ps st =
      (track ps e.path (objectKind e.value) >>= fun ps' => pure (en, ps')) st') :
    (PathsInOrder (h ++ allPaths (e :: es)) → ∃ N st', ∀ n, N ≤ n →
      parseRootEntries U n ps st = .ok (shedEntries ((e :: es).map RootEntry.tree)) st') ∧
    (¬ PathsInOrder (h ++ allPaths (e :: es)) → ∃ N e, ∀ n, N ≤ n → parseRootEntries U n ps st = .fail e) := by
  have hcons : h ++ allPaths (e :: es) = h ++ [(e.path, objectKind e.value)] ++ allPaths es := by simp [allPaths]
  rw [hcons]
  rcases track_cases (k := objectKind e.value) ht hkn hio hp with ⟨ho, ps', t1, t2, t3⟩ | ⟨ho, er, t1⟩
  · have h5' : ∀ n, N ≤ n → parseRootEntry U n ps st = .ok (en, ps') st' := by
      intro n hn
      rw [h5 n hn, bind_ok (t1 _)]
      rfl
    obtain ⟨ws, hat⟩ := h1.at (U := U)
    rw [hb] at hat
    obtain ⟨r1, r2⟩ := hr.2 _ _ st' ps' _ hat t2 t3 ho
    constructor
    · intro hall
      obtain ⟨N', st'', h6⟩ := r1 hall
      refine ⟨N + N' + 1, st'', ?_⟩
      intro n hn
      obtain ⟨n, rfl⟩ : ∃ m, n = m + 1 := ⟨n - 1, by omega⟩
      rw [parseRootEntries, bind_cur, if_neg hne, bind_ok (h5' n (by omega))]
      simp only
      rw [bind_ok (h6 n (by omega)), List.map_cons, shedEntries_cons, h4]
      rfl
    · intro hall
      obtain ⟨N', er, h6⟩ := r2 hall
      refine ⟨N + N' + 1, er, ?_⟩
      intro n hn
      obtain ⟨n, rfl⟩ : ∃ m, n = m + 1 := ⟨n - 1, by omega⟩
      rw [parseRootEntries, bind_cur, if_neg hne, bind_ok (h5' n (by omega))]
      exact bind_fail (h6 n (by omega))
  · refine ⟨fun hall => (ho (hall.sublist (List.sublist_append_left ..))).elim, fun _ => ⟨N + 1, er, ?_⟩⟩
    intro n hn
    obtain ⟨n, rfl⟩ : ∃ m, n = m + 1 := ⟨n - 1, by omega⟩
    rw [parseRootEntries, bind_cur, if_neg hne]
    refine bind_fail ?_
    rw [h5 n (by omega)]
    exact bind_fail (t1 _)

theorem swiftRoot_reads {U : Classes} (hU : Standard U) {es t} (h : SwiftRoot es t) : ReadsRoot U es t := by
  induction h with
  | @nil g hg =>
    have hb : behindBlank g = [] := by
      have := behindBlank_gap hg []
      rw [List.append_nil] at this
      rw [this]; rfl
    rw [ReadsRoot, hb]
    refine ⟨.inl rfl, ?_⟩
    intro ws nl st ps h hst _ _ hio
    refine ⟨fun _ => ⟨1, st, ?_⟩, fun hno => (hno (by simpa [allPaths] using hio)).elim⟩
    intro n hn
    obtain ⟨n, rfl⟩ : ∃ m, n = m + 1 := ⟨n - 1, by omega⟩
    have hk : (nextToken U st).1.kind = .eof := hst.kind
    rw [parseRootEntries, bind_cur, if_pos hk]
    rfl
  | @cons g ls dt ks path ke kt b v e s tr es t h1 h2 h3 h4 h5 h6 h7 _ h8 h9 ih =>
    obtain ⟨ik, ig⟩ := ih.kind
    have htb : behindBlank (tr ++ t) = behindBlank t := by
      refine entry_trailing hU h7 ?_ ik
      intro hn
      rw [EntryEnd, if_neg hn] at h9
      exact h9
    obtain ⟨hgood, kv, hkr, -, -, -, hke, -⟩ := rootKey_facts hU h3
    obtain ⟨ks1, ko⟩ := hkr.start (b ++ (s ++ (tr ++ t))) (sharedFollows_blank hke h4 h5 _)
    have hall : behindBlank (g ++ dt ++ kt ++ b ++ s ++ tr ++ t) = kt ++ (b ++ (s ++ (tr ++ t))) := by
      simp only [List.append_assoc]
      rw [behindBlank_gap h1, behindBlank_docs h2, behindBlank_start ks1]
    rw [ReadsRoot, hall]
    refine ⟨.inr ⟨ko, rootKey_not_brace h3 _⟩, ?_⟩
    intro ws nl st ps h hst ht hkn hio
    obtain ⟨N, st', en, g2, g3, g4⟩ := root_value (doc := docOf ls) hU h3 h4 h5
      (swiftValue_reads hU h6) h8 (by unfold NoGt; rw [htb]; exact ig) hst
    refine root_step (e := ⟨ks, path, v, docOf ls⟩) ih ?_ htb g2 ht hkn hio hgood g3 g4
    rw [hst.kind]
    intro hh; rw [hh] at ko; cases ko
  | @lone g ls dt ks seg ke kt tr es t h1 h2 h3 h4 _ h5 h6 ih =>
    obtain ⟨ik, ig⟩ := ih.kind
    have htb : behindBlank (tr ++ t) = behindBlank t := by
      refine entry_trailing hU h4 ?_ ik
      intro hn
      rw [LoneEnd, if_neg hn] at h6
      exact h6
    obtain ⟨hgood, kv, hkr, -, -, -, hke, -⟩ := rootKey_facts hU h3
    obtain ⟨ks1, ko⟩ := hkr.start (tr ++ t) h5
    have hall : behindBlank (g ++ dt ++ kt ++ tr ++ t) = kt ++ (tr ++ t) := by
      simp only [List.append_assoc]
      rw [behindBlank_gap h1, behindBlank_docs h2, behindBlank_start ks1]
    rw [ReadsRoot, hall]
    refine ⟨.inr ⟨ko, rootKey_not_brace h3 _⟩, ?_⟩
    intro ws nl st ps h hst ht hkn hio
    obtain ⟨N, st', en, g2, g3, g4⟩ := root_lone (doc := docOf ls) hU h3 h4 h5 h6
      (by unfold NoGt; rw [htb]; exact ig) (by rw [htb]; exact ik) hst
    refine root_step (e := ⟨ks, [seg], .mk none none none, docOf ls⟩) ih ?_ htb g2 ht hkn hio hgood g3 g4
    rw [hst.kind]
    intro hh; rw [hh] at ko; cases ko

/-- **Documents**: the Swift parser reads a document of the grammar as its entries if the paths are in order, and rejects
it otherwise. -/
theorem swiftRoot_parse {U : Classes} (hU : Standard U) {es s} (h : SwiftRoot es s) :
    (PathsInOrder (allPaths es) →
      ∃ N, ∀ n, N ≤ n → parse U n s = some (.ok (shedEntries (es.map RootEntry.tree)))) ∧
    (¬ PathsInOrder (allPaths es) → ∃ e N, ∀ n, N ≤ n → parse U n s = some (.error e)) := by
  obtain ⟨hk, hread⟩ := swiftRoot_reads hU h
  have hat := at_plain U s
  obtain ⟨r1, r2⟩ := hread _ _ ⟨s, false⟩ ⟨[], [], []⟩ [] hat tracks_empty knows_empty
    ⟨by intro x y h; simp at h, by intro x y z q h; simp at h⟩
  rw [List.nil_append] at r1 r2
  have hdoc : ∀ n, parseDocument U n ⟨s, false⟩ = parseRootEntries U n ⟨[], [], []⟩ ⟨s, false⟩ := by
    intro n
    rw [parseDocument, bind_cur, if_neg]
    rw [hat.kind]
    rcases hk with hk | ⟨-, hk⟩
    · rw [hk]; simp
    · exact hk
  constructor
  · intro ho
    obtain ⟨N, st', h3⟩ := r1 ho
    refine ⟨N, fun n hn1 => ?_⟩
    unfold parse
    rw [hdoc n, h3 n hn1]
  · intro ho
    obtain ⟨N, e, h3⟩ := r2 ho
    refine ⟨e, N, fun n hn1 => ?_⟩
    unfold parse
    rw [hdoc n, h3 n hn1]

end Styx.Swift
