import Verif.Text.Root
import Verif.Text.BracedSpec

/-! # Documents with braces around the root are read as written -/

namespace Styx

open Styx.Spec Styx.Props

/-- What stands before an entry gives comments and doc comments. -/
theorem PRun.leadsIn {input start seen doc ls evs} {ds : List Lexeme} (hg : ∀ l ∈ ds, l.isLead = true)
    (h : ∀ doc', PRun input (.inObject start seen doc') ls evs) :
    ∃ pre, PRun input (.inObject start seen doc) (ds ++ ls) (pre ++ evs) ∧ NoError pre ∧
      ∀ d ks es, EntriesOf (contd d ((docsOf ds).map fun d => stripDoc d.2)) ks es →
        EntriesOf d (kinds pre ++ ks) es := by
  induction ds generalizing doc with
  | nil => exact ⟨[], h doc, by simp [NoError], fun d ks es h => h⟩
  | cons g ds ih =>
    have ih := fun doc => ih (doc := doc) (fun x hx => hg x (by simp [hx]))
    have h3 := hg g (by simp)
    cases g <;> simp only [Lexeme.isLead, Lexeme.isGap, Bool.false_eq_true] at h3
    case newline =>
      obtain ⟨pre, h1, h2, h4⟩ := ih doc
      exact ⟨pre, .same (ls' := ds ++ ls) rfl h1, h2, h4⟩
    case comma =>
      obtain ⟨pre, h1, h2, h4⟩ := ih doc
      exact ⟨pre, .same (ls' := ds ++ ls) rfl h1, h2, h4⟩
    case comment sp text =>
      obtain ⟨pre, h1, h2, h4⟩ := ih doc
      refine ⟨⟨sp, .comment text⟩ :: pre, .cons (evs := []) rfl h1, ?_, ?_⟩
      · intro e he
        rcases List.mem_cons.1 he with rfl | he
        · simp
        · exact h2 e he
      · intro d ks es h
        exact .comment text (h4 d ks es h)
    case docComment sp text =>
      obtain ⟨pre, h1, h2, h4⟩ := ih (some sp)
      refine ⟨⟨sp, .docComment [stripDoc text]⟩ :: pre, .cons (evs := []) rfl h1, ?_, ?_⟩
      · intro e he
        rcases List.mem_cons.1 he with rfl | he
        · simp
        · exact h2 e he
      · intro d ks es h
        exact .doc [stripDoc text] (h4 _ ks es h)

/-- Gaps inside the braces give comments. -/
theorem PRun.gapsIn {input start seen doc ls evs} {gs : List Lexeme} (hg : ∀ l ∈ gs, l.isGap = true)
    (h : PRun input (.inObject start seen doc) ls evs) :
    ∃ pre, PRun input (.inObject start seen doc) (gs ++ ls) (pre ++ evs) ∧ CommentEvents pre := by
  induction gs with
  | nil => exact ⟨[], h, .nil⟩
  | cons g gs ih =>
    obtain ⟨pre, h1, h2⟩ := ih (fun x hx => hg x (by simp [hx]))
    have h3 := hg g (by simp)
    cases g <;> simp only [Lexeme.isGap, Bool.false_eq_true] at h3
    case newline => exact ⟨pre, .same (ls' := gs ++ ls) rfl h1, h2⟩
    case comma => exact ⟨pre, .same (ls' := gs ++ ls) rfl h1, h2⟩
    case comment sp text =>
      refine ⟨⟨sp, .comment text⟩ :: pre, .cons (evs := []) rfl h1, ?_⟩
      intro e he
      rcases List.mem_cons.1 he with rfl | he
      · exact ⟨_, rfl⟩
      · exact h2 e he

/-- Gaps before the opening brace give comments. -/
theorem PRun.gapsBefore {input doc path ls evs} {gs : List Lexeme} (hg : ∀ l ∈ gs, l.isGap = true)
    (h : PRun input (.documentRoot doc path false) ls evs) :
    ∃ pre, PRun input (.documentRoot doc path false) (gs ++ ls) (pre ++ evs) ∧ CommentEvents pre := by
  induction gs with
  | nil => exact ⟨[], h, .nil⟩
  | cons g gs ih =>
    obtain ⟨pre, h1, h2⟩ := ih (fun x hx => hg x (by simp [hx]))
    have h3 := hg g (by simp)
    cases g <;> simp only [Lexeme.isGap, Bool.false_eq_true] at h3
    case newline => exact ⟨pre, .same (ls' := gs ++ ls) rfl h1, h2⟩
    case comma => exact ⟨pre, .same (ls' := gs ++ ls) rfl h1, h2⟩
    case comment sp text =>
      refine ⟨⟨sp, .comment text⟩ :: pre, .cons (evs := []) rfl h1, ?_⟩
      intro e he
      rcases List.mem_cons.1 he with rfl | he
      · exact ⟨_, rfl⟩
      · exact h2 e he

/-- The space after the closing brace is accepted. -/
theorem checkTrailing_gaps {gs : List Lexeme} (h1 : ∀ l ∈ gs, l.isGap = true) (h2 : ∀ l ∈ gs, ∀ sp, l ≠ .comma sp) :
    checkTrailing gs = some ([], .afterDocument, []) := by
  induction gs with
  | nil => rfl
  | cons g gs ih =>
    have h3 := h1 g (by simp)
    have h4 := h2 g (by simp)
    have ih := ih (fun x hx => h1 x (by simp [hx])) (fun x hx => h2 x (by simp [hx]))
    cases g <;> simp only [Lexeme.isGap, Bool.false_eq_true] at h3
    · exact absurd rfl (h4 _)
    · exact ih
    · exact ih

/-- The identity of the key of an entry that is not dotted. -/
def simpleId : List Value → Option (Option (List Char) × Option (List Char))
  | [k] => some (keyId k)
  | _ => none

theorem simpleIds_cons (e : RootEntry) (es : List RootEntry) :
    simpleIds (e :: es) = (match simpleId e.keys with | some i => [i] | none => []) ++ simpleIds es := by
  obtain ⟨ks, path, v, d⟩ := e
  unfold simpleIds
  match ks with
  | [] => simp [simpleId]
  | [k] => simp [simpleId]
  | _ :: _ :: _ => simp [simpleId]

/-- How the key of an entry is read between the braces. -/
structure BracedRead (input : List Char) (ks : List Value) (s rest : List Char) (p : Nat)
    (l : Lexeme) (ls : List Lexeme) (a : Atom) : Prop where
  lex : lexAt (s ++ rest) p = l :: ls
  atom : PAtom input l ls a [] (lexAt rest (p + utf8Len s))
  stop : a.span.stop = p + utf8Len s
  first : l.startsValue = true
  emit : ∀ v rs seen, RestValue v rs → ∃ evs,
    (emitEntryInObject a rs seen = match simpleId ks with
      | none => (evs, seen)
      | some i => match lookupKey (kvOf i) seen with
        | some o => (errEv a.span (.duplicateKey o) :: evs, seen)
        | none => (evs, (kvOf i, a.span) :: seen)) ∧
    ∀ d k es, EntriesOf none k es → EntriesOf d (kinds evs ++ k) (nestKeys v ks d :: es)

theorem rootKeyText_inside (input : List Char) {ks path e s rest} (h : RootKeyText ks path e s) (hf : Follows e rest)
    (p : Nat) : ∃ l ls a, BracedRead input ks s rest p l ls a := by
  cases h with
  | path hne hseg hb =>
    refine ⟨_, _, _, lexAt_scalar (.bare hb) hf p, .scalar _ _ _, rfl, rfl, ?_⟩
    intro v rs seen hv
    by_cases hdot : '.' ∈ dotted path
    · refine ⟨dottedOpen p path ++ entryValueEvents ⟨p, p + utf8Len (dotted path)⟩ rs ++
        dottedClose ⟨p, p + utf8Len (dotted path)⟩ path.length, ?_, ?_⟩
      · have hid : simpleId (path.map fun s => scalarValue s .bare) = none := by
          match path, hne with
          | [seg], _ => exact absurd hdot (hseg seg (by simp)).2
          | _ :: _ :: _, _ => rfl
        rw [hid]
        unfold emitEntryInObject
        simp only
        rw [if_pos hdot]
        unfold emitDotted
        simp only [splitDots_dotted hne hseg]
        rw [if_neg (fun hm => (hseg _ hm).1 rfl)]
        simp only [hv.tooMany, List.append_nil, List.nil_append, List.append_assoc]
      · intro d k es hes
        have := dotted_entries (hv.events ⟨p, p + utf8Len (dotted path)⟩) ⟨p, p + utf8Len (dotted path)⟩ path hne p d k es hes
        simpa only [kinds_append, List.append_assoc] using this
    · have hone : ∃ seg, path = [seg] := by
        cases path with
        | nil => exact absurd rfl hne
        | cons s ss =>
          cases ss with
          | nil => exact ⟨s, rfl⟩
          | cons s2 ss => exact absurd (by simp [dotted]) hdot
      obtain ⟨seg, rfl⟩ := hone
      refine ⟨emitSimpleEntry (.scalar ⟨p, p + utf8Len seg⟩ seg .bare) rs, ?_, ?_⟩
      · unfold emitEntryInObject
        simp only
        rw [if_neg hdot]
        rfl
      · exact simple_entries hv rfl ⟨none, some seg, .bare, rfl, rfl⟩
  | other hk hnb =>
    rename_i k
    obtain ⟨l, ls, a, hr⟩ := keyText_reads input hk hf p
    refine ⟨l, ls, a, hr.lex, hr.atom, hr.stop, hr.first, ?_⟩
    intro v rs seen hv
    refine ⟨emitSimpleEntry a rs, ?_, simple_entries hv hr.key (keyText_form hk)⟩
    have hsc := hr.scalar
    have hkv := hr.kv
    simp only [simpleId]
    rw [← hkv]
    unfold emitEntryInObject
    cases a with
    | scalar sp v' kk =>
      obtain ⟨h1, h2⟩ := hsc sp v' kk rfl
      cases kk with
      | bare => exact absurd h2 (hnb v')
      | heredoc => exact absurd rfl h1
      | _ => rfl
    | _ => rfl

/-- None of the entries repeats a key seen before, or a key of another entry. -/
def FreshIn (seen : List (KeyValue × Span)) (es : List RootEntry) : Prop :=
  DistinctSimple es ∧ ∀ i ∈ simpleIds es, ∀ x ∈ seen, KeyValue.beq (kvOf i) x.1 = false

/-- The events `evs` are those of the entries `es`, when the keys `seen` were seen before. -/
def BracedEvents (seen : List (KeyValue × Span)) (es : List RootEntry) (evs : List Event) : Prop :=
  (∀ e ∈ evs, e.kind ≠ .panic) ∧
    (FreshIn seen es → NoError evs ∧
      ∃ ks, kinds evs = ks ++ [.objectEnd, .documentEnd] ∧ EntriesOf none ks (es.map RootEntry.tree)) ∧
    (¬ FreshIn seen es → ∃ e ∈ evs, ∃ k, e.kind = .error k) ∧
    ∀ e ∈ evs, ∀ k, e.kind = .error k → ∃ o, k = .duplicateKey o

theorem lookupKey_unseen {k : KeyValue} {seen : List (KeyValue × Span)} (h : lookupKey k seen = none) :
    ∀ x ∈ seen, KeyValue.beq k x.1 = false := by
  induction seen with
  | nil => intro x hx; cases hx
  | cons x seen ih =>
    obtain ⟨k', s⟩ := x
    rw [lookupKey] at h
    split at h
    · cases h
    · rename_i hb
      intro y hy
      rcases List.mem_cons.1 hy with rfl | hy
      · simpa using hb
      · exact ih h y hy

theorem freshIn_dotted {seen : List (KeyValue × Span)} {e : RootEntry} {es : List RootEntry} (h : simpleId e.keys = none) :
    FreshIn seen (e :: es) ↔ FreshIn seen es := by
  unfold FreshIn DistinctSimple
  rw [simpleIds_cons, h]
  rfl

theorem freshIn_simple {seen : List (KeyValue × Span)} {e : RootEntry} {es : List RootEntry} {i} {sp : Span}
    (h : simpleId e.keys = some i) :
    FreshIn seen (e :: es) ↔ lookupKey (kvOf i) seen = none ∧ FreshIn ((kvOf i, sp) :: seen) es := by
  unfold FreshIn DistinctSimple
  rw [simpleIds_cons, h]
  simp only [List.singleton_append, List.pairwise_cons, List.forall_mem_cons]
  constructor
  · rintro ⟨⟨h1, h2⟩, h3, h4⟩
    refine ⟨lookupKey_fresh h3, h2, fun j hj => ⟨?_, h4 j hj⟩⟩
    rw [kvOf_beq]
    simpa using (h1 j hj).symm
  · rintro ⟨h1, h2, h3⟩
    refine ⟨⟨fun j hj e => ?_, h2⟩, lookupKey_unseen h1, fun j hj => (h3 j hj).2⟩
    have := (h3 j hj).1
    rw [kvOf_beq, e] at this
    simp at this

/-- One entry between the braces, and the entries after it. -/
theorem braced_step {input es t ks path ke kt v ls start} {g dt tl tail : List Char} {p' : Nat → Nat}
    (hg : Gap true g) (hd : DocLines ls dt) (hk : RootKeyText ks path ke kt) (hf : Follows ke (tl ++ tail))
    (hc : ∀ q a, a.span.stop = q → ∃ rs evs, PRest input a true (lexAt (tl ++ tail) q) rs evs (lexAt (t ++ tail) (p' q)) ∧
      CommentEvents evs ∧ RestValue v rs)
    (ih : ∀ seen p, ∃ evs, PRun input (.inObject start seen none) (lexAt (t ++ tail) p) evs ∧ BracedEvents seen es evs)
    (seen : List (KeyValue × Span)) (p : Nat) :
    ∃ evs, PRun input (.inObject start seen none) (lexAt (g ++ (dt ++ (kt ++ (tl ++ tail)))) p) evs ∧
      BracedEvents seen (⟨ks, path, v, docOf ls⟩ :: es) evs := by
  obtain ⟨gs, h1, h2, -⟩ := lexAt_gap hg (dt ++ (kt ++ (tl ++ tail))) p
  obtain ⟨ds, h3, h4, h5⟩ := lexAt_docLines hd (kt ++ (tl ++ tail)) (p + utf8Len g)
  obtain ⟨l, lx, a, hr⟩ := rootKeyText_inside input hk hf (p + utf8Len g + utf8Len dt)
  obtain ⟨rs, evs, k1, k2, k3⟩ := hc _ a hr.stop
  obtain ⟨evs', m1, m2⟩ := hr.emit v rs seen k3
  have hone := m2 none [] [] (.nil none)
  rw [List.append_nil] at hone
  have hne : evs' ≠ [] := by
    rintro rfl
    cases hone
  have hcol := (PCollect.mk hr.atom k1).fuel (by
    have := lexAt_no_eof (kt ++ (tl ++ tail)) (p + utf8Len g + utf8Len dt)
    rw [hr.lex] at this
    exact fun h => this (by simp [h]))
  have hadv : ∀ doc, advance input (.inObject start seen doc) (l :: lx) =
      some (evs ++ (emitEntryInObject a rs seen).1, .inObject start (emitEntryInObject a rs seen).2 none,
        lexAt (t ++ tail) (p' (p + utf8Len g + utf8Len dt + utf8Len kt))) := by
    intro doc
    have hl := hr.first
    have : advance input (.inObject start seen doc) (l :: lx) =
      (match collectEntryAtoms input (parseFuel lx) l lx with
        | none => none
        | some (key, rest, evs, ls') =>
          some (evs ++ (emitEntryInObject key rest seen).1, .inObject start (emitEntryInObject key rest seen).2 none, ls')) := by
      cases l <;> simp only [Lexeme.startsValue, Bool.false_eq_true] at hl <;> rfl
    rw [this, hcol]
    rfl
  -- the errors of this entry, and the keys seen after it
  obtain ⟨err, seen', c1, c2, c3, c4⟩ : ∃ err seen', emitEntryInObject a rs seen = (err ++ evs', seen') ∧
      (∀ e ∈ err, ∃ o, e.kind = .error (.duplicateKey o)) ∧
      (FreshIn seen (⟨ks, path, v, docOf ls⟩ :: es) ↔ err = [] ∧ FreshIn seen' es) ∧
      (err ≠ [] → ∃ e ∈ err, ∃ k, e.kind = .error k) := by
    cases hid : simpleId ks with
    | none =>
      rw [hid] at m1
      exact ⟨[], seen, m1, by simp, by simpa using freshIn_dotted (e := ⟨ks, path, v, docOf ls⟩) hid, by simp⟩
    | some i =>
      rw [hid] at m1
      have hfs := freshIn_simple (seen := seen) (e := ⟨ks, path, v, docOf ls⟩) (es := es) (sp := a.span) hid
      cases hl : lookupKey (kvOf i) seen with
      | some o =>
        simp only [hl] at m1
        refine ⟨[errEv a.span (.duplicateKey o)], seen, m1, by simp [errEv], ?_, fun _ => ⟨_, List.mem_singleton.2 rfl, _, rfl⟩⟩
        rw [hfs, hl]
        simp
      | none =>
        simp only [hl] at m1
        refine ⟨[], _, m1, by simp, ?_, by simp⟩
        rw [hfs, hl]
        simp
  rw [c1] at hadv
  obtain ⟨more, n1, n3, n4, n5, n6⟩ := ih seen' (p' (p + utf8Len g + utf8Len dt + utf8Len kt))
  have hrun : ∀ doc, PRun input (.inObject start seen doc) (l :: lx) (evs ++ (err ++ evs') ++ more) :=
    fun doc => .step (hadv doc) (by simp [hne]) n1
  obtain ⟨pre, q1, q2, q3⟩ := PRun.leadsIn (ds := gs ++ ds) (doc := none) (by
    intro x hx
    rcases List.mem_append.1 hx with hx | hx
    · exact isGap_isLead (h2 x hx)
    · exact h4 x hx) hrun
  rw [docsOf_append, docsOf_gap h2, List.nil_append, h5] at q3
  refine ⟨_, by rw [h1, h3, hr.lex, ← List.append_assoc]; exact q1, ?_, ?_, ?_, ?_⟩
  · intro e he
    simp only [List.mem_append] at he
    rcases he with he | (he | he | he) | he
    · exact (q2 e he).2
    · exact (k2.noError e he).2
    · obtain ⟨o, ho⟩ := c2 e he
      rw [ho]; simp
    · exact (entriesOf_noError hone e he).2
    · exact n3 e he
  · intro hfresh
    obtain ⟨rfl, hfresh⟩ := c3.1 hfresh
    obtain ⟨o1, ks', o2, o3⟩ := n4 hfresh
    refine ⟨noError_append q2 (noError_append (noError_append k2.noError (entriesOf_noError hone)) o1),
      kinds pre ++ (kinds evs ++ (kinds evs' ++ ks')), ?_, ?_⟩
    · simp [kinds_append, o2]
    · refine q3 none _ _ (k2.entriesOf ?_)
      rw [contd_none]
      exact m2 (docOf ls) ks' _ o3
  · intro hfresh
    by_cases herr : err = []
    · obtain ⟨e, he, k, hk⟩ := n5 (fun h => hfresh (c3.2 ⟨herr, h⟩))
      exact ⟨e, by simp [he], k, hk⟩
    · obtain ⟨e, he, k, hk⟩ := c4 herr
      exact ⟨e, by simp [he], k, hk⟩
  · intro e he k hk
    simp only [List.mem_append] at he
    rcases he with he | (he | he | he) | he
    · exact absurd hk ((q2 e he).1 k)
    · exact absurd hk ((k2.noError e he).1 k)
    · obtain ⟨o, ho⟩ := c2 e he
      rw [ho] at hk
      cases hk
      exact ⟨o, rfl⟩
    · exact absurd hk ((entriesOf_noError hone e he).1 k)
    · exact n6 e he k hk

theorem bracedEntries_ink {es t} (h : BracedEntries es t) : HasInk t := by
  induction h with
  | nil => exact HasInk.append_right ⟨'}', by simp, by decide⟩ _
  | cons => rename_i ih; exact HasInk.append_right ih _
  | lone => rename_i ih; exact HasInk.append_right ih _

theorem bracedEntries_reads (input : List Char) {es s} (h : BracedEntries es s) {tail : List Char}
    (ht : Gap false tail) (start : Span) : ∀ seen p, ∃ evs,
    PRun input (.inObject start seen none) (lexAt (s ++ tail) p) evs ∧ BracedEvents seen es evs := by
  induction h with
  | nil hg =>
    intro seen p
    rename_i g
    obtain ⟨gs, h1, h2, -⟩ := lexAt_gap hg ('}' :: tail) p
    obtain ⟨gs', t1, t2, t3⟩ := lexAt_gap ht [] (p + utf8Len g + 1)
    rw [List.append_nil, lexAt_nil, List.append_nil] at t1
    have hb : lexAt ('}' :: tail) (p + utf8Len g) = .objectEnd ⟨p + utf8Len g, p + utf8Len g + 1⟩ :: gs' := by
      rw [← t1]; exact lexAt_rbrace _ _
    have hend : PRun input (.inObject start seen none) (lexAt ('}' :: tail) (p + utf8Len g))
        ([⟨⟨p + utf8Len g, p + utf8Len g + 1⟩, .objectEnd⟩,
          ⟨⟨utf8Len input, utf8Len input⟩, .documentEnd⟩] ++ []) := by
      rw [hb]
      exact .cons rfl (.done (checkTrailing_gaps t2 (t3 rfl)))
    obtain ⟨pre, q1, q2⟩ := PRun.gapsIn h2 hend
    have hne : NoError (pre ++ [⟨⟨p + utf8Len g, p + utf8Len g + 1⟩, .objectEnd⟩,
        ⟨⟨utf8Len input, utf8Len input⟩, .documentEnd⟩]) :=
      noError_append q2.noError (by simp [NoError])
    have hfresh : FreshIn seen [] := ⟨by simp [DistinctSimple, simpleIds], by simp [simpleIds]⟩
    refine ⟨_, by rw [List.append_assoc, List.singleton_append, h1]; exact q1, ?_, ?_, ?_, ?_⟩
    · intro e he
      exact (hne e (by simpa using he)).2
    · intro _
      refine ⟨by simpa using hne, kinds pre, by simp [kinds], ?_⟩
      have := q2.entriesOf (EntriesOf.nil none)
      simpa using this
    · intro h; exact absurd hfresh h
    · intro e he k hk
      exact absurd hk ((hne e (by simpa using he)).1 k)
  | cons hg hd hk hb hbn hv htr hes hf hend ih =>
    intro seen p
    rename_i g ls dt ks path ke kt b v e s tr es t
    have hf' : Follows e (tr ++ (t ++ tail)) := by
      rw [← List.append_assoc]; exact follows_append hf ((bracedEntries_ink hes).append_right tr) tail
    have hend' : EntryEnd tr (t ++ tail) := entryEnd_append hend (bracedEntries_ink hes) tail
    have := braced_step (input := input) (start := start) (tl := b ++ (s ++ (tr ++ t))) (tail := tail) (t := t) (v := v)
      (p' := fun q => q + utf8Len b + utf8Len s + utf8Len tr) hg hd hk
      (by
        rw [List.append_assoc]
        exact follows_blank (rootKeyText_tail hk) hb hbn _) (fun q a ha => ?_) ih seen p
    · simpa only [List.append_assoc] using this
    · obtain ⟨l2, lx2, a2, evs, g1, g2, g3, g4, g5, g6, g7⟩ :=
        valueText_reads input hv (tr ++ (t ++ tail)) (q + utf8Len b) hf'
      obtain ⟨evs', k1, k2⟩ := PRest.trailing (input := input) (first := a) (only := false) htr hend'
        (q + utf8Len b + utf8Len s)
      have hms : missingSpace a true l2 = [] := by
        have hlen : 0 < utf8Len b := by
          cases b with
          | nil => exact absurd rfl hbn
          | cons c b =>
            rw [utf8Len_cons]
            have := Char.utf8Size_pos c
            omega
        unfold missingSpace
        split
        · rename_i sp _
          simp only [Lexeme.span] at g6
          rw [if_neg (by omega)]
        · rename_i sp _
          simp only [Lexeme.span] at g6
          rw [if_neg (by omega)]
        · rfl
      refine ⟨[a2], missingSpace a true l2 ++ evs ++ evs', ?_, ?_, .inr ⟨a2, rfl, g4, g7⟩⟩
      · rw [show b ++ (s ++ (tr ++ t)) ++ tail = b ++ (s ++ (tr ++ (t ++ tail))) by simp only [List.append_assoc],
          lexAt_blanks hb, g1]
        exact .more (startsValue_elem g5).2.2 g2 k1
      · rw [hms]
        exact g3.append k2
  | lone hg hd hk htr hes hf hend ih =>
    intro seen p
    rename_i g ls dt ks path ke kt tr es t
    have hf' : Follows ke ((tr ++ t) ++ tail) := follows_append hf ((bracedEntries_ink hes).append_right tr) tail
    have hend' : EntryEnd tr (t ++ tail) := entryEnd_append hend (bracedEntries_ink hes) tail
    have := braced_step (input := input) (start := start) (tl := tr ++ t) (tail := tail) (t := t) (v := .mk none none none)
      (p' := fun q => q + utf8Len tr) hg hd hk hf' (fun q a ha => ?_) ih seen p
    · simpa only [List.append_assoc] using this
    · obtain ⟨evs', k1, k2⟩ := PRest.trailing (input := input) (first := a) (only := true) htr hend' q
      exact ⟨[], evs', by simpa only [List.append_assoc] using k1, k2, .inl ⟨rfl, rfl⟩⟩

/-- A stream that has an error about keys and no panic is rejected with such an error. -/
theorem rejected_of_error {s : List Char} {x : List Event} {P : ParseErrorKind → Prop} (hp : parseEvents s = some x)
    (h1 : ∀ e ∈ x, e.kind ≠ .panic) (h2 : ∃ e ∈ x, ∃ k, e.kind = .error k)
    (h3 : ∀ e ∈ x, ∀ k, e.kind = .error k → P k) :
    ∃ k sp, parseTree s = some (.error (.parse k sp)) ∧ P k := by
  have hpan : parseTree s = some (buildTree x) := by
    unfold parseTree
    rw [hp]
    simp only
    rw [if_neg]
    simp only [List.any_eq_true, not_exists]
    intro e ⟨he, hpe⟩
    simp only [beq_iff_eq] at hpe
    exact h1 e he hpe
  obtain ⟨pre, b, post, rfl, hb, hpre⟩ : ∃ pre b post, x = pre ++ b :: post ∧ (∃ k, b.kind = .error k) ∧
      ∀ e ∈ pre, ∀ k, e.kind ≠ .error k := by
    clear hp hpan h1 h3
    induction x with
    | nil => obtain ⟨_, h, _⟩ := h2; cases h
    | cons y ys ih =>
      by_cases hy : ∃ k, y.kind = .error k
      · exact ⟨[], y, ys, rfl, hy, by simp⟩
      · obtain ⟨e, he, hk⟩ := h2
        rcases List.mem_cons.1 he with rfl | he
        · exact absurd hk hy
        · obtain ⟨pre, b, post, rfl, g1, g2⟩ := ih ⟨e, he, hk⟩
          refine ⟨y :: pre, b, post, rfl, g1, ?_⟩
          intro z hz k hk
          rcases List.mem_cons.1 hz with rfl | hz
          · exact hy ⟨k, hk⟩
          · exact g2 z hz k hk
  obtain ⟨kb, hb⟩ := hb
  obtain ⟨sp, kk⟩ := b
  simp only at hb
  subst hb
  exact ⟨kb, sp, by rw [hpan, C20_first_error pre post kb sp hpre], h3 ⟨sp, .error kb⟩ (by simp) kb rfl⟩

theorem bracedText_events {es s} (h : BracedText es s) :
    (DistinctSimple es → ∃ t, parseTree s = some (.ok t) ∧
      erase t = .mk none (some (.object (es.map RootEntry.tree) none)) none) ∧
    (¬ DistinctSimple es → ∃ k sp, parseTree s = some (.error (.parse k sp)) ∧ ∃ o, k = .duplicateKey o) := by
  cases h with
  | mk hg hes hg' =>
    rename_i g t g'
    obtain ⟨gs, h1, h2, -⟩ := lexAt_gap hg ('{' :: (t ++ g')) 0
    have hb : lexAt ('{' :: (t ++ g')) (0 + utf8Len g) =
        .objectStart ⟨0 + utf8Len g, 0 + utf8Len g + 1⟩ :: lexAt (t ++ g') (0 + utf8Len g + 1) := lexAt_lbrace _ _
    generalize hs : g ++ '{' :: (t ++ g') = s at *
    obtain ⟨evs, k1, k2, k3, k4, k5⟩ := bracedEntries_reads s hes hg' ⟨0 + utf8Len g, 0 + utf8Len g + 1⟩ []
      (0 + utf8Len g + 1)
    have hrun : PRun s (.documentRoot none [] false) (lexAt ('{' :: (t ++ g')) (0 + utf8Len g))
        (⟨⟨0 + utf8Len g, 0 + utf8Len g + 1⟩, .objectStart⟩ :: evs) := by
      rw [hb]
      exact .cons (evs := []) rfl k1
    obtain ⟨pre, q1, q2⟩ := PRun.gapsBefore h2 hrun
    have hp : parseEvents s = some (⟨⟨0, 0⟩, .documentStart⟩ ::
        (pre ++ ⟨⟨0 + utf8Len g, 0 + utf8Len g + 1⟩, .objectStart⟩ :: evs)) := by
      refine PRun.parseEvents (.cons (evs := []) rfl ?_)
      rw [lex_eq_lexAt, h1]
      exact q1
    have hfr : FreshIn [] es ↔ DistinctSimple es := by simp [FreshIn]
    refine ⟨fun hd => ?_, fun hd => ?_⟩
    · obtain ⟨hn, ks, hks, hent⟩ := k3 (hfr.2 hd)
      have hn' : NoError (⟨⟨0, 0⟩, .documentStart⟩ ::
          (pre ++ ⟨⟨0 + utf8Len g, 0 + utf8Len g + 1⟩, .objectStart⟩ :: evs)) := by
        intro e he
        simp only [List.mem_cons, List.mem_append] at he
        rcases he with rfl | he | rfl | he
        · simp
        · exact q2.noError e he
        · simp
        · exact hn e he
      rw [parseTree_ok hp hn']
      obtain ⟨t, g1, g2⟩ := buildTree_root (evs := _) (cs := kinds pre) (ks := ks) (by
        simp [kinds_cons, kinds_append, hks]) q2.isComments hent hn'
      exact ⟨t, by rw [g1], g2⟩
    · refine rejected_of_error hp ?_ ?_ ?_
      · intro e he
        simp only [List.mem_cons, List.mem_append] at he
        rcases he with rfl | he | rfl | he
        · simp
        · exact (q2.noError e he).2
        · simp
        · exact k2 e he
      · obtain ⟨e, he, k, hk⟩ := k4 (fun h => hd (hfr.1 h))
        exact ⟨e, by simp [he], k, hk⟩
      · intro e he k hk
        simp only [List.mem_cons, List.mem_append] at he
        rcases he with rfl | he | rfl | he
        · cases hk
        · exact absurd hk ((q2.noError e he).1 k)
        · cases hk
        · exact k5 e he k hk

end Styx
