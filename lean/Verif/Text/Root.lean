import Verif.Text.Parse
import Verif.Props.Paths
import Verif.Props.Tree

/-! # Documents written as in `Verif.Text.Grammar` are parsed back -/

namespace Styx

open Styx.Spec Styx.Props

/-! ## Runs of the parser at the root -/

/-- A run of the parser on a source is what `parseEvents` computes. -/
theorem PRun.parseEvents {source : List Char} {evs : List Event}
    (h : PRun source .beforeDocument (lex source) evs) : Styx.parseEvents source = some evs := by
  obtain ⟨n, h⟩ := h
  obtain ⟨evs', h', -⟩ := parseEvents_run source
  rw [h']
  unfold Styx.parseEvents at h'
  have h1 := runParser_mono (Nat.le_max_left n ((lex source).length + 5)) h
  have h2 := runParser_mono (Nat.le_max_right n ((lex source).length + 5)) h'
  rw [h1] at h2
  cases h2
  rfl

theorem PRun.same {input st ls st' ls' evs} (h : advance input st ls = advance input st' ls')
    (hr : PRun input st' ls' evs) : PRun input st ls evs := by
  obtain ⟨n, hr⟩ := hr
  cases n with
  | zero => rw [runParser] at hr; cases hr
  | succ n =>
    refine ⟨n + 1, ?_⟩
    unfold runParser at hr ⊢
    rw [h]
    exact hr

theorem PRun.done {input ls} (h : checkTrailing ls = some ([], .afterDocument, [])) :
    PRun input .afterDocument ls [] := by
  refine ⟨1, ?_⟩
  rw [runParser]
  simp only [advance, h]

/-- A doc comment continued by more lines. -/
def contd : Option (List Char) → List (List Char) → Option (List Char)
  | d, [] => d
  | d, l :: ls => contd (continued d l) ls

theorem contd_some (x : List Char) (ls : List (List Char)) : contd (some x) ls = some (joined (x :: ls)) := by
  induction ls generalizing x with
  | nil => rfl
  | cons l ls ih =>
    rw [contd, continued, ih]
    cases ls <;> simp [joined]

theorem contd_none (ls : List (List Char)) : contd none ls = docOf ls := by
  cases ls with
  | nil => rfl
  | cons l ls => rw [contd, continued, contd_some]; rfl

/-- Gaps at the root give comments. -/
theorem PRun.gaps {input doc path ls evs} {gs : List Lexeme} (hg : ∀ l ∈ gs, l.isGap = true)
    (h : PRun input (.documentRoot doc path true) ls evs) :
    ∃ pre, PRun input (.documentRoot doc path true) (gs ++ ls) (pre ++ evs) ∧ CommentEvents pre := by
  induction gs with
  | nil => exact ⟨[], h, .nil⟩
  | cons g gs ih =>
    obtain ⟨pre, h1, h2⟩ := ih (fun x hx => hg x (by simp [hx]))
    have h3 := hg g (by simp)
    cases g <;> simp only [Lexeme.isGap, Bool.false_eq_true] at h3
    case newline => exact ⟨pre, .same (ls' := gs ++ ls) rfl h1, h2⟩
    case comma => exact ⟨pre, .same (ls' := gs ++ ls) rfl h1, h2⟩
    case comment sp text =>
      refine ⟨⟨sp, .comment text⟩ :: pre, .cons (evs := []) rfl h1, ?_⟩
      intro e he
      rcases List.mem_cons.1 he with rfl | he
      · exact ⟨_, rfl⟩
      · exact h2 e he

/-- What stands before an entry gives comments and doc comments. -/
theorem PRun.leads {input doc path ls evs} {ds : List Lexeme} (hg : ∀ l ∈ ds, l.isLead = true)
    (h : ∀ doc', PRun input (.documentRoot doc' path true) ls evs) :
    ∃ pre, PRun input (.documentRoot doc path true) (ds ++ ls) (pre ++ evs) ∧ NoError pre ∧
      ∀ d ks es, EntriesOf (contd d ((docsOf ds).map fun d => stripDoc d.2)) ks es →
        EntriesOf d (kinds pre ++ ks) es := by
  induction ds generalizing doc with
  | nil => exact ⟨[], h doc, by simp [NoError], fun d ks es h => h⟩
  | cons g ds ih =>
    have ih := fun doc => ih (doc := doc) (fun x hx => hg x (by simp [hx]))
    have h3 := hg g (by simp)
    cases g <;> simp only [Lexeme.isLead, Lexeme.isGap, Bool.false_eq_true] at h3
    case newline =>
      obtain ⟨pre, h1, h2, h4⟩ := ih doc
      exact ⟨pre, .same (ls' := ds ++ ls) rfl h1, h2, h4⟩
    case comma =>
      obtain ⟨pre, h1, h2, h4⟩ := ih doc
      exact ⟨pre, .same (ls' := ds ++ ls) rfl h1, h2, h4⟩
    case comment sp text =>
      obtain ⟨pre, h1, h2, h4⟩ := ih doc
      refine ⟨⟨sp, .comment text⟩ :: pre, .cons (evs := []) rfl h1, ?_, ?_⟩
      · intro e he
        rcases List.mem_cons.1 he with rfl | he
        · simp
        · exact h2 e he
      · intro d ks es h
        exact .comment text (h4 d ks es h)
    case docComment sp text =>
      obtain ⟨pre, h1, h2, h4⟩ := ih (some sp)
      refine ⟨⟨sp, .docComment [stripDoc text]⟩ :: pre, .cons (evs := []) rfl h1, ?_, ?_⟩
      · intro e he
        rcases List.mem_cons.1 he with rfl | he
        · simp
        · exact h2 e he
      · intro d ks es h
        exact .doc [stripDoc text] (h4 _ ks es h)

/-! ## Dotted keys -/

theorem splitDots_plain {s : List Char} (h : '.' ∉ s) : splitDots s = [s] := by
  induction s with
  | nil => rfl
  | cons c s ih =>
    have hc : c ≠ '.' := fun e => h (by simp [e])
    unfold splitDots
    rw [if_neg hc, ih (fun hm => h (by simp [hm]))]

theorem splitDots_append {s : List Char} (h : '.' ∉ s) (t : List Char) :
    splitDots (s ++ '.' :: t) = s :: splitDots t := by
  induction s with
  | nil => simp [splitDots]
  | cons c s ih =>
    have hc : c ≠ '.' := fun e => h (by simp [e])
    rw [List.cons_append]
    conv => lhs; unfold splitDots
    rw [if_neg hc, ih (fun hm => h (by simp [hm]))]

theorem splitDots_dotted {segs : List (List Char)} (hne : segs ≠ []) (h : ∀ s ∈ segs, s ≠ [] ∧ '.' ∉ s) :
    splitDots (dotted segs) = segs := by
  fun_induction dotted segs with
  | case1 => exact absurd rfl hne
  | case2 s => exact splitDots_plain (h s (by simp)).2
  | case3 s ss hss ih =>
    rw [splitDots_append (h s (by simp)).2]
    have hne : ss ≠ [] := by
      intro e; exact hss e
    rw [ih hne (fun x hx => h x (by simp [hx]))]

theorem dotted_entries {mid : List EventKind} {v : Value} (hv : ValueOf mid v) (sp : Span) (segs : List (List Char))
    (hne : segs ≠ []) (off : Nat) : ∀ d ks es, EntriesOf none ks es →
    EntriesOf d (kinds (dottedOpen off segs) ++ mid ++ kinds (dottedClose sp segs.length) ++ ks)
      (nestKeys v (segs.map fun s => scalarValue s .bare) d :: es) := by
  induction segs generalizing off with
  | nil => exact absurd rfl hne
  | cons s segs ih =>
    intro d ks es hes
    cases segs with
    | nil =>
      have := EntriesOf.entry none (some s) .bare (d := d) hv hes
      simpa [dottedOpen, dottedClose, kinds, nestKeys, scalarValue] using this
    | cons s2 segs =>
      have h1 := ih (by simp) (off + utf8Len s + 1) none [] [] (.nil none)
      rw [List.append_nil] at h1
      have h2 := EntriesOf.entry none (some s) .bare (d := d) (.object h1) hes
      have e : (s :: s2 :: segs).length = segs.length + 2 := rfl
      rw [e, dottedClose_snoc]
      have e2 : (s2 :: segs).length = segs.length + 1 := rfl
      rw [e2] at h2
      conv => arg 2; rw [dottedOpen]
      simp only [kinds_append, kinds_cons, List.cons_append, List.append_assoc, kinds_nil, List.nil_append,
        reduceCtorEq, if_false] at h2 ⊢
      exact h2

/-! ## One root entry -/

/-- The atoms after the key are the value `v`. -/
def RestValue (v : Value) (rest : List Atom) : Prop :=
  (rest = [] ∧ v = .mk none none none) ∨
  ∃ a, rest = [a] ∧ ValueOf (kinds (emitValue a)) v ∧ pathValueKind [a] = pathKind v

theorem RestValue.kind {v : Value} {rest : List Atom} (h : RestValue v rest) : pathValueKind rest = pathKind v := by
  rcases h with ⟨rfl, rfl⟩ | ⟨a, rfl, -, h⟩
  · rfl
  · exact h

theorem RestValue.tooMany {v : Value} {rest : List Atom} (h : RestValue v rest) : tooManyEvents rest = [] := by
  rcases h with ⟨rfl, rfl⟩ | ⟨a, rfl, -, h⟩ <;> rfl

theorem RestValue.events {v : Value} {rest : List Atom} (h : RestValue v rest) (sp : Span) :
    ValueOf (kinds (entryValueEvents sp rest)) v := by
  rcases h with ⟨rfl, rfl⟩ | ⟨a, rfl, h, -⟩
  · exact .unit
  · exact h

/-- How the key of a root entry is read: the events of the entry, whatever its value. -/
structure RootRead (input : List Char) (ks : List Value) (path : List (List Char)) (s rest : List Char) (p : Nat)
    (l : Lexeme) (ls : List Lexeme) (a : Atom) : Prop where
  lex : lexAt (s ++ rest) p = l :: ls
  atom : PAtom input l ls a [] (lexAt rest (p + utf8Len s))
  stop : a.span.stop = p + utf8Len s
  first : l.startsValue = true
  notObj : ∀ sp, l ≠ .objectStart sp
  path_ne : path ≠ []
  emit : ∀ v rs st, RestValue v rs → ∃ evs,
    emitEntryAtRoot input a rs st = (pathErrEvents a.span (st.checkAndUpdate path a.span (pathKind v)).2 ++ evs,
      (st.checkAndUpdate path a.span (pathKind v)).1) ∧
    ∀ d k es, EntriesOf none k es → EntriesOf d (kinds evs ++ k) (nestKeys v ks d :: es)

theorem simple_entries {k v : Value} {key : Atom} {rs : List Atom} (hv : RestValue v rs)
    (hk : kinds (emitKey key) = [keyEventOf k]) (hkf : ∃ t p kk, k = .mk (t.map fun n => ⟨n, none⟩) (p.map fun text => .scalar text kk none) none ∧ keyEventOf k = .key t p kk) :
    ∀ d ks es, EntriesOf none ks es →
      EntriesOf d (kinds (emitSimpleEntry key rs) ++ ks) (.mk k v d :: es) := by
  intro d ks es hes
  obtain ⟨t, p, kk, rfl, hke⟩ := hkf
  have := EntriesOf.entry t p kk (d := d) (hv.events key.span) hes
  unfold emitSimpleEntry
  rw [hv.tooMany]
  rw [hke] at hk
  simp only [kinds_append, kinds_cons, List.append_assoc, List.cons_append, hk, kinds_nil, List.nil_append]
  exact this

theorem rootKeyText_reads (input : List Char) {ks path e s rest} (h : RootKeyText ks path e s) (hf : Follows e rest)
    (p : Nat) : ∃ l ls a, RootRead input ks path s rest p l ls a := by
  cases h with
  | path hne hseg hb =>
    refine ⟨_, _, _, lexAt_scalar (.bare hb) hf p, .scalar _ _ _, rfl, rfl, by simp, hne, ?_⟩
    intro v rs st hv
    by_cases hdot : '.' ∈ dotted path
    · refine ⟨dottedOpen p path ++ entryValueEvents ⟨p, p + utf8Len (dotted path)⟩ rs ++
        dottedClose ⟨p, p + utf8Len (dotted path)⟩ path.length, ?_, ?_⟩
      · unfold emitEntryAtRoot
        simp only
        rw [if_pos hdot]
        unfold emitDotted
        simp only [splitDots_dotted hne hseg]
        rw [if_neg (fun hm => (hseg _ hm).1 rfl)]
        simp only [hv.kind, hv.tooMany, Option.getD_some, Atom.span, List.append_nil, List.append_assoc]
      · intro d k es hes
        have := dotted_entries (hv.events ⟨p, p + utf8Len (dotted path)⟩) ⟨p, p + utf8Len (dotted path)⟩ path hne p d k es hes
        simpa only [kinds_append, List.append_assoc] using this
    · have hone : ∃ seg, path = [seg] := by
        cases path with
        | nil => exact absurd rfl hne
        | cons s ss =>
          cases ss with
          | nil => exact ⟨s, rfl⟩
          | cons s2 ss => exact absurd (by simp [dotted]) hdot
      obtain ⟨seg, rfl⟩ := hone
      refine ⟨emitSimpleEntry (.scalar ⟨p, p + utf8Len seg⟩ seg .bare) rs, ?_, ?_⟩
      · unfold emitEntryAtRoot
        simp only
        rw [if_neg hdot]
        simp only [hv.kind, Atom.span, dotted]
      · exact simple_entries hv rfl ⟨none, some seg, .bare, rfl, rfl⟩
  | other hk hnb =>
    rename_i k
    obtain ⟨l, ls, a, hr⟩ := keyText_reads input hk hf p
    refine ⟨l, ls, a, hr.lex, hr.atom, hr.stop, hr.first, hr.notObj, by simp, ?_⟩
    intro v rs st hv
    refine ⟨emitSimpleEntry a rs, ?_, simple_entries hv hr.key (keyText_form hk)⟩
    have hname : (KeyValue.fromAtom a).toKeyString = keyName k := by
      rw [hr.kv]
      cases hk <;> rfl
    have hsc := hr.scalar
    unfold emitEntryAtRoot
    cases a with
    | scalar sp v' kk =>
      obtain ⟨h1, h2⟩ := hsc sp v' kk rfl
      cases kk with
      | bare => exact absurd h2 (hnb v')
      | heredoc => exact absurd rfl h1
      | _ => simp only [hname, hv.kind, List.nil_append]
    | _ => simp only [hname, hv.kind, List.nil_append]

/-! ## All root entries -/

/-- The events `evs` are those of the root entries `es`, when the tracker is in state `st`. -/
def RootEvents (st : PathState) (es : List RootEntry) (evs : List Event) : Prop :=
  ∃ cs : List PathCall, history cs = callsOf es ∧ (∀ e ∈ evs, e.kind ≠ .panic) ∧
    ((∃ st', runPaths st cs = some st') → NoError evs ∧
      ∃ ks, kinds evs = ks ++ [.objectEnd, .documentEnd] ∧ EntriesOf none ks (es.map RootEntry.tree)) ∧
    (runPaths st cs = none → ∃ e ∈ evs, ∃ k, e.kind = .error k) ∧
    ∀ e ∈ evs, ∀ k, e.kind = .error k → (∃ o, k = .duplicateKey o) ∨ (∃ p, k = .reopenedPath p) ∨
      ∃ p, k = .nestIntoTerminal p

theorem noError_append {a b : List Event} (ha : NoError a) (hb : NoError b) : NoError (a ++ b) := by
  intro e he
  rcases List.mem_append.1 he with h | h
  · exact ha e h
  · exact hb e h

theorem CommentEvents.noError {a : List Event} (h : CommentEvents a) : NoError a := by
  intro e he
  obtain ⟨t, ht⟩ := h e he
  simp [ht]

theorem CommentEvents.entriesOf {a : List Event} (h : CommentEvents a) {d ks es} (he : EntriesOf d ks es) :
    EntriesOf d (kinds a ++ ks) es := by
  induction a with
  | nil => exact he
  | cons e a ih =>
    obtain ⟨t, ht⟩ := h e (by simp)
    rw [kinds_cons, ht]
    exact .comment t (ih (fun x hx => h x (by simp [hx])))

/-- Not an error and not a panic. -/
def Fine (k : EventKind) : Prop := (∀ e, k ≠ .error e) ∧ k ≠ .panic

theorem entriesOf_fine {d ks es} (h : EntriesOf d ks es) : ∀ k ∈ ks, Fine k := by
  refine EntriesOf.rec (motive_1 := fun ks _ _ => ∀ k ∈ ks, Fine k) (motive_2 := fun ks _ _ => ∀ k ∈ ks, Fine k)
    (motive_3 := fun _ ks _ _ => ∀ k ∈ ks, Fine k) ?_ ?_ ?_ ?_ ?_ ?_ ?_ ?_ ?_ ?_ ?_ ?_ h
  all_goals
    intros
    simp only [List.mem_append, List.mem_cons, List.not_mem_nil, or_false, List.cons_append] at *
    try grind [Fine]

theorem entriesOf_noError {evs : List Event} {d es} (h : EntriesOf d (kinds evs) es) : NoError evs := by
  intro e he
  exact entriesOf_fine h e.kind (List.mem_map.2 ⟨e, he, rfl⟩)

theorem PRun.step {input st ls st' ls' evs more} (h : advance input st ls = some (evs, st', ls')) (hne : evs ≠ [])
    (hm : PRun input st' ls' more) : PRun input st ls (evs ++ more) := by
  cases evs with
  | nil => exact absurd rfl hne
  | cons e evs => exact .cons h hm

theorem pathErr_none {sp : Span} {e : Option PathError} : pathErrEvents sp e = [] ↔ e = none := by
  cases e with
  | none => simp [pathErrEvents]
  | some e => cases e <;> simp [pathErrEvents]

theorem pathErr_kinds {sp : Span} {e : Option PathError} : ∀ x ∈ pathErrEvents sp e, ∃ k, x.kind = .error k ∧
    ((∃ o, k = .duplicateKey o) ∨ (∃ p, k = .reopenedPath p) ∨ ∃ p, k = .nestIntoTerminal p) := by
  intro x hx
  cases e with
  | none => simp [pathErrEvents] at hx
  | some e =>
    cases e <;> simp only [pathErrEvents, List.mem_singleton] at hx <;> subst hx
    · exact ⟨_, rfl, .inl ⟨_, rfl⟩⟩
    · exact ⟨_, rfl, .inr (.inl ⟨_, rfl⟩)⟩
    · exact ⟨_, rfl, .inr (.inr ⟨_, rfl⟩)⟩

/-- One entry at the root, and the entries after it. -/
theorem root_step {input es t ks path ke kt v ls} {g dt tl : List Char} {p' : Nat → Nat}
    (hg : Gap true g) (hd : DocLines ls dt) (hk : RootKeyText ks path ke kt) (hf : Follows ke tl)
    (hc : ∀ q a, a.span.stop = q → ∃ rs evs, PRest input a true (lexAt tl q) rs evs (lexAt t (p' q)) ∧
      CommentEvents evs ∧ RestValue v rs)
    (ih : ∀ st p, ∃ evs, PRun input (.documentRoot none st true) (lexAt t p) evs ∧ RootEvents st es evs)
    (st : PathState) (p : Nat) :
    ∃ evs, PRun input (.documentRoot none st true) (lexAt (g ++ (dt ++ (kt ++ tl))) p) evs ∧
      RootEvents st (⟨ks, path, v, docOf ls⟩ :: es) evs := by
  obtain ⟨gs, h1, h2, -⟩ := lexAt_gap hg (dt ++ (kt ++ tl)) p
  obtain ⟨ds, h3, h4, h5⟩ := lexAt_docLines hd (kt ++ tl) (p + utf8Len g)
  obtain ⟨l, lx, a, hr⟩ := rootKeyText_reads input hk hf (p + utf8Len g + utf8Len dt)
  obtain ⟨rs, evs, k1, k2, k3⟩ := hc _ a hr.stop
  obtain ⟨evs', m1, m2⟩ := hr.emit v rs st k3
  generalize hcu : st.checkAndUpdate path a.span (pathKind v) = cu at m1
  obtain ⟨st', err⟩ := cu
  obtain ⟨more, n1, cs, n2, n3, n4, n5, n6⟩ := ih st' (p' (p + utf8Len g + utf8Len dt + utf8Len kt))
  have hone := m2 none [] [] (.nil none)
  rw [List.append_nil] at hone
  have hne : evs' ≠ [] := by
    rintro rfl
    cases hone
  have hcol := (PCollect.mk hr.atom k1).fuel (by
    have := lexAt_no_eof (kt ++ tl) (p + utf8Len g + utf8Len dt)
    rw [hr.lex] at this
    exact fun h => this (by simp [h]))
  have hadv : ∀ doc, advance input (.documentRoot doc st true) (l :: lx) =
      some (evs ++ (pathErrEvents a.span err ++ evs'), .documentRoot none st' true,
        lexAt t (p' (p + utf8Len g + utf8Len dt + utf8Len kt))) := by
    intro doc
    have hl := hr.first
    have hno := hr.notObj
    have : advance input (.documentRoot doc st true) (l :: lx) =
      (match collectEntryAtoms input (parseFuel lx) l lx with
        | none => none
        | some (key, rest, evs, ls') =>
          some ((if true then [] else [⟨⟨0, 0⟩, .objectStart⟩]) ++ evs ++ (emitEntryAtRoot input key rest st).1,
            .documentRoot none (emitEntryAtRoot input key rest st).2 true, ls')) := by
      cases l <;> simp only [Lexeme.startsValue, Bool.false_eq_true] at hl <;>
        first | rfl | exact absurd rfl (hno _)
    rw [this, hcol]
    simp [m1]
  have hrun : ∀ doc, PRun input (.documentRoot doc st true) (l :: lx)
      (evs ++ (pathErrEvents a.span err ++ evs') ++ more) :=
    fun doc => .step (hadv doc) (by simp [hne]) n1
  obtain ⟨pre, q1, q2, q3⟩ := PRun.leads (ds := gs ++ ds) (doc := none) (by
    intro x hx
    rcases List.mem_append.1 hx with hx | hx
    · exact isGap_isLead (h2 x hx)
    · exact h4 x hx) hrun
  rw [docsOf_append, docsOf_gap h2, List.nil_append, h5] at q3
  refine ⟨_, by rw [h1, h3, hr.lex, ← List.append_assoc]; exact q1, ⟨path, pathKind v, a.span⟩ :: cs, ?_, ?_, ?_, ?_, ?_⟩
  · simp only [history, callsOf, List.map_cons] at n2 ⊢
    rw [n2]
  · intro e he
    simp only [List.mem_append] at he
    rcases he with he | (he | he | he) | he
    · exact (q2 e he).2
    · exact (k2.noError e he).2
    · obtain ⟨k, hk, -⟩ := pathErr_kinds e he
      rw [hk]; simp
    · exact (entriesOf_noError hone e he).2
    · exact n3 e he
  · rintro ⟨st2, hst⟩
    rw [runPaths] at hst
    simp only [hcu] at hst
    cases err with
    | some e => simp at hst
    | none =>
      obtain ⟨o1, ks', o2, o3⟩ := n4 ⟨st2, hst⟩
      refine ⟨noError_append q2 (noError_append (noError_append k2.noError (noError_append (by
        simp [pathErrEvents, NoError]) (entriesOf_noError hone))) o1), kinds pre ++ (kinds evs ++ (kinds evs' ++ ks')), ?_, ?_⟩
      · simp [kinds_append, o2, pathErrEvents]
      · refine q3 none _ _ (k2.entriesOf ?_)
        rw [contd_none]
        exact m2 (docOf ls) ks' _ o3
  · intro hst
    rw [runPaths] at hst
    simp only [hcu] at hst
    cases err with
    | none =>
      obtain ⟨e, he, k, hk⟩ := n5 hst
      exact ⟨e, by simp [he], k, hk⟩
    | some x =>
      have hx : pathErrEvents a.span (some x) ≠ [] := fun h => by simpa using pathErr_none.1 h
      obtain ⟨y, ys, hys⟩ := List.exists_cons_of_ne_nil hx
      have hy : y ∈ pathErrEvents a.span (some x) := by rw [hys]; simp
      obtain ⟨k, hk, -⟩ := pathErr_kinds y hy
      exact ⟨y, by simp [hy], k, hk⟩
  · intro e he k hk
    simp only [List.mem_append] at he
    rcases he with he | (he | he | he) | he
    · exact absurd hk ((q2 e he).1 k)
    · exact absurd hk ((k2.noError e he).1 k)
    · obtain ⟨k', hk', h⟩ := pathErr_kinds e he
      rw [hk'] at hk
      cases hk
      exact h
    · exact absurd hk ((entriesOf_noError hone e he).1 k)
    · exact n6 e he k hk

theorem rootKeyText_tail {ks path e s} (h : RootKeyText ks path e s) : e = .word ∨ e = .closed := by
  cases h with
  | path => exact .inl rfl
  | other h => exact keyText_tail h

theorem rootText_reads (input : List Char) {es s} (h : RootText es s) : ∀ st p, ∃ evs,
    PRun input (.documentRoot none st true) (lexAt s p) evs ∧ RootEvents st es evs := by
  induction h with
  | nil hg =>
    intro st p
    rename_i g
    obtain ⟨gs, h1, h2, -⟩ := lexAt_gap hg [] p
    have hend : PRun input (.documentRoot none st true) [] ([⟨⟨0, 0⟩, .objectEnd⟩,
        ⟨⟨utf8Len input, utf8Len input⟩, .documentEnd⟩] ++ []) :=
      .cons rfl (.done rfl)
    obtain ⟨pre, q1, q2⟩ := PRun.gaps h2 hend
    rw [List.append_nil, lexAt_nil] at h1
    have hne : NoError (pre ++ [⟨⟨0, 0⟩, .objectEnd⟩, ⟨⟨utf8Len input, utf8Len input⟩, .documentEnd⟩]) :=
      noError_append q2.noError (by simp [NoError])
    refine ⟨_, by rw [h1]; exact q1, [], rfl, ?_, ?_, ?_, ?_⟩
    · intro e he
      exact (hne e (by simpa using he)).2
    · intro _
      refine ⟨by simpa using hne, kinds pre, by simp [kinds], ?_⟩
      have := q2.entriesOf (EntriesOf.nil none)
      simpa using this
    · intro h; simp [runPaths] at h
    · intro e he k hk
      exact absurd hk ((hne e (by simpa using he)).1 k)
  | cons hg hd hk hb hbn hv htr _ hf hend ih =>
    intro st p
    rename_i g ls dt ks path ke kt b v e s tr es t _
    have := root_step (input := input) (tl := b ++ (s ++ (tr ++ t))) (t := t) (v := v)
      (p' := fun q => q + utf8Len b + utf8Len s + utf8Len tr) hg hd hk
      (follows_blank (rootKeyText_tail hk) hb hbn _) (fun q a ha => ?_) ih st p
    · simpa only [List.append_assoc] using this
    · obtain ⟨l2, lx2, a2, evs, g1, g2, g3, g4, g5, g6, g7⟩ :=
        valueText_reads input hv (tr ++ t) (q + utf8Len b) hf
      obtain ⟨evs', k1, k2⟩ := PRest.trailing (input := input) (first := a) (only := false) htr hend
        (q + utf8Len b + utf8Len s)
      have hms : missingSpace a true l2 = [] := by
        have hlen : 0 < utf8Len b := by
          cases b with
          | nil => exact absurd rfl hbn
          | cons c b =>
            rw [utf8Len_cons]
            have := Char.utf8Size_pos c
            omega
        unfold missingSpace
        split
        · rename_i sp _
          simp only [Lexeme.span] at g6
          rw [if_neg (by omega)]
        · rename_i sp _
          simp only [Lexeme.span] at g6
          rw [if_neg (by omega)]
        · rfl
      refine ⟨[a2], missingSpace a true l2 ++ evs ++ evs', ?_, ?_, .inr ⟨a2, rfl, g4, g7⟩⟩
      · rw [lexAt_blanks hb, g1]
        exact .more (startsValue_elem g5).2.2 g2 k1
      · rw [hms]
        exact g3.append k2
  | lone hg hd hk htr _ hf hend ih =>
    intro st p
    rename_i g ls dt ks path ke kt tr es t _
    have := root_step (input := input) (tl := tr ++ t) (t := t) (v := .mk none none none)
      (p' := fun q => q + utf8Len tr) hg hd hk hf (fun q a ha => ?_) ih st p
    · simpa only [List.append_assoc] using this
    · obtain ⟨evs', k1, k2⟩ := PRest.trailing (input := input) (first := a) (only := true) htr hend q
      exact ⟨[], evs', k1, k2, .inl ⟨rfl, rfl⟩⟩

/-! ## The beginning of a document -/

theorem PRun.inv {input st ls evs} (h : PRun input st ls evs) :
    (∃ st' ls', advance input st ls = some ([], st', ls') ∧ evs = []) ∨
    (∃ e es st' ls' more, advance input st ls = some (e :: es, st', ls') ∧ evs = e :: es ++ more ∧
      PRun input st' ls' more) := by
  obtain ⟨n, h⟩ := h
  cases n with
  | zero => rw [runParser] at h; cases h
  | succ n =>
    rw [runParser] at h
    split at h
    · cases h
    · rename_i h1; cases h; exact .inl ⟨_, _, h1, rfl⟩
    · rename_i evs' st' ls' hne h1
      split at h
      · cases h
      · rename_i more h2
        cases h
        cases evs' with
        | nil => exact (hne rfl).elim
        | cons e es => exact .inr ⟨e, es, st', ls', more, h1, rfl, n, h2⟩

/-- The first lexeme other than a gap does not open an object. -/
def NoBrace : List Lexeme → Prop
  | [] => True
  | .newline _ :: ls | .comma _ :: ls | .comment _ _ :: ls => NoBrace ls
  | .objectStart _ :: _ => False
  | _ => True

theorem noBrace_append {gs ls : List Lexeme} (h : ∀ l ∈ gs, l.isGap = true) (hl : NoBrace ls) : NoBrace (gs ++ ls) := by
  induction gs with
  | nil => exact hl
  | cons g gs ih =>
    have h1 := h g (by simp)
    have h2 := ih (fun x hx => h x (by simp [hx]))
    cases g <;> simp only [Lexeme.isGap, Bool.false_eq_true] at h1 <;> exact h2

/-- Before the root object has started the run is the same, except that its start comes with the first
entry or doc comment; without any there is no root object. -/
theorem PRun.unstarted {input path ls evs} (h : PRun input (.documentRoot none path true) ls evs) (hn : NoBrace ls)
    (hne : ∃ e ∈ evs, ∀ t, e.kind ≠ .comment t) :
    ∃ c evs', evs = c ++ evs' ∧ CommentEvents c ∧
      (PRun input (.documentRoot none path false) ls (c ++ ⟨⟨0, 0⟩, .objectStart⟩ :: evs') ∨
        ∃ evs'', evs' = ⟨⟨0, 0⟩, .objectEnd⟩ :: evs'' ∧ PRun input (.documentRoot none path false) ls (c ++ evs'')) := by
  induction ls generalizing evs with
  | nil =>
    rcases h.inv with ⟨_, _, h1, -⟩ | ⟨e, es, st', ls', more, h1, rfl, h2⟩
    · cases h1
    · cases h1
      exact ⟨[], _, rfl, .nil, .inr ⟨_, rfl, .cons (evs := []) rfl h2⟩⟩
  | cons l ls ih =>
    have other : (∀ st2 b, advance input (.documentRoot none st2 b) (l :: ls) =
        (advance input (.documentRoot none st2 true) (l :: ls)).map fun r =>
          ((if b then [] else [⟨⟨0, 0⟩, .objectStart⟩]) ++ r.1, r.2.1, r.2.2)) →
        ∃ c evs', evs = c ++ evs' ∧ CommentEvents c ∧
          (PRun input (.documentRoot none path false) (l :: ls) (c ++ ⟨⟨0, 0⟩, .objectStart⟩ :: evs') ∨
          ∃ evs'', evs' = ⟨⟨0, 0⟩, .objectEnd⟩ :: evs'' ∧
            PRun input (.documentRoot none path false) (l :: ls) (c ++ evs'')) := by
      intro hadv
      refine ⟨[], evs, rfl, .nil, .inl ?_⟩
      rcases h.inv with ⟨st', ls', h1, rfl⟩ | ⟨e, es, st', ls', more, h1, rfl, h2⟩
      · obtain ⟨e, he, -⟩ := hne
        cases he
      · have := hadv path false
        rw [h1] at this
        simpa using PRun.step this (by simp) h2
    cases l
    case newline sp =>
      obtain ⟨c, evs', h1, h2, h3⟩ := ih (.same (ls' := _ :: ls) rfl h) hn hne
      refine ⟨c, evs', h1, h2, ?_⟩
      rcases h3 with h3 | ⟨evs'', h3, h4⟩
      · exact .inl (.same (ls' := ls) rfl h3)
      · exact .inr ⟨evs'', h3, .same (ls' := ls) rfl h4⟩
    case comma sp =>
      obtain ⟨c, evs', h1, h2, h3⟩ := ih (.same (ls' := _ :: ls) rfl h) hn hne
      refine ⟨c, evs', h1, h2, ?_⟩
      rcases h3 with h3 | ⟨evs'', h3, h4⟩
      · exact .inl (.same (ls' := ls) rfl h3)
      · exact .inr ⟨evs'', h3, .same (ls' := ls) rfl h4⟩
    case comment sp text =>
      rcases h.inv with ⟨_, _, h1, -⟩ | ⟨e, es, st', ls', more, h1, rfl, h2⟩
      · cases h1
      · cases h1
        obtain ⟨c, evs', rfl, g2, g3⟩ := ih h2 hn (by
          obtain ⟨e, he, h⟩ := hne
          rcases List.mem_cons.1 he with rfl | he
          · exact absurd rfl (h text)
          · exact ⟨e, he, h⟩)
        refine ⟨⟨sp, .comment text⟩ :: c, evs', rfl, ?_, ?_⟩
        · intro e he
          rcases List.mem_cons.1 he with rfl | he
          · exact ⟨_, rfl⟩
          · exact g2 e he
        · rcases g3 with g3 | ⟨evs'', rfl, g4⟩
          · exact .inl (.cons (evs := []) rfl g3)
          · exact .inr ⟨evs'', rfl, .cons (evs := []) rfl g4⟩
    case objectStart => exact absurd hn (by simp [NoBrace])
    all_goals
      apply other
      intro st2 b
      simp only [advance]
      conv => lhs; unfold advanceRoot
      conv => rhs; unfold advanceRoot
      cases b <;> simp
      try (split <;> simp_all)

theorem rootText_noBrace {es s} (h : RootText es s) (p : Nat) : NoBrace (lexAt s p) := by
  have key : ∀ {g dt kt tl : List Char} {ls ks path ke} (_ : Gap true g) (_ : DocLines ls dt)
      (_ : RootKeyText ks path ke kt) (_ : Follows ke tl), NoBrace (lexAt (g ++ (dt ++ (kt ++ tl))) p) := by
    intro g dt kt tl ls ks path ke hg hd hk hf
    obtain ⟨gs, h1, h2, -⟩ := lexAt_gap hg (dt ++ (kt ++ tl)) p
    obtain ⟨ds, h3, h4, -⟩ := lexAt_docLines hd (kt ++ tl) (p + utf8Len g)
    obtain ⟨l, lx, a, hr⟩ := rootKeyText_reads [] hk hf (p + utf8Len g + utf8Len dt)
    rw [h1, h3, hr.lex]
    refine noBrace_append h2 ?_
    have hl := hr.first
    have hno := hr.notObj
    have base : NoBrace (l :: lx) := by
      cases l <;> simp only [Lexeme.startsValue, Bool.false_eq_true] at hl <;>
        first | trivial | exact absurd rfl (hno _)
    clear h3 hr hl hno h1
    induction ds with
    | nil => exact base
    | cons d ds ih =>
      have h5 := h4 d (by simp)
      have ih := ih (fun x hx => h4 x (by simp [hx]))
      cases d <;> simp only [Lexeme.isLead, Lexeme.isGap, Bool.false_eq_true] at h5 <;>
        first | exact ih | trivial
  cases h with
  | nil hg =>
    obtain ⟨gs, h1, h2, -⟩ := lexAt_gap hg [] p
    rw [List.append_nil] at h1
    rw [h1]
    exact noBrace_append h2 trivial
  | cons hg hd hk hb hbn hv htr _ hf hend =>
    simpa only [List.append_assoc] using key hg hd hk (follows_blank (rootKeyText_tail hk) hb hbn _)
  | lone hg hd hk htr _ hf hend => simpa only [List.append_assoc] using key hg hd hk hf

/-- The tree of a stream with a root object. -/
theorem buildTree_root {evs : List Event} {cs ks : List EventKind} {ws : List Entry}
    (hk : kinds evs = .documentStart :: cs ++ .objectStart :: ks ++ [.objectEnd, .documentEnd])
    (hc : IsComments cs) (hws : EntriesOf none ks ws) (hn : NoError evs) :
    ∃ t, buildTree evs = .ok t ∧ erase t = .mk none (some (.object ws none)) none := by
  obtain ⟨sp1, e1, rfl, k1⟩ := kinds_uncons (b := cs ++ .objectStart :: ks ++ [.objectEnd, .documentEnd]) hk
  rw [List.append_assoc] at k1
  obtain ⟨e2, e3, rfl, k2, k3⟩ := kinds_split k1
  obtain ⟨sp4, e4, rfl, k4⟩ := kinds_uncons (b := ks ++ [.objectEnd, .documentEnd]) k3
  obtain ⟨e5, e6, rfl, k5, k6⟩ := kinds_split k4
  obtain ⟨sp7, e7, rfl, k7⟩ := kinds_uncons k6
  obtain ⟨sp8, e8, rfl, k8⟩ := kinds_uncons k7
  rw [kinds_empty k8]
  obtain ⟨d, hd⟩ := run_comments e2 (by rw [k2]; exact hc) none
  obtain ⟨es', d', g1, g2⟩ := feed_entries hws e5 k5
    { ({} : Builder) with pendingDoc := d, stack := [.object [] sp4 none] } [] sp4 [] rfl
  refine ⟨.mk none (some (.object es' none)) none, ?_, by simp [erase, erasePayload, g1]⟩
  unfold buildTree
  rw [Builder.run_cons, Builder.run_append]
  have : ({} : Builder).event ⟨sp1, .documentStart⟩ = { ({} : Builder) with pendingDoc := none } := rfl
  rw [this, hd, Builder.run_cons]
  have : ({ ({} : Builder) with pendingDoc := d }).event ⟨sp4, .objectStart⟩ =
    { ({} : Builder) with pendingDoc := d, stack := [.object [] sp4 none] } := rfl
  rw [this, Builder.run_append, g2]
  rfl

/-- The tree of a stream without a root object. -/
theorem buildTree_empty {evs : List Event} {cs : List EventKind}
    (hk : kinds evs = .documentStart :: cs ++ [.documentEnd]) (hc : IsComments cs) :
    buildTree evs = .ok (.mk none (some (.object [] none)) none) := by
  obtain ⟨sp1, e1, rfl, k1⟩ := kinds_uncons (b := cs ++ [.documentEnd]) hk
  obtain ⟨e2, e3, rfl, k2, k3⟩ := kinds_split k1
  obtain ⟨sp4, e4, rfl, k4⟩ := kinds_uncons k3
  rw [kinds_empty k4]
  obtain ⟨d, hd⟩ := run_comments e2 (by rw [k2]; exact hc) none
  unfold buildTree
  rw [Builder.run_cons, Builder.run_append]
  have : ({} : Builder).event ⟨sp1, .documentStart⟩ = { ({} : Builder) with pendingDoc := none } := rfl
  rw [this, hd]
  rfl

theorem CommentEvents.isComments {a : List Event} (h : CommentEvents a) : IsComments (kinds a) := by
  intro k hk
  obtain ⟨e, he, rfl⟩ := List.mem_map.1 hk
  exact .inl (h e he)

theorem rootText_paths {es s} (h : RootText es s) : ∀ e ∈ es, e.path ≠ [] := by
  have key : ∀ {ks path e s}, RootKeyText ks path e s → path ≠ [] := by
    intro ks path e s h
    cases h with
    | path h => exact h
    | other => simp
  induction h with
  | nil => simp
  | cons _ _ hk _ _ _ _ _ _ _ ih =>
    intro e he
    rcases List.mem_cons.1 he with rfl | he
    · exact key hk
    · exact ih e he
  | lone _ _ hk _ _ _ _ ih =>
    intro e he
    rcases List.mem_cons.1 he with rfl | he
    · exact key hk
    · exact ih e he

/-- The comments before the first entry may be dropped from the entries. -/
theorem dropLeading {c : List Event} (hc : CommentEvents c) {ks more : List EventKind} {es : List Entry}
    (hks : kinds c ++ more = ks ++ [.objectEnd, .documentEnd]) (hent : EntriesOf none ks es) :
    ∃ ks', more = ks' ++ [.objectEnd, .documentEnd] ∧ EntriesOf none ks' es := by
  induction c generalizing ks with
  | nil => exact ⟨ks, hks, hent⟩
  | cons x c ih =>
    obtain ⟨t, ht⟩ := hc x (by simp)
    rw [kinds_cons, ht] at hks
    cases ks with
    | nil => simp at hks
    | cons k ks =>
      simp only [List.cons_append, List.cons.injEq] at hks
      obtain ⟨rfl, hks⟩ := hks
      cases hent with
      | comment _ hent => exact ih (fun y hy => hc y (by simp [hy])) hks hent

/-- The events of a text of a document, and what becomes of them. -/
theorem rootText_events {es s} (h : RootText es s) :
    (Consistent (callsOf es) → ∃ t, parseTree s = some (.ok t) ∧
      erase t = .mk none (some (.object (es.map RootEntry.tree) none)) none) ∧
    (¬ Consistent (callsOf es) → ∃ k sp, parseTree s = some (.error (.parse k sp)) ∧
      ((∃ o, k = .duplicateKey o) ∨ (∃ p, k = .reopenedPath p) ∨ ∃ p, k = .nestIntoTerminal p)) := by
  obtain ⟨evs, h1, cs, h2, h3, h4, h5, h6⟩ := rootText_reads s h [] 0
  have hspec := C16_accepted_iff_partial cs (by
    intro c hc
    have hm : (c.path, c.kind) ∈ history cs := List.mem_map.2 ⟨c, hc, rfl⟩
    rw [h2] at hm
    obtain ⟨e, he, hpe⟩ := List.mem_map.1 hm
    have := rootText_paths h e he
    simp only [Prod.mk.injEq] at hpe
    rw [← hpe.1]
    exact this)
  rw [h2] at hspec
  have hne : ∃ e ∈ evs, ∀ t, e.kind ≠ .comment t := by
    cases hr : runPaths [] cs with
    | none =>
      obtain ⟨e, he, k, hk⟩ := h5 hr
      exact ⟨e, he, by simp [hk]⟩
    | some st =>
      obtain ⟨-, ks, hks, -⟩ := h4 ⟨st, hr⟩
      have : EventKind.documentEnd ∈ kinds evs := by rw [hks]; simp
      obtain ⟨e, he, hk⟩ := List.mem_map.1 this
      exact ⟨e, he, by simp [hk]⟩
  obtain ⟨c, evs', rfl, q1, q2⟩ := h1.unstarted (rootText_noBrace h 0) hne
  have start : ∀ x, PRun s (.documentRoot none [] false) (lexAt s 0) x →
      parseEvents s = some (⟨⟨0, 0⟩, .documentStart⟩ :: x) := fun x hx =>
    PRun.parseEvents (.cons (evs := []) rfl hx)
  have herr : ∀ x, (∀ e ∈ x, e ∈ c ++ evs' ∨ e.kind = .documentStart ∨ e.kind = .objectStart) →
      (∀ e ∈ c ++ evs', e ∈ x ∨ e.kind = .objectEnd) → parseEvents s = some x → ¬ Consistent (callsOf es) →
      ∃ k sp, parseTree s = some (.error (.parse k sp)) ∧
      ((∃ o, k = .duplicateKey o) ∨ (∃ p, k = .reopenedPath p) ∨ ∃ p, k = .nestIntoTerminal p) := by
    intro x hx hx' hp hcon
    have hnone : runPaths [] cs = none := by
      cases hr : runPaths [] cs with
      | none => rfl
      | some st => exact absurd (hspec.1 ⟨st, hr⟩) hcon
    obtain ⟨e, he, k, hk⟩ := h5 hnone
    have hpan : parseTree s = some (buildTree x) := by
      unfold parseTree
      rw [hp]
      simp only
      rw [if_neg]
      simp only [List.any_eq_true, not_exists]
      intro e ⟨he, hpe⟩
      simp only [beq_iff_eq] at hpe
      rcases hx e he with h | h | h
      · exact h3 e h hpe
      · rw [h] at hpe; cases hpe
      · rw [h] at hpe; cases hpe
    obtain ⟨pre, b, post, rfl, hb, hpre⟩ : ∃ pre b post, x = pre ++ b :: post ∧ (∃ k, b.kind = .error k) ∧
        ∀ e ∈ pre, ∀ k, e.kind ≠ .error k := by
      have hex : ∃ e ∈ x, ∃ k, e.kind = .error k := by
        rcases hx' e he with h | h
        · exact ⟨e, h, k, hk⟩
        · rw [h] at hk; cases hk
      clear hx hx' hp hpan
      induction x with
      | nil => obtain ⟨_, h, _⟩ := hex; cases h
      | cons y ys ih =>
        by_cases hy : ∃ k, y.kind = .error k
        · exact ⟨[], y, ys, rfl, hy, by simp⟩
        · obtain ⟨e, he, hk⟩ := hex
          rcases List.mem_cons.1 he with rfl | he
          · exact absurd hk hy
          · obtain ⟨pre, b, post, rfl, g1, g2⟩ := ih ⟨e, he, hk⟩
            refine ⟨y :: pre, b, post, rfl, g1, ?_⟩
            intro z hz k hk
            rcases List.mem_cons.1 hz with rfl | hz
            · exact hy ⟨k, hk⟩
            · exact g2 z hz k hk
    obtain ⟨kb, hb⟩ := hb
    obtain ⟨sp, kk⟩ := b
    simp only at hb
    subst hb
    refine ⟨kb, sp, by rw [hpan, C20_first_error pre post kb sp hpre], ?_⟩
    rcases hx ⟨sp, .error kb⟩ (by simp) with h | h | h
    · exact h6 _ h kb rfl
    · cases h
    · cases h
  rcases q2 with q2 | ⟨evs'', rfl, q2⟩
  · have hp := start _ q2
    refine ⟨fun hcon => ?_, herr _ ?_ ?_ hp⟩
    · obtain ⟨st, hst⟩ := hspec.2 hcon
      obtain ⟨hn, ks, hks, hent⟩ := h4 ⟨st, hst⟩
      rw [kinds_append] at hks
      have hn' : NoError (⟨⟨0, 0⟩, .documentStart⟩ :: (c ++ ⟨⟨0, 0⟩, .objectStart⟩ :: evs')) := by
        intro e he
        simp only [List.mem_cons, List.mem_append] at he
        rcases he with rfl | he | rfl | he
        · simp
        · exact hn e (by simp [he])
        · simp
        · exact hn e (by simp [he])
      rw [parseTree_ok hp hn']
      obtain ⟨ks', hks', hent'⟩ := dropLeading q1 hks hent
      obtain ⟨t, g1, g2⟩ := buildTree_root (evs := ⟨⟨0, 0⟩, .documentStart⟩ :: (c ++ ⟨⟨0, 0⟩, .objectStart⟩ :: evs'))
        (cs := kinds c) (ks := ks') (by simp [kinds_cons, kinds_append, hks']) q1.isComments hent' hn'
      exact ⟨t, by rw [g1], g2⟩
    · intro e he
      simp only [List.mem_cons, List.mem_append] at he ⊢
      rcases he with rfl | he | rfl | he <;> simp_all
    · intro e he
      simp only [List.mem_cons, List.mem_append] at he ⊢
      rcases he with he | he <;> simp_all
  · have hp := start _ q2
    refine ⟨fun hcon => ?_, herr _ ?_ ?_ hp⟩
    · obtain ⟨st, hst⟩ := hspec.2 hcon
      obtain ⟨hn, ks, hks, hent⟩ := h4 ⟨st, hst⟩
      rw [kinds_append, kinds_cons] at hks
      have hn' : NoError (⟨⟨0, 0⟩, .documentStart⟩ :: (c ++ evs'')) := by
        intro e he
        simp only [List.mem_cons, List.mem_append] at he
        rcases he with rfl | he | he
        · simp
        · exact hn e (by simp [he])
        · exact hn e (by simp [he])
      rw [parseTree_ok hp hn']
      obtain ⟨ks', hks', hent'⟩ := dropLeading q1 hks hent
      cases ks' with
      | cons k ks' =>
        simp only [List.cons_append, List.cons.injEq] at hks'
        obtain ⟨rfl, -⟩ := hks'
        cases hent'
      | nil =>
        simp only [List.nil_append, List.cons.injEq, true_and] at hks'
        generalize es.map RootEntry.tree = ws at hent'
        cases hent'
        refine ⟨_, by rw [buildTree_empty (cs := kinds c) (by simp [kinds_cons, kinds_append, hks']) q1.isComments], ?_⟩
        simp [erase, erasePayload, eraseEntries]
    · intro e he
      simp only [List.mem_cons, List.mem_append] at he ⊢
      rcases he with rfl | he | he <;> simp_all
    · intro e he
      simp only [List.mem_cons, List.mem_append] at he ⊢
      rcases he with he | rfl | he <;> simp_all

end Styx
