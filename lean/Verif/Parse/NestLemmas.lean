import Verif.Parse.NestSpec
import Verif.Parse.EventInv

/-! # Nesting and grammar of the parser's events -/

namespace Styx

open Spec

/-! ## Events queued while atoms are parsed -/

/-- All events of `evs` are comments or whitespace warnings. -/
def Quiet (evs : List Event) : Prop := ∀ e ∈ evs, quietKind e.kind = true

theorem quiet_nil : Quiet [] := by intro e he; cases he

theorem Quiet.append {a b : List Event} (ha : Quiet a) (hb : Quiet b) : Quiet (a ++ b) := by
  intro e he
  rcases List.mem_append.mp he with h | h
  · exact ha e h
  · exact hb e h

theorem missingSpace_quiet (first : Atom) (only : Bool) (l : Lexeme) :
    Quiet (missingSpace first only l) := by
  intro e he
  unfold missingSpace at he
  split at he <;> try split at he
  all_goals first
    | cases he; done
    | (simp only [List.mem_singleton] at he; subst he; rfl)

theorem atom_quiet {s : List Char} {l : Lexeme} {ls : List Lexeme} {a : Atom} {evs : List Event}
    {ls' : List Lexeme} (h : AtomR s l ls a evs ls') : Quiet evs := by
  refine AtomR.rec
    (motive_1 := fun _ _ _ evs _ _ => Quiet evs) (motive_2 := fun _ _ _ _ _ _ _ evs _ _ => Quiet evs)
    (motive_3 := fun _ _ _ _ _ evs _ _ => Quiet evs) (motive_4 := fun _ _ evs _ _ => Quiet evs)
    (motive_5 := fun _ _ _ _ evs _ _ => Quiet evs) (motive_6 := fun _ _ _ _ evs _ _ => Quiet evs)
    ?_ ?_ ?_ ?_ ?_ ?_ ?_ ?_ ?_ ?_ ?_ ?_ ?_ ?_ ?_ ?_ ?_ ?_ ?_ ?_ ?_ ?_ ?_ ?_ ?_ ?_ h
  all_goals intros
  all_goals first
    | exact quiet_nil
    | assumption
    | exact Quiet.append (by assumption) (by assumption)
    | exact Quiet.append (Quiet.append (missingSpace_quiet _ _ _) (by assumption)) (by assumption)
    | (intro e he; simp only [List.mem_singleton] at he; subst he; rfl)

theorem rest_quiet {s : List Char} {first : Atom} {only : Bool} {ls : List Lexeme} {rest : List Atom}
    {evs : List Event} {ls' : List Lexeme} (h : RestR s first only ls rest evs ls') : Quiet evs := by
  refine RestR.rec
    (motive_1 := fun _ _ _ _ _ _ => True) (motive_2 := fun _ _ _ _ _ _ _ _ _ _ => True)
    (motive_3 := fun _ _ _ _ _ _ _ _ => True) (motive_4 := fun _ _ _ _ _ => True)
    (motive_5 := fun _ _ _ _ _ _ _ => True) (motive_6 := fun _ _ _ _ evs _ _ => Quiet evs)
    ?leaf ?unit ?unitBare ?tag ?tagPayload ?tagDot ?object ?sequence ?attrs
    ?oeof ?oclose ?oskip ?odoc ?oentry ?seof ?sclose ?sskip ?scomma ?selem ?astop ?aattr ?cmk
    ?rstop ?rcomment ?rdoc ?rmore h
  case rstop => intros; exact quiet_nil
  case rcomment => intros; intro e he; simp only [List.mem_singleton] at he; subst he; rfl
  case rdoc => intros; intro e he; simp only [List.mem_singleton] at he; subst he; rfl
  case rmore =>
    intro first only l ls a evs ls' rest evs' ls'' _ ha _ _ ih
    exact Quiet.append (Quiet.append (missingSpace_quiet _ _ _) (atom_quiet ha)) ih
  all_goals (intros; trivial)

theorem collect_quiet {s : List Char} {l : Lexeme} {ls : List Lexeme} {key : Atom} {rest : List Atom}
    {evs : List Event} {ls' : List Lexeme} (h : CollectR s l ls key rest evs ls') : Quiet evs := by
  cases h with
  | mk h1 h2 => exact (atom_quiet h1).append (rest_quiet h2)

/-! ## Nesting -/

theorem nest_append (st : List Opened) (a b : List Event) :
    nest st (a ++ b) = (nest st a).bind fun st' => nest st' b := by
  induction a generalizing st with
  | nil => rfl
  | cons e es ih =>
    rw [List.cons_append, nest, nest]
    cases nestStep st e.kind with
    | none => rfl
    | some st' => exact ih st'

/-- The events do not change the stack of open starts, whatever it is. -/
def Balanced (evs : List Event) : Prop := ∀ st, nest st evs = some st

theorem balanced_nil : Balanced [] := fun _ => rfl

theorem Balanced.append {a b : List Event} (ha : Balanced a) (hb : Balanced b) : Balanced (a ++ b) := by
  intro st
  rw [nest_append, ha st]
  exact hb st

/-- Kinds that neither open nor close. -/
def neutral : EventKind → Bool
  | .objectStart | .objectEnd | .sequenceStart | .sequenceEnd | .tagStart _ | .tagEnd | .entryStart
  | .entryEnd => false
  | _ => true

theorem neutral_step {k : EventKind} (h : neutral k = true) (st : List Opened) : nestStep st k = some st := by
  cases k <;> simp_all [neutral, nestStep]

theorem Balanced.neutral {e : Event} {es : List Event} (h : neutral e.kind = true) (hb : Balanced es) :
    Balanced (e :: es) := by
  intro st
  rw [nest, neutral_step h]
  exact hb st

theorem balanced_all {evs : List Event} (h : ∀ e ∈ evs, neutral e.kind = true) : Balanced evs := by
  induction evs with
  | nil => exact balanced_nil
  | cons e es ih => exact Balanced.neutral (h e (by simp)) (ih fun e he => h e (by simp [he]))

/-- The stack symbol of an opening kind. -/
def opens : EventKind → Option Opened
  | .objectStart => some .object
  | .sequenceStart => some .sequence
  | .tagStart _ => some .tag
  | .entryStart => some .entry
  | _ => none

/-- The stack symbol of a closing kind. -/
def closes : EventKind → Option Opened
  | .objectEnd => some .object
  | .sequenceEnd => some .sequence
  | .tagEnd => some .tag
  | .entryEnd => some .entry
  | _ => none

theorem open_step {k : EventKind} {o : Opened} (h : opens k = some o) (st : List Opened) :
    nestStep st k = some (o :: st) := by
  cases k <;> simp_all [opens, nestStep]

theorem close_step {k : EventKind} {o : Opened} (h : closes k = some o) (st : List Opened) :
    nestStep (o :: st) k = some st := by
  cases k <;> simp only [closes, reduceCtorEq, Option.some.injEq] at h <;> subst h <;> rfl

theorem Balanced.wrap {e e' : Event} {es : List Event} {o : Opened} (h : opens e.kind = some o)
    (h' : closes e'.kind = some o) (hb : Balanced es) : Balanced (e :: (es ++ [e'])) := by
  intro st
  rw [nest, open_step h]
  simp only [Option.bind_some]
  rw [nest_append, hb]
  simp only [Option.bind_some, nest, close_step h']

theorem Balanced.wrap' {e e' : Event} {es rest : List Event} {o : Opened} (h : opens e.kind = some o)
    (h' : closes e'.kind = some o) (hb : Balanced es) (hr : Balanced rest) :
    Balanced (e :: (es ++ e' :: rest)) := by
  have := (Balanced.wrap h h' hb).append hr
  simpa using this

theorem quiet_balanced {evs : List Event} (h : Quiet evs) : Balanced evs := by
  refine balanced_all fun e he => ?_
  have := h e he
  revert this
  cases e.kind <;> simp [quietKind, neutral]

theorem escErr_neutral {base : Nat} {text : List Char} :
    ∀ e ∈ escErrEvents base text, neutral e.kind = true := by
  intro e he
  rcases mem_escErr he with ⟨_, _, _, rfl⟩ | ⟨_, rfl⟩ <;> rfl

theorem escErr_balanced (base : Nat) (text : List Char) : Balanced (escErrEvents base text) :=
  balanced_all escErr_neutral

theorem balanced_one {e : Event} (h : neutral e.kind = true) : Balanced [e] :=
  Balanced.neutral h balanced_nil

theorem balanced_ite {c : Prop} [Decidable c] {a b : List Event} (ha : Balanced a) (hb : Balanced b) :
    Balanced (if c then a else b) := by
  split
  · exact ha
  · exact hb

theorem emitKey_balanced (a : Atom) : Balanced (emitKey a) := by
  cases a with
  | tag sp name payload invalid errSpan =>
    unfold emitKey
    refine Balanced.append (balanced_ite (balanced_one rfl) balanced_nil) ?_
    split
    · exact balanced_one rfl
    · exact (balanced_ite (escErr_balanced _ _) balanced_nil).append (balanced_one rfl)
    · exact balanced_one rfl
    · exact balanced_one rfl
    · exact balanced_one rfl
  | invalidEscapeScalar sp raw => exact (escErr_balanced _ _).append (balanced_one rfl)
  | _ => exact balanced_one rfl

theorem balanced_map {α : Type} (l : List α) (f : α → Span) (k : α → ParseErrorKind) :
    Balanced (l.map fun x => errEv (f x) (k x)) := by
  refine balanced_all fun e he => ?_
  obtain ⟨x, _, rfl⟩ := List.mem_map.mp he
  rfl

mutual
theorem emitValue_balanced : ∀ a : Atom, Balanced (emitValue a)
  | .scalar sp v k => balanced_one rfl
  | .unit sp => balanced_one rfl
  | .tag sp name payload invalid errSpan => by
    rw [emitValue, List.append_assoc]
    exact (balanced_ite (balanced_one rfl) balanced_nil).append
      (Balanced.wrap (o := .tag) rfl rfl (emitPayload_balanced payload))
  | .object sp entries dups dangling unclosed => by
    rw [emitValue]
    simp only [List.cons_append]
    refine Balanced.wrap (o := .object) rfl rfl ?_
    refine Balanced.append (Balanced.append (Balanced.append ?_ ?_) ?_) (emitEntries_balanced entries)
    · exact balanced_ite (balanced_one rfl) balanced_nil
    · exact balanced_map dups (·.2) fun d => .duplicateKey d.1
    · exact balanced_map dangling (fun d => d) fun _ => .danglingDocComment
  | .sequence sp elems unclosed commas => by
    rw [emitValue]
    simp only [List.cons_append]
    refine Balanced.wrap (o := .sequence) rfl rfl ?_
    refine Balanced.append (Balanced.append ?_ ?_) (emitElems_balanced elems)
    · exact balanced_ite (balanced_one rfl) balanced_nil
    · exact balanced_map commas (fun d => d) fun _ => .commaInSequence
  | .attributes sp attrs => by
    rw [emitValue]
    exact Balanced.wrap (o := .object) rfl rfl (emitAttrs_balanced attrs)
  | .invalidEscapeScalar sp raw => (escErr_balanced _ _).append (balanced_one rfl)
  | .error sp m => balanced_one rfl
  | .panic sp => balanced_one rfl

theorem emitPayload_balanced : ∀ a : Option Atom, Balanced (emitPayload a)
  | none => balanced_nil
  | some a => emitValue_balanced a

theorem emitEntries_balanced : ∀ es : List ObjEntry, Balanced (emitEntries es)
  | [] => balanced_nil
  | .mk key value doc tooMany :: rest => by
    rw [emitEntries_cons]
    have hd : Balanced (docEvents doc) := by
      cases doc with
      | none => exact balanced_nil
      | some d => exact balanced_one rfl
    refine hd.append ?_
    have hkv := (emitKey_balanced key).append (emitValue_balanced value)
    have hr := emitEntries_balanced rest
    cases tooMany with
    | none =>
      have := Balanced.wrap' (e := ⟨key.span, .entryStart⟩) (e' := ⟨value.span, .entryEnd⟩)
        (o := .entry) rfl rfl hkv hr
      simpa [endEvents] using this
    | some sp =>
      have := Balanced.wrap' (e := ⟨key.span, .entryStart⟩) (e' := ⟨sp, .entryEnd⟩)
        (o := .entry) rfl rfl (hkv.append (balanced_one (e := errEv sp .tooManyAtoms) rfl)) hr
      simpa [endEvents] using this

theorem emitElems_balanced : ∀ es : List Atom, Balanced (emitElems es)
  | [] => balanced_nil
  | a :: rest => by
    rw [emitElems]
    exact (emitValue_balanced a).append (emitElems_balanced rest)

theorem emitAttrs_balanced : ∀ es : List AttrEntry, Balanced (emitAttrs es)
  | [] => balanced_nil
  | .mk key ks value :: rest => by
    rw [emitAttrs]
    have := Balanced.wrap' (e := ⟨ks, .entryStart⟩) (e' := ⟨value.span, .entryEnd⟩) (o := .entry) rfl rfl
      (Balanced.neutral (e := ⟨ks, .key none (some key) .bare⟩) rfl (emitValue_balanced value))
      (emitAttrs_balanced rest)
    simpa using this
end

theorem entryValueEvents_balanced (sp : Span) (rest : List Atom) : Balanced (entryValueEvents sp rest) := by
  cases rest with
  | nil => exact balanced_one rfl
  | cons v r => exact emitValue_balanced v

theorem tooMany_balanced (rest : List Atom) : Balanced (tooManyEvents rest) := by
  unfold tooManyEvents
  split
  · exact balanced_one rfl
  · exact balanced_nil

theorem emitSimpleEntry_balanced (key : Atom) (rest : List Atom) : Balanced (emitSimpleEntry key rest) := by
  unfold emitSimpleEntry
  simp only [List.cons_append]
  exact Balanced.wrap (o := .entry) rfl rfl (((emitKey_balanced key).append
    (entryValueEvents_balanced _ _)).append (tooMany_balanced rest))

theorem dottedClose_snoc (sp : Span) (n : Nat) :
    dottedClose sp (n + 2) = dottedClose sp (n + 1) ++ [⟨sp, .objectEnd⟩, ⟨sp, .entryEnd⟩] := by
  induction n with
  | zero => rfl
  | succ n ih =>
    have : dottedClose sp (n + 3) = ⟨sp, .entryEnd⟩ :: ⟨sp, .objectEnd⟩ :: dottedClose sp (n + 2) := rfl
    rw [this, ih]
    have : dottedClose sp (n + 2) = ⟨sp, .entryEnd⟩ :: ⟨sp, .objectEnd⟩ :: dottedClose sp (n + 1) := rfl
    rw [← List.cons_append, ← List.cons_append, ← this, ih]

theorem dottedOpen_cons (off : Nat) (seg seg' : List Char) (segs : List (List Char)) :
    dottedOpen off (seg :: seg' :: segs) =
      ⟨⟨off, off + utf8Len seg⟩, .entryStart⟩ :: ⟨⟨off, off + utf8Len seg⟩, .key none (some seg) .bare⟩ ::
        ⟨⟨off, off + utf8Len seg⟩, .objectStart⟩ :: dottedOpen (off + utf8Len seg + 1) (seg' :: segs) := by
  rw [dottedOpen]
  simp

theorem dotted_balanced {mid : List Event} (hm : Balanced mid) (sp : Span) (segs : List (List Char)) :
    segs ≠ [] → ∀ off, Balanced (dottedOpen off segs ++ mid ++ dottedClose sp segs.length) := by
  induction segs with
  | nil => intro h; exact absurd rfl h
  | cons seg segs ih =>
    intro _ off
    cases segs with
    | nil =>
      have := Balanced.wrap (e := ⟨⟨off, off + utf8Len seg⟩, .entryStart⟩) (e' := ⟨sp, .entryEnd⟩)
        (o := .entry) rfl rfl
        (Balanced.neutral (e := ⟨⟨off, off + utf8Len seg⟩, .key none (some seg) .bare⟩) rfl hm)
      simpa [dottedOpen, dottedClose] using this
    | cons seg' segs' =>
      have hi := ih (by simp) (off + utf8Len seg + 1)
      have hlen : (seg :: seg' :: segs').length = segs'.length + 2 := rfl
      have hl : (seg' :: segs').length = segs'.length + 1 := rfl
      rw [hlen, dottedClose_snoc, dottedOpen_cons]
      rw [hl] at hi
      have h1 := Balanced.wrap (e := ⟨⟨off, off + utf8Len seg⟩, .objectStart⟩) (e' := ⟨sp, .objectEnd⟩)
        (o := .object) rfl rfl hi
      have h2 := Balanced.wrap (e := ⟨⟨off, off + utf8Len seg⟩, .entryStart⟩) (e' := ⟨sp, .entryEnd⟩)
        (o := .entry) rfl rfl
        (Balanced.neutral (e := ⟨⟨off, off + utf8Len seg⟩, .key none (some seg) .bare⟩) rfl h1)
      simpa using h2

theorem pathErr_balanced (sp : Span) (e : Option PathError) : Balanced (pathErrEvents sp e) := by
  unfold pathErrEvents
  split
  · exact balanced_nil
  · exact balanced_one rfl
  · exact balanced_one rfl
  · exact balanced_one rfl

theorem emitDotted_balanced (text : List Char) (sp : Span) (rest : List Atom) (path : Option PathState) :
    Balanced (emitDotted text sp rest path).1 := by
  unfold emitDotted
  simp only
  split
  · exact Balanced.neutral rfl (Balanced.wrap (es := []) (o := .entry) rfl rfl balanced_nil)
  · have hd := dotted_balanced ((entryValueEvents_balanced sp rest).append (tooMany_balanced rest)) sp
      (splitDots text) (splitDots_ne text) sp.start
    split
    · simpa using hd
    · rename_i st
      have := (pathErr_balanced sp (st.checkAndUpdate (splitDots text) sp (pathValueKind rest)).2).append hd
      simpa using this

theorem emitEntryAtRoot_balanced (input : List Char) (key : Atom) (rest : List Atom) (path : PathState) :
    Balanced (emitEntryAtRoot input key rest path).1 := by
  unfold emitEntryAtRoot
  simp only
  split
  · split
    · exact emitDotted_balanced _ _ _ _
    · exact (pathErr_balanced _ _).append (emitSimpleEntry_balanced _ _)
  · refine Balanced.append (Balanced.append ?_ (pathErr_balanced _ _)) (emitSimpleEntry_balanced _ _)
    split
    · split
      · exact balanced_one rfl
      · exact balanced_one rfl
    · exact balanced_nil

theorem emitEntryInObject_balanced (key : Atom) (rest : List Atom) (seen : List (KeyValue × Span)) :
    Balanced (emitEntryInObject key rest seen).1 := by
  have hpre : Balanced (match key with
    | .scalar sp _ .heredoc => [errEv sp .invalidKey]
    | _ => []) := by
    split
    · exact balanced_one rfl
    · exact balanced_nil
  have hs := emitSimpleEntry_balanced key rest
  unfold emitEntryInObject
  simp only
  split
  · split
    · exact emitDotted_balanced _ _ _ _
    · split
      · exact Balanced.append hpre (Balanced.neutral rfl hs)
      · exact Balanced.append hpre hs
  · split
    · exact Balanced.append hpre (Balanced.neutral rfl hs)
    · exact Balanced.append hpre hs

theorem danglingEv_balanced (doc : Option Span) : Balanced (danglingEv doc) := by
  cases doc with
  | none => exact balanced_nil
  | some d => exact balanced_one rfl

theorem checkTrailing_neutral {ls : List Lexeme} {evs : List Event} {st : PState} {ls' : List Lexeme}
    (h : checkTrailing ls = some (evs, st, ls')) :
    ∀ e ∈ evs, (∃ k, e.kind = .error k) ∨ e.kind = .panic := by
  induction ls with
  | nil => cases h; intro e he; cases he
  | cons l ls ih =>
    cases l with
    | newline => exact ih h
    | comment => exact ih h
    | panic sp =>
      cases h
      intro e he
      simp only [List.mem_singleton] at he
      subst he
      exact Or.inr rfl
    | _ =>
      cases h
      intro e he
      rcases List.mem_append.mp he with he | he
      · simp only [List.mem_singleton] at he
        subst he
        exact Or.inl ⟨_, rfl⟩
      · split at he
        · simp only [List.mem_singleton] at he
          subst he
          exact Or.inr rfl
        · cases he

/-- The stack of open starts in a state of the parser, given what is open around it. -/
def PState.openIn : PState → List Opened → List Opened
  | .documentRoot _ _ true, st => .object :: st
  | .inObject .., st => .object :: st
  | _, st => st

/-- A root object start while the root object is already open. -/
def Stray (st : List Opened) (evs : List Event) : Prop :=
  ∃ pre sp post, evs = pre ++ ⟨sp, .objectStart⟩ :: post ∧ nest st pre = some [.object]

theorem nest_implicit (started : Bool) (doc : Option Span) (path : PathState) (more : List Event) :
    nest ((PState.documentRoot doc path started).openIn []) (implicitStart started ++ more) =
      nest [.object] more := by
  cases started <;> rfl

theorem nest_bal {st st' : List Opened} {a b : List Event} (ha : Balanced a) (hb : nest st b = some st') :
    nest st (a ++ b) = some st' := by
  rw [nest_append, ha st]; exact hb

theorem Stray.balanced {st : List Opened} {a b : List Event} (ha : Balanced a) (h : Stray st b) :
    Stray st (a ++ b) := by
  obtain ⟨pre, sp, post, rfl, h2⟩ := h
  exact ⟨a ++ pre, sp, post, by simp, nest_bal ha h2⟩

theorem Stray.implicit {doc : Option Span} {path : PathState} {started : Bool} {more : List Event}
    (h : Stray [.object] more) :
    Stray ((PState.documentRoot doc path started).openIn []) (implicitStart started ++ more) := by
  obtain ⟨pre, sp, post, rfl, h2⟩ := h
  exact ⟨implicitStart started ++ pre, sp, post, by simp, by rw [nest_implicit]; exact h2⟩

/-- Outcome of nesting: balanced, or a stray root object was opened and the implicit one is left open. -/
def Nested (st : List Opened) (evs : List Event) : Prop :=
  nest st evs = some [] ∨ (nest st evs = some [.object] ∧ Stray st evs)

theorem Nested.bal {st : List Opened} {a b : List Event} (ha : Balanced a) (h : Nested st b) :
    Nested st (a ++ b) := by
  rcases h with h | ⟨h, h'⟩
  · exact Or.inl (nest_bal ha h)
  · exact Or.inr ⟨nest_bal ha h, h'.balanced ha⟩

theorem Nested.implicit {doc : Option Span} {path : PathState} {started : Bool} {more : List Event}
    (h : Nested [.object] more) :
    Nested ((PState.documentRoot doc path started).openIn []) (implicitStart started ++ more) := by
  rcases h with h | ⟨h, h'⟩
  · exact Or.inl (by rw [nest_implicit]; exact h)
  · exact Or.inr ⟨by rw [nest_implicit]; exact h, h'.implicit⟩

/-- Inside the explicit root object everything is closed. -/
theorem run_inObject {s : List Char} {st : PState} {ls : List Lexeme} {evs : List Event}
    (h : RunR s st ls evs) : ∀ out, st ≠ .beforeDocument → (∀ d p b, st ≠ .documentRoot d p b) →
    nest (st.openIn out) evs = some out := by
  induction h with
  | start => intro out hne; exact absurd rfl hne
  | rootEof => intro out _ hne; exact absurd rfl (hne _ _ _)
  | rootSkip => intro out _ hne; exact absurd rfl (hne _ _ _)
  | rootComment => intro out _ hne; exact absurd rfl (hne _ _ _)
  | rootDoc => intro out _ hne; exact absurd rfl (hne _ _ _)
  | rootBrace => intro out _ hne; exact absurd rfl (hne _ _ _)
  | rootEntry => intro out _ hne; exact absurd rfl (hne _ _ _)
  | objEof => intro out _ _; exact nest_bal (danglingEv_balanced _) rfl
  | objClose _ ih =>
    intro out _ _
    rename_i doc _ _ _ _ _ _
    have := ih out (by simp) (by intros; simp)
    have := nest_bal (danglingEv_balanced doc) (nest_bal (a := [⟨⟨utf8Len s, utf8Len s⟩, .documentEnd⟩])
      (balanced_one rfl) this)
    simpa [nest, nestStep, close, PState.openIn] using this
  | objSkip _ _ ih => intro out _ hne; exact ih out (by simp) (by intros; simp)
  | objComment _ ih => intro out _ hne; exact ih out (by simp) (by intros; simp)
  | objDoc _ ih => intro out _ hne; exact ih out (by simp) (by intros; simp)
  | objEntry _ hc _ ih =>
    intro out _ hne
    exact nest_bal ((quiet_balanced (collect_quiet hc)).append (emitEntryInObject_balanced _ _ _))
      (ih out (by simp) (by intros; simp))
  | after h =>
    intro out _ _
    refine balanced_all ?_ out
    intro e he
    rcases checkTrailing_neutral h e he with ⟨k, hk⟩ | hk <;> rw [hk] <;> rfl
  | exprEnd => intro out _ _; rfl
  | exprSkip _ _ ih => intro out hb hne; exact ih out hb hne
  | expr _ ha =>
    intro out _ _
    exact ((quiet_balanced (atom_quiet ha)).append (emitValue_balanced _)) out

theorem run_nested {s : List Char} {st : PState} {ls : List Lexeme} {evs : List Event}
    (h : RunR s st ls evs) : Nested (st.openIn []) evs := by
  induction h with
  | start _ ih => exact Nested.bal (a := [_]) (balanced_one rfl) ih
  | rootEof =>
    rename_i doc path started
    left
    rw [List.append_assoc]
    exact nest_bal (danglingEv_balanced _) (by cases started <;> rfl)
  | rootSkip _ _ ih => exact ih
  | rootComment _ ih => exact Nested.bal (a := [_]) (balanced_one rfl) ih
  | rootDoc _ ih => exact Nested.implicit (Nested.bal (a := [_]) (balanced_one rfl) ih)
  | rootBrace hr ih =>
    rename_i doc path started sp ls more
    cases started with
    | false => exact Or.inl (run_inObject hr [] (by simp) (by intros; simp))
    | true =>
      right
      have := run_inObject hr [.object] (by simp) (by intros; simp)
      exact ⟨this, [], sp, more, rfl, rfl⟩
  | rootEntry _ hc _ ih =>
    rw [List.append_assoc, List.append_assoc]
    exact Nested.implicit (Nested.bal (quiet_balanced (collect_quiet hc))
      (Nested.bal (emitEntryAtRoot_balanced _ _ _ _) ih))
  | objEof => exact Or.inl (run_inObject .objEof [] (by simp) (by intros; simp))
  | objClose h => exact Or.inl (run_inObject (.objClose h) [] (by simp) (by intros; simp))
  | objSkip hs h => exact Or.inl (run_inObject (.objSkip hs h) [] (by simp) (by intros; simp))
  | objComment h => exact Or.inl (run_inObject (.objComment h) [] (by simp) (by intros; simp))
  | objDoc h => exact Or.inl (run_inObject (.objDoc h) [] (by simp) (by intros; simp))
  | objEntry hs hc h => exact Or.inl (run_inObject (.objEntry hs hc h) [] (by simp) (by intros; simp))
  | after h => exact Or.inl (run_inObject (s := s) (.after h) [] (by simp) (by intros; simp))
  | exprEnd => exact Or.inl rfl
  | exprSkip hs h => exact Or.inl (run_inObject (.exprSkip hs h) [] (by simp) (by intros; simp))
  | expr hs h => exact Or.inl (run_inObject (.expr hs h) [] (by simp) (by intros; simp))

/-! ## Grammar of error-free streams -/

theorem Spec.NoError.left {a b : List Event} (h : NoError (a ++ b)) : NoError a :=
  fun e he => h e (List.mem_append_left _ he)

theorem Spec.NoError.right {a b : List Event} (h : NoError (a ++ b)) : NoError b :=
  fun e he => h e (List.mem_append_right _ he)

theorem Spec.NoError.tail {e : Event} {b : List Event} (h : NoError (e :: b)) : NoError b :=
  fun e he => h e (List.mem_cons_of_mem _ he)

theorem noErr_err {sp : Span} {k : ParseErrorKind} {b : List Event} (h : NoError (errEv sp k :: b)) : False :=
  (h _ (List.mem_cons_self ..)).1 k rfl

theorem noErr_panic {sp : Span} {b : List Event} (h : NoError (⟨sp, .panic⟩ :: b)) : False :=
  (h _ (List.mem_cons_self ..)).2 rfl

theorem noErr_ite {c : Prop} [Decidable c] {sp : Span} {k : ParseErrorKind}
    (h : NoError (if c then [errEv sp k] else [])) : (if c then [errEv sp k] else []) = [] := by
  split at h
  · exact (noErr_err h).elim
  · rename_i hc; rw [if_neg hc]

theorem noErr_map {α : Type} {l : List α} {f : α → Span} {k : α → ParseErrorKind}
    (h : NoError (l.map fun x => errEv (f x) (k x))) : (l.map fun x => errEv (f x) (k x)) = [] := by
  cases l with
  | nil => rfl
  | cons a l => exact (noErr_err h).elim

theorem noErr_escErr {base : Nat} {text : List Char} (h : NoError (escErrEvents base text)) :
    escErrEvents base text = [] := by
  cases he : escErrEvents base text with
  | nil => rfl
  | cons e es =>
    have hm : e ∈ escErrEvents base text := by rw [he]; simp
    have := h e hm
    rcases mem_escErr hm with ⟨_, _, _, rfl⟩ | ⟨_, rfl⟩
    · exact absurd rfl (this.1 _)
    · exact absurd rfl this.2

theorem kinds_append (a b : List Event) : kinds (a ++ b) = kinds a ++ kinds b := List.map_append
theorem kinds_cons (a : Event) (b : List Event) : kinds (a :: b) = a.kind :: kinds b := rfl
theorem kinds_nil : kinds [] = [] := rfl

theorem emitKey_clean {a : Atom} (h : NoError (emitKey a)) :
    ∃ t p k, kinds (emitKey a) = [.key t p k] := by
  cases a with
  | scalar sp v k => exact ⟨_, _, _, rfl⟩
  | unit sp => exact ⟨_, _, _, rfl⟩
  | tag sp name payload invalid errSpan =>
    unfold emitKey at h ⊢
    simp only at h ⊢
    rw [noErr_ite h.left]
    replace h := h.right
    rw [List.nil_append]
    split at h
    · exact ⟨_, _, _, rfl⟩
    · rename_i sp' v k
      have : (if k = .quoted then escErrEvents sp'.start v else []) = [] := by
        replace h := h.left
        split at h
        · rename_i hk; rw [if_pos hk]; exact noErr_escErr h
        · rename_i hk; rw [if_neg hk]
      rw [this]
      exact ⟨_, _, _, rfl⟩
    · exact ⟨_, _, _, rfl⟩
    · exact (noErr_panic h).elim
    · exact (noErr_err h).elim
  | invalidEscapeScalar sp raw =>
    rw [emitKey] at h ⊢
    rw [noErr_escErr h.left]
    exact ⟨_, _, _, rfl⟩
  | error sp m => exact (noErr_err h).elim
  | panic sp => exact (noErr_panic h).elim
  | object => exact (noErr_err h).elim
  | sequence => exact (noErr_err h).elim
  | attributes => exact (noErr_err h).elim

mutual
theorem emitValue_clean : ∀ {a : Atom}, NoError (emitValue a) → IsValue (kinds (emitValue a))
  | .scalar sp v k, _ => .scalar v k
  | .unit sp, _ => .unit
  | .tag sp name payload invalid errSpan, h => by
    rw [emitValue] at h ⊢
    rw [List.append_assoc] at h ⊢
    rw [noErr_ite h.left]
    replace h := h.right.tail.left
    simp only [List.nil_append, kinds_cons, kinds_append, kinds_nil, List.cons_append]
    match payload, h with
    | none, _ => exact .bareTag name
    | some p, h => exact .tag name (emitValue_clean (a := p) h)
  | .object sp entries dups dangling unclosed, h => by
    rw [emitValue] at h ⊢
    simp only [List.cons_append] at h ⊢
    replace h := h.tail.left
    rw [noErr_ite h.left.left.left, noErr_map h.left.left.right, noErr_map h.left.right]
    simp only [List.nil_append, kinds_cons, kinds_append, kinds_nil]
    exact .object (emitEntries_clean h.right)
  | .sequence sp elems unclosed commas, h => by
    rw [emitValue] at h ⊢
    simp only [List.cons_append] at h ⊢
    replace h := h.tail.left
    rw [noErr_ite h.left.left, noErr_map h.left.right]
    simp only [List.nil_append, kinds_cons, kinds_append, kinds_nil]
    exact .sequence (emitElems_clean h.right)
  | .attributes sp attrs, h => by
    rw [emitValue] at h ⊢
    simp only [List.cons_append, kinds_cons, kinds_append, kinds_nil] at h ⊢
    exact .object (emitAttrs_clean h.tail.left)
  | .invalidEscapeScalar sp raw, h => by
    rw [emitValue] at h ⊢
    rw [noErr_escErr h.left]
    exact .scalar _ _
  | .error sp m, h => (noErr_err (k := m.valueError) h).elim
  | .panic sp, h => (noErr_panic h).elim

theorem emitEntries_clean : ∀ {es : List ObjEntry}, NoError (emitEntries es) → IsEntries (kinds (emitEntries es))
  | [], _ => .nil
  | .mk key value doc tooMany :: rest, h => by
    rw [emitEntries_cons] at h ⊢
    have h1 := h.right.tail
    obtain ⟨t, p, k, hk⟩ := emitKey_clean h1.left
    have hv := emitValue_clean h1.right.left
    have hr := emitEntries_clean h1.right.right.right
    have he : kinds (endEvents value tooMany) = [.entryEnd] := by
      cases tooMany with
      | none => rfl
      | some sp => exact (noErr_err h1.right.right.left).elim
    have := IsEntries.entry t p k hv hr
    simp only [kinds_cons, kinds_append, hk, he]
    cases doc with
    | none => simpa [docEvents, kinds_nil] using this
    | some d =>
      have := IsEntries.doc d.2 this
      simpa [docEvents, kinds_nil, kinds_cons] using this

theorem emitElems_clean : ∀ {es : List Atom}, NoError (emitElems es) → IsValues (kinds (emitElems es))
  | [], _ => .nil
  | a :: rest, h => by
    rw [emitElems] at h ⊢
    rw [kinds_append]
    exact .cons (emitValue_clean h.left) (emitElems_clean h.right)

theorem emitAttrs_clean : ∀ {es : List AttrEntry}, NoError (emitAttrs es) → IsEntries (kinds (emitAttrs es))
  | [], _ => .nil
  | .mk key ks value :: rest, h => by
    rw [emitAttrs] at h ⊢
    have := IsEntries.entry none (some key) .bare (emitValue_clean h.tail.tail.left)
      (emitAttrs_clean (es := rest) h.tail.tail.right.tail)
    simpa [kinds_cons, kinds_append] using this
end

/-- Kinds of one entry, possibly after nothing else. -/
theorem isEntries_append {a b : List EventKind} (ha : IsEntries a) (hb : IsEntries b) : IsEntries (a ++ b) := by
  refine IsEntries.rec (motive_1 := fun _ _ => True) (motive_2 := fun _ _ => True)
    (motive_3 := fun a _ => IsEntries (a ++ b)) ?_ ?_ ?_ ?_ ?_ ?_ ?_ ?_ ?_ ?_ ?_ ?_ ha
  all_goals intros
  all_goals first
    | trivial
    | exact hb
    | exact .comment _ (by assumption)
    | exact .doc _ (by assumption)
    | skip
  rename_i t p k v es hv _ _ ih
  have := IsEntries.entry t p k hv ih
  simpa using this

theorem quiet_clean {evs : List Event} (hq : Quiet evs) (hn : NoError evs) : IsComments (kinds evs) := by
  intro c hc
  obtain ⟨e, he, rfl⟩ := List.mem_map.mp hc
  have h1 := hq e he
  have h2 := (hn e he).1
  revert h1 h2
  cases e.kind <;> simp [quietKind]

theorem isComments_entries {cs : List EventKind} (h : IsComments cs) : IsEntries cs := by
  induction cs with
  | nil => exact .nil
  | cons c cs ih =>
    have hr := ih fun c hc => h c (by simp [hc])
    rcases h c (by simp) with ⟨t, rfl⟩ | ⟨ls, rfl⟩
    · exact .comment t hr
    · exact .doc ls hr

theorem entryValue_clean {sp : Span} {rest : List Atom} (h : NoError (entryValueEvents sp rest)) :
    IsValue (kinds (entryValueEvents sp rest)) := by
  cases rest with
  | nil => exact .unit
  | cons v r => exact emitValue_clean h

theorem tooMany_clean {rest : List Atom} (h : NoError (tooManyEvents rest)) : tooManyEvents rest = [] := by
  unfold tooManyEvents at h ⊢
  split
  · exact (noErr_err h).elim
  · rfl

theorem isEntries_one {t p : Option (List Char)} {k : ScalarKind} {v : List EventKind} (h : IsValue v) :
    IsEntries (.entryStart :: .key t p k :: v ++ [.entryEnd]) := .entry t p k h .nil

theorem emitSimpleEntry_clean {key : Atom} {rest : List Atom} (h : NoError (emitSimpleEntry key rest)) :
    IsEntries (kinds (emitSimpleEntry key rest)) := by
  unfold emitSimpleEntry at h ⊢
  simp only [List.cons_append] at h ⊢
  replace h := h.tail.left
  obtain ⟨t, p, k, hk⟩ := emitKey_clean h.left.left
  rw [tooMany_clean h.right]
  have := isEntries_one (t := t) (p := p) (k := k) (entryValue_clean h.left.right)
  simpa [kinds_cons, kinds_append, hk, kinds_nil] using this

theorem dotted_clean {mid : List Event} (hm : IsValue (kinds mid)) (sp : Span) (segs : List (List Char)) :
    segs ≠ [] → ∀ off, IsEntries (kinds (dottedOpen off segs ++ mid ++ dottedClose sp segs.length)) := by
  induction segs with
  | nil => intro h; exact absurd rfl h
  | cons seg segs ih =>
    intro _ off
    cases segs with
    | nil =>
      have := isEntries_one (t := none) (p := some seg) (k := .bare) hm
      simpa [dottedOpen, dottedClose, kinds_cons, kinds_append, kinds_nil] using this
    | cons seg' segs' =>
      have hi := ih (by simp) (off + utf8Len seg + 1)
      have hlen : (seg :: seg' :: segs').length = segs'.length + 2 := rfl
      have hl : (seg' :: segs').length = segs'.length + 1 := rfl
      rw [hlen, dottedClose_snoc, dottedOpen_cons]
      rw [hl] at hi
      have := isEntries_one (t := none) (p := some seg) (k := .bare) (IsValue.object hi)
      simpa [kinds_cons, kinds_append, kinds_nil] using this

theorem pathErr_clean {sp : Span} {e : Option PathError} (h : NoError (pathErrEvents sp e)) :
    pathErrEvents sp e = [] := by
  unfold pathErrEvents at h ⊢
  split
  · rfl
  · exact (noErr_err h).elim
  · exact (noErr_err h).elim
  · exact (noErr_err h).elim

theorem emitDotted_clean {text : List Char} {sp : Span} {rest : List Atom} {path : Option PathState}
    (h : NoError (emitDotted text sp rest path).1) : IsEntries (kinds (emitDotted text sp rest path).1) := by
  unfold emitDotted at h ⊢
  simp only at h ⊢
  split at h
  · exact (noErr_err h).elim
  · rename_i hseg
    rw [if_neg hseg]
    have key : ∀ pe : List Event, (NoError pe → pe = []) →
        NoError (pe ++ dottedOpen sp.start (splitDots text) ++ entryValueEvents sp rest ++
          tooManyEvents rest ++ dottedClose sp (splitDots text).length) →
        IsEntries (kinds (pe ++ dottedOpen sp.start (splitDots text) ++ entryValueEvents sp rest ++
          tooManyEvents rest ++ dottedClose sp (splitDots text).length)) := by
      intro pe hpe h
      rw [hpe h.left.left.left.left, tooMany_clean h.left.right]
      have := dotted_clean (entryValue_clean h.left.left.right) sp (splitDots text) (splitDots_ne text) sp.start
      simpa using this
    cases path with
    | none => exact key [] (fun _ => rfl) h
    | some st => exact key _ (fun h => pathErr_clean h) h

theorem emitEntryAtRoot_clean {input : List Char} {key : Atom} {rest : List Atom} {path : PathState}
    (h : NoError (emitEntryAtRoot input key rest path).1) :
    IsEntries (kinds (emitEntryAtRoot input key rest path).1) := by
  unfold emitEntryAtRoot at h ⊢
  simp only at h ⊢
  split
  · split
    · rename_i hd
      simp only [if_pos hd] at h
      exact emitDotted_clean h
    · rename_i hd
      simp only [if_neg hd] at h
      rw [pathErr_clean h.left]
      exact emitSimpleEntry_clean h.right
  · rename_i hk
    split at h
    · exact absurd rfl (hk _ _)
    · rw [pathErr_clean h.left.right]
      have hs := emitSimpleEntry_clean h.right
      replace h := h.left.left
      split
      · rename_i sp v
        simp only at h
        split at h
        · exact (noErr_err h).elim
        · exact (noErr_panic h).elim
      · simpa using hs

theorem emitEntryInObject_clean {key : Atom} {rest : List Atom} {seen : List (KeyValue × Span)}
    (h : NoError (emitEntryInObject key rest seen).1) :
    IsEntries (kinds (emitEntryInObject key rest seen).1) := by
  have hsimple : ∀ pre : List Event, (NoError pre → pre = []) →
      NoError (match lookupKey (KeyValue.fromAtom key) seen with
        | some original => (pre ++ errEv key.span (.duplicateKey original) :: emitSimpleEntry key rest, seen)
        | none => (pre ++ emitSimpleEntry key rest, (KeyValue.fromAtom key, key.span) :: seen)).1 →
      IsEntries (kinds (match lookupKey (KeyValue.fromAtom key) seen with
        | some original => (pre ++ errEv key.span (.duplicateKey original) :: emitSimpleEntry key rest, seen)
        | none => (pre ++ emitSimpleEntry key rest, (KeyValue.fromAtom key, key.span) :: seen)).1) := by
    intro pre hp h
    split at h
    · exact (noErr_err h.right).elim
    · simp only at h ⊢
      rw [hp h.left]
      exact emitSimpleEntry_clean h.right
  unfold emitEntryInObject at h ⊢
  simp only at h ⊢
  split
  · split
    · rename_i hd
      simp only [if_pos hd] at h
      exact emitDotted_clean h
    · rename_i hd
      simp only [if_neg hd] at h
      refine hsimple _ (fun h => ?_) h; split at h; exact (noErr_err h).elim; rfl
  · rename_i hk
    split at h
    · exact absurd rfl (hk _ _)
    · refine hsimple _ (fun h => ?_) h; split at h; exact (noErr_err h).elim; rfl

theorem danglingEv_clean {doc : Option Span} (h : NoError (danglingEv doc)) : danglingEv doc = [] := by
  cases doc with
  | none => rfl
  | some d => exact (noErr_err h).elim

theorem trailing_clean {ls : List Lexeme} {evs : List Event} {st : PState} {ls' : List Lexeme}
    (h : checkTrailing ls = some (evs, st, ls')) (hn : NoError evs) : evs = [] := by
  cases evs with
  | nil => rfl
  | cons e es =>
    rcases checkTrailing_neutral h e (by simp) with ⟨k, hk⟩ | hk
    · exact absurd hk ((hn e (by simp)).1 k)
    · exact absurd hk (hn e (by simp)).2

/-- What follows in an error-free stream inside the root object. -/
def TailOK (ks : List EventKind) : Prop :=
  ∃ es, IsEntries es ∧ ks = es ++ [.objectEnd, .documentEnd]

/-- The same, or with a stray second root object. -/
def TailOK' (ks : List EventKind) : Prop :=
  TailOK ks ∨ ∃ es ks', IsEntries es ∧ TailOK ks' ∧ ks = es ++ .objectStart :: ks'

theorem TailOK.prepend {es ks : List EventKind} (he : IsEntries es) (h : TailOK ks) : TailOK (es ++ ks) := by
  obtain ⟨es', h1, rfl⟩ := h
  exact ⟨es ++ es', isEntries_append he h1, by simp⟩

theorem TailOK'.prepend {es ks : List EventKind} (he : IsEntries es) (h : TailOK' ks) : TailOK' (es ++ ks) := by
  rcases h with h | ⟨es', ks', h1, h2, rfl⟩
  · exact Or.inl (h.prepend he)
  · exact Or.inr ⟨es ++ es', ks', isEntries_append he h1, h2, by simp⟩

/-- Shape of an error-free stream in each state of the parser. -/
def Shape : PState → List EventKind → Prop
  | .beforeDocument, ks => ∃ cs tl, IsComments cs ∧ ks = .documentStart :: cs ++ tl ∧
      (tl = [.documentEnd] ∨ ∃ ks', TailOK' ks' ∧ tl = .objectStart :: ks')
  | .documentRoot _ _ true, ks => TailOK' ks
  | .documentRoot _ _ false, ks => ∃ cs tl, IsComments cs ∧ ks = cs ++ tl ∧
      (tl = [.documentEnd] ∨ ∃ ks', TailOK' ks' ∧ tl = .objectStart :: ks')
  | .inObject .., ks => TailOK ks
  | .afterDocument, ks => ks = []
  | .beforeExpression, ks => ks = [] ∨ ∃ cs v, IsComments cs ∧ IsValue v ∧ ks = cs ++ v
  | .afterExpression, ks => ks = []

theorem isComments_nil : IsComments [] := by intro c hc; cases hc

theorem shape_implicit {doc : Option Span} {path : PathState} {started : Bool} {more : List Event}
    (h : TailOK' (kinds more)) :
    Shape (.documentRoot doc path started) (kinds (implicitStart started ++ more)) := by
  cases started with
  | true => exact h
  | false => exact ⟨[], _, isComments_nil, rfl, Or.inr ⟨_, h, rfl⟩⟩

theorem run_shape {s : List Char} {st : PState} {ls : List Lexeme} {evs : List Event}
    (h : RunR s st ls evs) : NoError evs → Shape st (kinds evs) := by
  induction h with
  | start _ ih =>
    intro hn
    obtain ⟨cs, tl, h1, h2, h3⟩ := ih hn.tail
    exact ⟨cs, tl, h1, by rw [kinds_cons, h2]; rfl, h3⟩
  | rootEof =>
    intro hn
    rename_i doc path started
    rw [danglingEv_clean hn.left.left]
    cases started with
    | true => exact Or.inl ⟨[], .nil, rfl⟩
    | false => exact ⟨[], _, isComments_nil, rfl, Or.inl rfl⟩
  | rootSkip _ _ ih => exact ih
  | rootComment _ ih =>
    intro hn
    rename_i doc path started sp text ls more _
    have := ih hn.tail
    cases started with
    | true => exact TailOK'.prepend (es := [_]) (.comment _ .nil) this
    | false =>
      obtain ⟨cs, tl, h1, h2, h3⟩ := this
      refine ⟨.comment text :: cs, tl, ?_, by rw [kinds_cons, h2]; rfl, h3⟩
      intro c hc
      rcases List.mem_cons.mp hc with rfl | hc
      · exact Or.inl ⟨_, rfl⟩
      · exact h1 c hc
  | rootDoc _ ih =>
    intro hn
    have := ih hn.right.tail
    exact shape_implicit (TailOK'.prepend (es := [_]) (.doc _ .nil) this)
  | rootBrace _ ih =>
    intro hn
    rename_i doc path started sp ls more _
    have := ih hn.tail
    cases started with
    | true => exact Or.inr ⟨[], _, .nil, this, rfl⟩
    | false => exact ⟨[], _, isComments_nil, rfl, Or.inr ⟨_, Or.inl this, rfl⟩⟩
  | rootEntry _ hc _ ih =>
    intro hn
    have := ih hn.right
    rw [List.append_assoc, List.append_assoc]
    refine shape_implicit ?_
    rw [kinds_append, kinds_append]
    exact TailOK'.prepend (isComments_entries (quiet_clean (collect_quiet hc) hn.left.left.right))
      (TailOK'.prepend (emitEntryAtRoot_clean hn.left.right) this)
  | objEof => intro hn; exact (noErr_err hn.right).elim
  | objClose _ ih =>
    intro hn
    have h1 : kinds _ = [] := ih hn.right
    have h2 := danglingEv_clean hn.left.left.tail
    refine ⟨[], .nil, ?_⟩
    simp only [kinds_append, kinds_cons, List.cons_append, h1, h2]
    rfl
  | objSkip _ _ ih => exact ih
  | objComment _ ih => intro hn; exact TailOK.prepend (es := [_]) (.comment _ .nil) (ih hn.tail)
  | objDoc _ ih => intro hn; exact TailOK.prepend (es := [_]) (.doc _ .nil) (ih hn.tail)
  | objEntry _ hc _ ih =>
    intro hn
    rw [List.append_assoc, kinds_append, kinds_append]
    exact TailOK.prepend (isComments_entries (quiet_clean (collect_quiet hc) hn.left.left))
      (TailOK.prepend (emitEntryInObject_clean hn.left.right) (ih hn.right))
  | after h => intro hn; rw [trailing_clean h hn]; rfl
  | exprEnd => intro hn; exact Or.inl rfl
  | exprSkip _ _ ih => exact ih
  | expr _ ha =>
    intro hn
    exact Or.inr ⟨_, _, quiet_clean (atom_quiet ha) hn.left, emitValue_clean hn.right, kinds_append _ _⟩

/-! ## Entries inside grammatical streams -/

/-- Every entry start is followed by a key, a value and the entry's end. -/
def EntryOK (ks : List EventKind) : Prop :=
  ∀ pre post, ks = pre ++ .entryStart :: post →
    ∃ t p k v post', post = .key t p k :: v ++ .entryEnd :: post' ∧ IsValue v

theorem EntryOK.append {a b : List EventKind} (ha : EntryOK a) (hb : EntryOK b) : EntryOK (a ++ b) := by
  intro pre post h
  rcases List.append_eq_append_iff.mp h with ⟨c, h1, h2⟩ | ⟨c, h1, h2⟩
  · exact hb _ _ h2
  · cases c with
    | nil => exact hb [] post (by simpa using h2.symm)
    | cons x c =>
      simp only [List.cons_append, List.cons.injEq] at h2
      obtain ⟨rfl, rfl⟩ := h2
      obtain ⟨t, p, k, v, post', h3, h4⟩ := ha pre c h1
      exact ⟨t, p, k, v, post' ++ b, by rw [h3]; simp, h4⟩

theorem entryOK_none {ks : List EventKind} (h : .entryStart ∉ ks) : EntryOK ks := by
  intro pre post e
  exact absurd (by rw [e]; simp) h

theorem EntryOK.cons {k : EventKind} {ks : List EventKind} (hk : k ≠ .entryStart) (h : EntryOK ks) :
    EntryOK (k :: ks) :=
  EntryOK.append (a := [k]) (entryOK_none (by simpa using Ne.symm hk)) h

theorem entryOK_entry {t p : Option (List Char)} {k : ScalarKind} {v es : List EventKind} (hv : IsValue v)
    (h1 : EntryOK v) (h2 : EntryOK es) : EntryOK (.entryStart :: .key t p k :: v ++ .entryEnd :: es) := by
  intro pre post e
  cases pre with
  | nil =>
    simp only [List.nil_append, List.cons_append, List.cons.injEq, true_and] at e
    exact ⟨t, p, k, v, es, e.symm, hv⟩
  | cons x pre =>
    simp only [List.cons_append, List.cons.injEq] at e
    exact EntryOK.cons (by simp) (h1.append (EntryOK.cons (by simp) h2)) pre post e.2

mutual
theorem isValue_ok : ∀ {v : List EventKind}, IsValue v → EntryOK v
  | _, .scalar _ _ => entryOK_none (by simp)
  | _, .unit => entryOK_none (by simp)
  | _, .bareTag _ => entryOK_none (by simp)
  | _, .tag _ h => EntryOK.cons (by simp) ((isValue_ok h).append (entryOK_none (by simp)))
  | _, .sequence h => EntryOK.cons (by simp) ((isValues_ok h).append (entryOK_none (by simp)))
  | _, .object h => EntryOK.cons (by simp) ((isEntries_ok h).append (entryOK_none (by simp)))

theorem isValues_ok : ∀ {v : List EventKind}, IsValues v → EntryOK v
  | _, .nil => entryOK_none (by simp)
  | _, .cons h1 h2 => (isValue_ok h1).append (isValues_ok h2)

theorem isEntries_ok : ∀ {v : List EventKind}, IsEntries v → EntryOK v
  | _, .nil => entryOK_none (by simp)
  | _, .comment _ h => EntryOK.cons (by simp) (isEntries_ok h)
  | _, .doc _ h => EntryOK.cons (by simp) (isEntries_ok h)
  | _, .entry _ _ _ h1 h2 => entryOK_entry h1 (isValue_ok h1) (isEntries_ok h2)
end

theorem tailOK_ok {ks : List EventKind} (h : TailOK' ks) : EntryOK ks := by
  have h0 : ∀ {ks}, TailOK ks → EntryOK ks := by
    rintro ks ⟨es, h1, rfl⟩
    exact (isEntries_ok h1).append (entryOK_none (by simp))
  rcases h with h | ⟨es, ks', h1, h2, rfl⟩
  · exact h0 h
  · exact (isEntries_ok h1).append (EntryOK.cons (by simp) (h0 h2))

theorem isComments_ok {cs : List EventKind} (h : IsComments cs) : EntryOK cs := by
  refine entryOK_none fun hm => ?_
  rcases h _ hm with ⟨_, h⟩ | ⟨_, h⟩ <;> cases h

/-- Entries of every error-free document or expression. -/
theorem shape_entryOK {st : PState} {ks : List EventKind}
    (h : Shape st ks) : EntryOK ks := by
  have hroot : ∀ {ks}, (∃ cs tl, IsComments cs ∧ ks = cs ++ tl ∧
      (tl = [.documentEnd] ∨ ∃ ks', TailOK' ks' ∧ tl = .objectStart :: ks')) → EntryOK ks := by
    rintro ks ⟨cs, tl, h1, rfl, h2⟩
    refine (isComments_ok h1).append ?_
    rcases h2 with rfl | ⟨ks', h3, rfl⟩
    · exact entryOK_none (by simp)
    · exact EntryOK.cons (by simp) (tailOK_ok h3)
  cases st with
  | beforeDocument =>
    obtain ⟨cs, tl, h1, rfl, h2⟩ := h
    exact EntryOK.cons (by simp) (hroot ⟨cs, tl, h1, rfl, h2⟩)
  | beforeExpression =>
    rcases h with rfl | ⟨cs, v, h1, h2, rfl⟩
    · exact entryOK_none (by simp)
    · exact (isComments_ok h1).append (isValue_ok h2)
  | documentRoot doc path started =>
    cases started with
    | true => exact tailOK_ok h
    | false => exact hroot h
  | inObject => exact tailOK_ok (Or.inl h)
  | afterDocument => cases h; exact entryOK_none (by simp)
  | afterExpression => cases h; exact entryOK_none (by simp)

end Styx
