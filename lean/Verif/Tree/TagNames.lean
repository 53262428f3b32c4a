import Verif.Parse.EventInv
import Verif.Tree.SpanRun
import Verif.Tree.SpanSpec

/-!
# The names of the tags of a parsed tree

Every tag of a tree that the parser gives has a name of the form the parser checks: other names make it report an error,
and then there is no tree.
-/

namespace Styx

open Spec

/-! ## Events -/

/-- The name of the tag that an event carries. -/
def eventTag : EventKind → Option (List Char)
  | .tagStart n => some n
  | .key (some n) _ _ => some n
  | _ => none

/-- If there are no errors among the events, all names of tags are valid. -/
def Named (evs : List Event) : Prop :=
  (∀ e ∈ evs, ∀ k, e.kind ≠ .error k) → ∀ e ∈ evs, ∀ n, eventTag e.kind = some n → isValidTagName n = true

theorem Named.append {a b : List Event} (ha : Named a) (hb : Named b) : Named (a ++ b) := by
  intro h e he
  rcases List.mem_append.1 he with he | he
  · exact ha (fun x hx => h x (List.mem_append_left _ hx)) e he
  · exact hb (fun x hx => h x (List.mem_append_right _ hx)) e he

theorem named_all {evs : List Event} (h : ∀ e ∈ evs, eventTag e.kind = none) : Named evs := by
  intro _ e he n hn
  rw [h e he] at hn
  cases hn

theorem named_nil : Named [] := named_all (by simp)

theorem named_one {e : Event} (h : eventTag e.kind = none) : Named [e] := named_all (by simpa using h)

theorem Named.cons {e : Event} {evs : List Event} (h : eventTag e.kind = none) (ht : Named evs) : Named (e :: evs) :=
  (named_one h).append ht

theorem named_if {c : Prop} [Decidable c] {a b : List Event} (ha : Named a) (hb : Named b) :
    Named (if c then a else b) := by split <;> assumption

theorem named_escErr (base : Nat) (text : List Char) : Named (escErrEvents base text) := by
  refine named_all fun e he => ?_
  unfold escErrEvents at he
  obtain ⟨x, -, rfl⟩ := List.mem_map.1 he
  cases x <;> rfl

theorem named_errs {α : Type} (l : List α) (f : α → Span) (k : α → ParseErrorKind) :
    Named (l.map fun d => errEv (f d) (k d)) := by
  refine named_all fun e he => ?_
  obtain ⟨x, -, rfl⟩ := List.mem_map.1 he
  rfl

/-! ## Atoms -/

/-- The events of the atom, as a value and as a key. -/
def AtomNamed (a : Atom) : Prop := Named (emitValue a) ∧ Named (emitKey a)

theorem tag_named {sp : Span} {n : List Char} {p : Option Atom} {i : Bool} {e : Option Span}
    (hi : i = false → isValidTagName n = true) (hp : ∀ a, p = some a → AtomNamed a) : AtomNamed (.tag sp n p i e) := by
  have pre : ∀ {evs : List Event}, (isValidTagName n = true → Named evs) →
      Named ((if i then [errEv (e.getD sp) .invalidTagName] else []) ++ evs) := by
    intro evs h
    cases i with
    | true =>
      intro hn
      exact absurd rfl (hn (errEv (e.getD sp) .invalidTagName) (by simp) _)
    | false => simpa using h (hi rfl)
  have one : ∀ {k : EventKind} {r : List Event}, isValidTagName n = true → (eventTag k = some n ∨ eventTag k = none) →
      Named r → Named (⟨sp, k⟩ :: r) := by
    intro k r hv hk hr hn x hx m hm
    rcases List.mem_cons.1 hx with rfl | hx
    · rcases hk with hk | hk
      · rw [hk] at hm; cases hm; exact hv
      · rw [hk] at hm; cases hm
    · exact hr (fun y hy => hn y (List.mem_cons_of_mem _ hy)) x hx m hm
  constructor
  · rw [emitValue, List.append_assoc]
    refine pre fun hv => ?_
    refine one hv (.inl rfl) (Named.append ?_ (named_one rfl))
    cases p with
    | none => exact named_nil
    | some a => exact (hp a rfl).1
  · rw [emitKey.eq_def]
    refine pre fun hv => ?_
    cases p with
    | none => exact one hv (.inl rfl) named_nil
    | some a =>
      cases a with
      | scalar sp' v k => exact Named.append (named_if (named_escErr _ _) named_nil) (one hv (.inl rfl) named_nil)
      | unit => exact one hv (.inl rfl) named_nil
      | panic => exact named_one rfl
      | tag => exact named_one rfl
      | object => exact named_one rfl
      | sequence => exact named_one rfl
      | attributes => exact named_one rfl
      | invalidEscapeScalar => exact named_one rfl
      | error => exact named_one rfl

theorem chain_named {segs : List (List Char × Span)} {p : Option Atom} (hp : ∀ a, p = some a → AtomNamed a) :
    AtomNamed (buildTagChain segs p) := by
  match segs with
  | [] => exact ⟨named_one rfl, named_one rfl⟩
  | [x] =>
    obtain ⟨n, sp⟩ := x
    exact tag_named (by simp) hp
  | x :: y :: r =>
    obtain ⟨n, sp⟩ := x
    have := chain_named (segs := y :: r) hp
    exact tag_named (by simp) (by rintro a ⟨⟩; exact this)

/-- The events of the key and of the value of an entry. -/
def EntryNamed : ObjEntry → Prop
  | .mk k v _ _ => AtomNamed k ∧ AtomNamed v

theorem entries_named : ∀ {es : List ObjEntry}, (∀ e ∈ es, EntryNamed e) → Named (emitEntries es)
  | [], _ => named_nil
  | .mk k v doc tooMany :: es, h => by
    obtain ⟨h1, h2⟩ := h _ (List.mem_cons_self ..)
    rw [emitEntries_cons]
    refine Named.append ?_ (Named.cons rfl (h1.2.append (h2.1.append (Named.append ?_
      (entries_named fun e he => h e (List.mem_cons_of_mem _ he))))))
    · cases doc with
      | none => exact named_nil
      | some d => exact named_one rfl
    · cases tooMany with
      | none => exact named_one rfl
      | some d => exact Named.cons rfl (named_one rfl)

theorem elems_named : ∀ {es : List Atom}, (∀ e ∈ es, AtomNamed e) → Named (emitElems es)
  | [], _ => named_nil
  | a :: es, h => by
    rw [emitElems]
    exact (h a (List.mem_cons_self ..)).1.append (elems_named fun e he => h e (List.mem_cons_of_mem _ he))

/-- The events of the values of attributes. -/
def AttrNamed : AttrEntry → Prop
  | .mk _ _ v => AtomNamed v

theorem attrs_named : ∀ {es : List AttrEntry}, (∀ e ∈ es, AttrNamed e) → Named (emitAttrs es)
  | [], _ => named_nil
  | .mk key ks v :: es, h => by
    rw [emitAttrs]
    exact Named.cons rfl (Named.cons rfl ((show AtomNamed v from h _ (List.mem_cons_self ..)).1.append
      (Named.cons rfl (attrs_named fun e he => h e (List.mem_cons_of_mem _ he)))))

theorem object_named {sp : Span} {es : List ObjEntry} {dups : List (Span × Span)} {dangling : List Span} {u : Bool}
    (h : ∀ e ∈ es, EntryNamed e) : AtomNamed (.object sp es dups dangling u) := by
  refine ⟨?_, named_one rfl⟩
  rw [emitValue]
  exact Named.append (Named.append (Named.append (Named.append (Named.cons rfl (named_if (named_one rfl) named_nil))
    (named_errs _ _ _)) (named_errs _ _ _)) (entries_named h)) (named_one rfl)

theorem sequence_named {sp : Span} {es : List Atom} {commas : List Span} {u : Bool}
    (h : ∀ e ∈ es, AtomNamed e) : AtomNamed (.sequence sp es u commas) := by
  refine ⟨?_, named_one rfl⟩
  rw [emitValue]
  exact Named.append (Named.append (Named.append (Named.cons rfl (named_if (named_one rfl) named_nil))
    (named_errs _ _ _)) (elems_named h)) (named_one rfl)

theorem attributes_named {sp : Span} {es : List AttrEntry} (h : ∀ e ∈ es, AttrNamed e) :
    AtomNamed (.attributes sp es) := by
  refine ⟨?_, named_one rfl⟩
  rw [emitValue]
  exact Named.append (Named.cons rfl (attrs_named h)) (named_one rfl)

theorem unit_named {sp : Span} : AtomNamed (.unit sp) := ⟨named_one rfl, named_one rfl⟩

theorem leaf_named {input : List Char} {l : Lexeme} {a : Atom} (h : leafAtom input l = some a) : AtomNamed a := by
  have key : (∃ sp v k, a = .scalar sp v k) ∨ (∃ sp raw, a = .invalidEscapeScalar sp raw) ∨ (∃ sp, a = .panic sp) ∨
      ∃ sp m, a = .error sp m := by
    unfold leafAtom at h
    repeat' split at h
    all_goals first
      | cases h; done
      | (simp only [Option.some.injEq] at h; subst h; simp)
  rcases key with ⟨sp, v, k, rfl⟩ | ⟨sp, raw, rfl⟩ | ⟨sp, rfl⟩ | ⟨sp, m, rfl⟩
  · exact ⟨named_one rfl, named_one rfl⟩
  · exact ⟨(named_escErr _ _).append (named_one rfl), (named_escErr _ _).append (named_one rfl)⟩
  · exact ⟨named_one rfl, named_one rfl⟩
  · exact ⟨named_one rfl, named_one rfl⟩

theorem entryValue_named {key : Atom} {rest : List Atom} (h : ∀ a ∈ rest, AtomNamed a) :
    AtomNamed (entryValue key rest).1 := by
  match rest with
  | [] => exact unit_named
  | [v] => exact h v (List.mem_cons_self ..)
  | v :: x :: r => exact h v (List.mem_cons_self ..)

theorem missing_named (first : Atom) (only : Bool) (l : Lexeme) : Named (missingSpace first only l) := by
  unfold missingSpace
  split
  · exact named_if (named_one rfl) named_nil
  · exact named_if (named_one rfl) named_nil
  · exact named_nil

section
variable (s : List Char)

/-- What is proved of runs that give an atom, the rest of the atoms of an entry, and attributes. -/
def AtomRun (a : Atom) (evs : List Event) : Prop := AtomNamed a ∧ Named evs

theorem runs_named :
    (∀ {l ls a evs ls'}, AtomR s l ls a evs ls' → AtomRun a evs) ∧
    (∀ {f o ls rest evs ls'}, RestR s f o ls rest evs ls' → (∀ a ∈ rest, AtomNamed a) ∧ Named evs) := by
  have both : ∀ {l ls a evs ls'}, AtomR s l ls a evs ls' → AtomRun a evs := by
    intro l ls a evs ls' h
    refine AtomR.rec
      (motive_1 := fun l ls a evs ls' _ => AtomRun a evs)
      (motive_2 := fun start entries seen dups docs ls a evs ls' _ => (∀ e ∈ entries, EntryNamed e) → AtomRun a evs)
      (motive_3 := fun start elems commas ls a evs ls' _ => (∀ e ∈ elems, AtomNamed e) → AtomRun a evs)
      (motive_4 := fun ls attrs evs ls' _ => (∀ e ∈ attrs, AttrNamed e) ∧ Named evs)
      (motive_5 := fun l ls key rest evs ls' _ => AtomNamed key ∧ (∀ e ∈ rest, AtomNamed e) ∧ Named evs)
      (motive_6 := fun first only ls rest evs ls' _ => (∀ e ∈ rest, AtomNamed e) ∧ Named evs)
      ?leaf ?unit ?unitBare ?tag ?tagPayload ?tagDot ?object ?sequence ?attrs
      ?oeof ?oclose ?oskip ?odoc ?oentry ?seof ?sclose ?sskip ?scomma ?selem ?astop ?aattr ?cmk
      ?rstop ?rcomment ?rdoc ?rmore h
    case leaf => intro l ls a hl; exact ⟨leaf_named hl, named_nil⟩
    case unit => intro sp ls; exact ⟨unit_named, named_nil⟩
    case unitBare =>
      intro sp sp' v ls _
      exact ⟨tag_named (nofun) (by rintro a ⟨⟩; exact ⟨named_one rfl, named_one rfl⟩), named_nil⟩
    case tag => intro sp name hp ls _; exact ⟨chain_named (nofun), named_nil⟩
    case tagPayload =>
      intro sp name hp ls nxt ls' p evs ls'' _ _ _ ih
      exact ⟨chain_named (by rintro a ⟨⟩; exact ih.1), ih.2⟩
    case tagDot => intro sp name hp sp' v ls _ _; exact ⟨tag_named (nofun) (nofun), named_nil⟩
    case object => intro sp ls a evs ls' _ ih; exact ih (by simp)
    case sequence => intro sp ls a evs ls' _ ih; exact ih (by simp)
    case attrs =>
      intro sp ks key ls nxt ls' v evs ls'' attrs evs' ls''' _ _ _ ih1 ih2
      refine ⟨attributes_named fun e he => ?_, ih1.2.append ih2.2⟩
      rcases List.mem_cons.1 he with rfl | he
      · exact ih1.1
      · exact ih2.1 e he
    case oeof => intro start entries seen dups docs h; exact ⟨object_named (by simpa using h), named_nil⟩
    case oclose => intro start entries seen dups docs sp ls h; exact ⟨object_named (by simpa using h), named_nil⟩
    case oskip => intro start entries seen dups docs l ls a evs ls' _ _ ih h; exact ih h
    case odoc => intro start entries seen dups docs sp text ls a evs ls' _ ih h; exact ih h
    case oentry =>
      intro start entries seen dups docs l ls key rest evs ls' a evs' ls'' _ _ _ ih1 ih2 h
      obtain ⟨i1, i2⟩ := ih2 (by
        intro e he
        rcases List.mem_cons.1 he with rfl | he
        · exact ⟨ih1.1, entryValue_named ih1.2.1⟩
        · exact h e he)
      exact ⟨i1, ih1.2.2.append i2⟩
    case seof => intro start elems commas h; exact ⟨sequence_named (by simpa using h), named_nil⟩
    case sclose => intro start elems commas sp ls h; exact ⟨sequence_named (by simpa using h), named_nil⟩
    case sskip => intro start elems commas l ls a evs ls' _ _ ih h; exact ih h
    case scomma => intro start elems commas sp ls a evs ls' _ ih h; exact ih h
    case selem =>
      intro start elems commas l ls e evs ls' a evs' ls'' _ _ _ ih1 ih2 h
      obtain ⟨i1, i2⟩ := ih2 (by
        intro x hx
        rcases List.mem_cons.1 hx with rfl | hx
        · exact ih1.1
        · exact h x hx)
      exact ⟨i1, ih1.2.append i2⟩
    case astop => intro ls _; exact ⟨by simp, named_nil⟩
    case aattr =>
      intro sp ks key ls nxt ls' v evs ls'' attrs evs' ls''' _ _ _ ih1 ih2
      refine ⟨fun e he => ?_, ih1.2.append ih2.2⟩
      rcases List.mem_cons.1 he with rfl | he
      · exact ih1.1
      · exact ih2.1 e he
    case cmk =>
      intro l ls a evs ls' rest evs' ls'' _ _ ih1 ih2
      exact ⟨ih1.1, ih2.1, ih1.2.append ih2.2⟩
    case rstop => intro first only ls _; exact ⟨by simp, named_nil⟩
    case rcomment => intro first only sp text ls; exact ⟨by simp, named_one rfl⟩
    case rdoc => intro first only sp text ls; exact ⟨by simp, named_one rfl⟩
    case rmore =>
      intro first only l ls a evs ls' rest evs' ls'' _ _ _ ih1 ih2
      refine ⟨fun e he => ?_, ((missing_named _ _ _).append ih1.2).append ih2.2⟩
      rcases List.mem_cons.1 he with rfl | he
      · exact ih1.1
      · exact ih2.1 e he
  refine ⟨both, ?_⟩
  intro f o ls rest evs ls' h
  refine RestR.rec
    (motive_1 := fun _ _ _ _ _ _ => True) (motive_2 := fun _ _ _ _ _ _ _ _ _ _ => True)
    (motive_3 := fun _ _ _ _ _ _ _ _ => True) (motive_4 := fun _ _ _ _ _ => True)
    (motive_5 := fun _ _ _ _ _ _ _ => True)
    (motive_6 := fun first only ls rest evs ls' _ => (∀ e ∈ rest, AtomNamed e) ∧ Named evs)
    ?leaf ?unit ?unitBare ?tag ?tagPayload ?tagDot ?object ?sequence ?attrs
    ?oeof ?oclose ?oskip ?odoc ?oentry ?seof ?sclose ?sskip ?scomma ?selem ?astop ?aattr ?cmk
    ?rstop ?rcomment ?rdoc ?rmore h
  case rstop => intro first only ls _; exact ⟨by simp, named_nil⟩
  case rcomment => intro first only sp text ls; exact ⟨by simp, named_one rfl⟩
  case rdoc => intro first only sp text ls; exact ⟨by simp, named_one rfl⟩
  case rmore =>
    intro first only l ls a evs ls' rest evs' ls'' _ ha _ _ ih2
    have ih1 := both ha
    refine ⟨fun e he => ?_, ((missing_named _ _ _).append ih1.2).append ih2.2⟩
    rcases List.mem_cons.1 he with rfl | he
    · exact ih1.1
    · exact ih2.1 e he
  all_goals (intros; trivial)

end

theorem collect_named {s : List Char} {l : Lexeme} {ls : List Lexeme} {key : Atom} {rest : List Atom}
    {evs : List Event} {ls' : List Lexeme} (h : CollectR s l ls key rest evs ls') :
    AtomNamed key ∧ (∀ a ∈ rest, AtomNamed a) ∧ Named evs := by
  cases h with
  | mk h1 h2 =>
    have a := (runs_named s).1 h1
    have b := (runs_named s).2 h2
    exact ⟨a.1, b.1, a.2.append b.2⟩

/-! ## The whole document -/

theorem entryValueEvents_named {sp : Span} {rest : List Atom} (h : ∀ a ∈ rest, AtomNamed a) :
    Named (entryValueEvents sp rest) := by
  cases rest with
  | nil => exact named_one rfl
  | cons v r => exact (h v (List.mem_cons_self ..)).1

theorem tooMany_named (rest : List Atom) : Named (tooManyEvents rest) := by
  unfold tooManyEvents
  split
  · exact named_one rfl
  · exact named_nil

theorem simpleEntry_named {key : Atom} {rest : List Atom} (hk : AtomNamed key) (hr : ∀ a ∈ rest, AtomNamed a) :
    Named (emitSimpleEntry key rest) :=
  Named.append (Named.append (Named.append (Named.cons rfl hk.2) (entryValueEvents_named hr)) (tooMany_named _)) (named_one rfl)

theorem dottedOpen_named : ∀ (n : Nat) (segs : List (List Char)), Named (dottedOpen n segs)
  | _, [] => named_nil
  | n, seg :: segs => by
    rw [dottedOpen]
    exact Named.append (Named.cons rfl (Named.cons rfl (named_if named_nil (named_one rfl)))) (dottedOpen_named _ segs)

theorem dottedClose_named (sp : Span) : ∀ n, Named (dottedClose sp n)
  | 0 => named_nil
  | 1 => named_one rfl
  | n + 2 => Named.cons rfl (Named.cons rfl (dottedClose_named sp (n + 1)))

theorem pathErr_named (sp : Span) (e : Option PathError) : Named (pathErrEvents sp e) := by
  unfold pathErrEvents
  split
  · exact named_nil
  all_goals exact named_one rfl

theorem dotted_named {text : List Char} {sp : Span} {rest : List Atom} {path : Option PathState}
    (hr : ∀ a ∈ rest, AtomNamed a) : Named (emitDotted text sp rest path).1 := by
  unfold emitDotted
  dsimp only
  split
  · exact Named.cons rfl (Named.cons rfl (named_one rfl))
  · cases path with
    | none =>
      exact Named.append (Named.append (Named.append (named_nil.append (dottedOpen_named _ _)) (entryValueEvents_named hr))
        (tooMany_named _)) (dottedClose_named _ _)
    | some p =>
      exact Named.append (Named.append (Named.append ((pathErr_named _ _).append (dottedOpen_named _ _))
        (entryValueEvents_named hr)) (tooMany_named _)) (dottedClose_named _ _)

theorem rootEntry_named {s : List Char} {key : Atom} {rest : List Atom} {path : PathState} (hk : AtomNamed key)
    (hr : ∀ a ∈ rest, AtomNamed a) : Named (emitEntryAtRoot s key rest path).1 := by
  have hpre : Named (match (generalizing := false) key with
    | .scalar sp _ .heredoc =>
      match heredocStartSpan s sp with
      | some sp' => [errEv sp' .invalidKey]
      | none => [⟨sp, .panic⟩]
    | _ => []) := by
    split
    · split
      · exact named_one rfl
      · exact named_one rfl
    · exact named_nil
  unfold emitEntryAtRoot
  dsimp only
  split
  · split
    · exact dotted_named hr
    · exact (pathErr_named _ _).append (simpleEntry_named hk hr)
  · exact (hpre.append (pathErr_named _ _)).append (simpleEntry_named hk hr)

theorem objectEntry_named {key : Atom} {rest : List Atom} {seen : List (KeyValue × Span)} (hk : AtomNamed key)
    (hr : ∀ a ∈ rest, AtomNamed a) : Named (emitEntryInObject key rest seen).1 := by
  have hpre : Named (match (generalizing := false) key with
    | .scalar sp _ .heredoc => [errEv sp .invalidKey]
    | _ => []) := by
    split
    · exact named_one rfl
    · exact named_nil
  have hs : ∀ (o : Option Span) (kv : KeyValue), Named (match o with
    | some original => ((match (generalizing := false) key with
        | .scalar sp _ .heredoc => [errEv sp .invalidKey]
        | _ => []) ++ errEv key.span (.duplicateKey original) :: emitSimpleEntry key rest, seen)
    | none => ((match (generalizing := false) key with
        | .scalar sp _ .heredoc => [errEv sp .invalidKey]
        | _ => []) ++ emitSimpleEntry key rest, (kv, key.span) :: seen)).1 := by
    intro o kv
    cases o with
    | some o => exact hpre.append (Named.cons rfl (simpleEntry_named hk hr))
    | none => exact hpre.append (simpleEntry_named hk hr)
  unfold emitEntryInObject
  dsimp only
  split
  · split
    · exact dotted_named hr
    · exact hs _ _
  · exact hs _ _

theorem trailing_named : ∀ {ls : List Lexeme} {evs : List Event} {st : PState} {r : List Lexeme},
    checkTrailing ls = some (evs, st, r) → Named evs := by
  intro ls
  induction ls with
  | nil => intro evs st r h; cases h; exact named_nil
  | cons l ls ih =>
    intro evs st r h
    cases l <;> first
      | exact ih h
      | (simp only [checkTrailing, Option.some.injEq, Prod.mk.injEq] at h
         obtain ⟨rfl, -⟩ := h
         first
          | exact named_one rfl
          | exact (named_one rfl).append (named_if (named_one rfl) named_nil))

theorem dangling_named (doc : Option Span) : Named (danglingEv doc) := by
  cases doc with
  | none => exact named_nil
  | some _ => exact named_one rfl

theorem implicit_named (b : Bool) : Named (implicitStart b) := named_if named_nil (named_one rfl)

theorem run_named {s : List Char} {st : PState} {ls : List Lexeme} {evs : List Event} (h : RunR s st ls evs) :
    Named evs := by
  induction h with
  | start _ ih => exact Named.cons rfl ih
  | rootEof => exact ((dangling_named _).append (named_if (named_one rfl) named_nil)).append (named_one rfl)
  | rootSkip _ _ ih => exact ih
  | rootComment _ ih => exact Named.cons rfl ih
  | rootDoc _ ih => exact (implicit_named _).append (Named.cons rfl ih)
  | rootBrace _ ih => exact Named.cons rfl ih
  | rootEntry _ hcol _ ih =>
    obtain ⟨g1, g2, g3⟩ := collect_named hcol
    exact (((implicit_named _).append g3).append (rootEntry_named g1 g2)).append ih
  | objEof => exact (dangling_named _).append (Named.cons rfl (Named.cons rfl (named_one rfl)))
  | objClose _ ih => exact ((Named.cons rfl (dangling_named _)).append (named_one rfl)).append ih
  | objSkip _ _ ih => exact ih
  | objComment _ ih => exact Named.cons rfl ih
  | objDoc _ ih => exact Named.cons rfl ih
  | objEntry _ hcol _ ih =>
    obtain ⟨g1, g2, g3⟩ := collect_named hcol
    exact (g3.append (objectEntry_named g1 g2)).append ih
  | after h => exact trailing_named h
  | exprEnd => exact named_nil
  | exprSkip _ _ ih => exact ih
  | expr _ ha =>
    have := (runs_named s).1 ha
    exact this.2.append this.1.1

theorem validName_chars {n : List Char} (h : isValidTagName n = true) : ∀ c ∈ n, isTagChar c = true := by
  cases n with
  | nil => nofun
  | cons c cs =>
    simp only [isValidTagName, Bool.and_eq_true, List.all_eq_true] at h
    intro x hx
    rcases List.mem_cons.1 hx with rfl | hx
    · have := h.1
      simp only [isTagStart, isTagChar, Char.isAlphanum] at this ⊢
      grind
    · exact h.2 x hx

theorem tagChar_range {c : Char} (h : isTagChar c = true) : 33 ≤ c.toNat ∧ c.toNat < 127 ∧ c ≠ '"' ∧ c ≠ '\\' ∧ c ≠ '{' := by
  have e : c.val.toNat = c.toNat := rfl
  simp only [isTagChar, Char.isAlphanum, Char.isAlpha, Char.isUpper, Char.isLower, Char.isDigit, Bool.or_eq_true,
    Bool.and_eq_true, decide_eq_true_eq, beq_iff_eq, UInt32.le_iff_toNat_le, ge_iff_le, e] at h
  have key : ∀ d : Char, c = d → c.toNat = d.toNat := fun d hd => by rw [hd]
  have k1 := key '"'
  have k2 := key '\\'
  have k3 := key '{'
  have k4 := key '_'
  have k5 := key '-'
  have n1 : ('"' : Char).toNat = 34 := rfl
  have n2 : ('\\' : Char).toNat = 92 := rfl
  have n3 : ('{' : Char).toNat = 123 := rfl
  have n4 : ('_' : Char).toNat = 95 := rfl
  have n5 : ('-' : Char).toNat = 45 := rfl
  grind

/-! ## The builder -/

/-- All tags of a value have valid names. -/
def ValidTags (v : Value) : Prop := ∀ x, Node x v → ∀ t, x.tag = some t → isValidTagName t.name = true

theorem ValidTags.child {x v : Value} (h : ValidTags v) (hc : Child x v) : ValidTags x :=
  fun y hy => h y (.inside hc hy)

theorem validTags_mk {t : Option Tag} {p : Option Payload} {sp : Option Span}
    (ht : ∀ x, t = some x → isValidTagName x.name = true) (hc : ∀ x, Child x (.mk t p sp) → ValidTags x) :
    ValidTags (.mk t p sp) := by
  intro x hx
  cases hx with
  | self => exact ht
  | inside h hn => exact hc _ h x hn

theorem validTags_unit {sp : Option Span} : ValidTags (.mk none none sp) :=
  validTags_mk (nofun) (fun _ h => by cases h)

theorem validTags_scalar {t : Option Tag} {text : List Char} {k : ScalarKind} {a sp : Option Span}
    (ht : ∀ x, t = some x → isValidTagName x.name = true) : ValidTags (.mk t (some (.scalar text k a)) sp) :=
  validTags_mk ht (fun _ h => by cases h)

/-- All tags of an entry have valid names. -/
def ValidEntry : Entry → Prop
  | .mk k v _ => ValidTags k ∧ ValidTags v

theorem validTags_object {t : Option Tag} {es : List Entry} {a sp : Option Span}
    (ht : ∀ x, t = some x → isValidTagName x.name = true) (h : ∀ e ∈ es, ValidEntry e) :
    ValidTags (.mk t (some (.object es a)) sp) :=
  validTags_mk ht fun x hc => by
    cases hc with
    | key hm => exact (h _ hm).1
    | value hm => exact (h _ hm).2

theorem validTags_sequence {t : Option Tag} {vs : List Value} {a sp : Option Span}
    (ht : ∀ x, t = some x → isValidTagName x.name = true) (h : ∀ v ∈ vs, ValidTags v) :
    ValidTags (.mk t (some (.sequence vs a)) sp) :=
  validTags_mk ht fun x hc => by
    cases hc with
    | item hm => exact h _ hm

theorem ValidTags.retag {t u : Option Tag} {p : Option Payload} {a b : Option Span} (h : ValidTags (.mk t p a))
    (hu : ∀ x, u = some x → isValidTagName x.name = true) : ValidTags (.mk u p b) :=
  validTags_mk hu fun x hc => h.child (by
    cases hc with
    | item hm => exact .item hm
    | key hm => exact .key hm
    | value hm => exact .value hm)

/-- All tags in a frame of the builder have valid names. -/
def ValidFrame : Frame → Prop
  | .object es _ _ => ∀ e ∈ es, ValidEntry e
  | .sequence vs _ => ∀ v ∈ vs, ValidTags v
  | .tag n _ => isValidTagName n = true
  | .entry k _ => ∀ v, k = some v → ValidTags v

/-- All tags in the builder have valid names. -/
def ValidBuilder (b : Builder) : Prop := (∀ f ∈ b.stack, ValidFrame f) ∧ ∀ e ∈ b.root, ValidEntry e

theorem mem_snoc {α : Type} {P : α → Prop} {l : List α} {x : α} (h : ∀ e ∈ l, P e) (hx : P x) : ∀ e ∈ l ++ [x], P e := by
  intro e he
  rcases List.mem_append.1 he with he | he
  · exact h e he
  · rw [List.mem_singleton.1 he]; exact hx

theorem mem_cons' {α : Type} {P : α → Prop} {l : List α} {x : α} (hx : P x) (h : ∀ e ∈ l, P e) : ∀ e ∈ x :: l, P e := by
  intro e he
  rcases List.mem_cons.1 he with he | he
  · rw [he]; exact hx
  · exact h e he

theorem addEntry_valid {e : Entry} {b : Builder} (he : ValidEntry e) (hb : ValidBuilder b) :
    ValidBuilder (addEntry e b) := by
  obtain ⟨h1, h2⟩ := hb
  unfold addEntry
  split
  · rename_i es sp d rest hs
    rw [hs] at h1
    exact ⟨mem_cons' (P := ValidFrame) (mem_snoc (P := ValidEntry) (h1 _ (List.mem_cons_self ..)) he)
      fun f hf => h1 f (List.mem_cons_of_mem _ hf), h2⟩
  · exact ⟨h1, mem_snoc h2 he⟩

theorem pushOn_valid : ∀ (st : List Frame) (v : Value) (b : Builder), (∀ f ∈ st, ValidFrame f) → ValidTags v →
    ValidBuilder b → ValidBuilder (pushOn st v b) := by
  intro st
  induction st with
  | nil =>
    intro v b _ hv hb
    exact ⟨by simp [pushOn], mem_snoc (P := ValidEntry) hb.2 ⟨validTags_unit, hv⟩⟩
  | cons f rest ih =>
    intro v b hst hv hb
    have hf := hst _ (List.mem_cons_self ..)
    have hr : ∀ f ∈ rest, ValidFrame f := fun f hf => hst f (List.mem_cons_of_mem _ hf)
    match f with
    | .tag name sp =>
      obtain ⟨t, p, a⟩ := v
      exact ih _ _ hr (hv.retag (by rintro x ⟨⟩; exact hf)) hb
    | .entry (some k) doc =>
      have h1 : ValidBuilder (addEntry (.mk k v doc) { b with stack := rest }) :=
        addEntry_valid ⟨hf _ rfl, hv⟩ ⟨hr, hb.2⟩
      exact ⟨mem_cons' (P := ValidFrame) (nofun) h1.1, h1.2⟩
    | .object es sp d =>
      exact ⟨mem_cons' (P := ValidFrame) (mem_snoc (P := ValidEntry) hf ⟨validTags_unit, hv⟩) hr, hb.2⟩
    | .sequence items sp =>
      exact ⟨mem_cons' (P := ValidFrame) (mem_snoc (P := ValidTags) hf hv) hr, hb.2⟩
    | .entry none doc =>
      exact ⟨mem_cons' (P := ValidFrame) (by rintro x ⟨⟩; exact hv) hr, hb.2⟩

theorem closeEntry_valid {k : Value} {doc : Option (List Char)} {es : List Entry} (hk : ValidTags k)
    (h : ∀ e ∈ es, ValidEntry e) : ∀ e ∈ closeEntry k doc es, ValidEntry e := by
  unfold closeEntry
  split
  · rename_i k' v' d' hl
    have hm := List.mem_of_getLast? hl
    split
    · exact mem_snoc (P := ValidEntry) (fun e he => h e (List.dropLast_subset _ he)) ⟨hk, (h _ hm).2⟩
    · exact mem_snoc (P := ValidEntry) h ⟨hk, validTags_unit⟩
  · exact mem_snoc (P := ValidEntry) h ⟨hk, validTags_unit⟩

theorem event_valid {b : Builder} {e : Event} (hb : ValidBuilder b)
    (he : ∀ n, eventTag e.kind = some n → isValidTagName n = true) : ValidBuilder (b.event e) := by
  obtain ⟨h1, h2⟩ := hb
  have tl : ∀ {f : Frame} {rest : List Frame}, b.stack = f :: rest → ∀ g ∈ rest, ValidFrame g := by
    intro f rest hs g hg
    exact h1 g (by rw [hs]; exact List.mem_cons_of_mem _ hg)
  have hd : ∀ {f : Frame} {rest : List Frame}, b.stack = f :: rest → ValidFrame f := by
    intro f rest hs
    exact h1 f (by rw [hs]; exact List.mem_cons_self ..)
  have dr : ∀ g ∈ b.stack.drop 1, ValidFrame g := fun g hg => h1 g (List.mem_of_mem_drop hg)
  obtain ⟨sp, kind⟩ := e
  cases kind with
  | documentStart => exact ⟨h1, h2⟩
  | documentEnd => exact ⟨h1, h2⟩
  | comment => exact ⟨h1, h2⟩
  | panic => exact ⟨h1, h2⟩
  | error => exact ⟨h1, h2⟩
  | objectStart => exact ⟨mem_cons' (P := ValidFrame) (nofun) h1, h2⟩
  | sequenceStart => exact ⟨mem_cons' (P := ValidFrame) (nofun) h1, h2⟩
  | objectEnd =>
    simp only [Builder.event]
    split
    · rename_i es sp' d rest hs
      split
      · exact ⟨nofun, hd hs⟩
      · exact pushOn_valid _ _ _ (tl hs) (validTags_object (nofun) (hd hs)) ⟨tl hs, h2⟩
    · exact ⟨dr, h2⟩
  | sequenceEnd =>
    simp only [Builder.event]
    split
    · rename_i items sp' rest hs
      exact pushOn_valid _ _ _ (tl hs) (validTags_sequence (nofun) (hd hs)) ⟨tl hs, h2⟩
    · exact ⟨dr, h2⟩
  | entryStart =>
    simp only [Builder.event]
    split
    · rename_i es sp' d rest hs
      exact ⟨mem_cons' (P := ValidFrame) (nofun) (mem_cons' (P := ValidFrame) (show ∀ e ∈ es, ValidEntry e from hd hs) (tl hs)), h2⟩
    · exact ⟨mem_cons' (P := ValidFrame) (nofun) h1, h2⟩
  | entryEnd =>
    simp only [Builder.event]
    split
    · rename_i k doc rest hs
      have hk : ValidTags k := hd hs k rfl
      have ht := tl hs
      split
      · rename_i es sp' d rest'
        exact ⟨mem_cons' (P := ValidFrame) (closeEntry_valid hk (ht _ (List.mem_cons_self ..)))
          fun f hf => ht f (List.mem_cons_of_mem _ hf), h2⟩
      · exact ⟨ht, closeEntry_valid hk h2⟩
    · exact ⟨dr, h2⟩
  | key t p k =>
    simp only [Builder.event]
    split
    · rename_i o doc rest hs
      refine ⟨mem_cons' (P := ValidFrame) ?_ (tl hs), h2⟩
      rintro v ⟨⟩
      have ht : ∀ x, t.map (fun n => (⟨n, some sp⟩ : Tag)) = some x → isValidTagName x.name = true := by
        cases t with
        | none => nofun
        | some n => rintro x ⟨⟩; exact he n rfl
      cases p with
      | none => exact validTags_mk ht (fun _ h => by cases h)
      | some text => exact validTags_scalar ht
    · exact ⟨h1, h2⟩
  | scalar v k => exact pushOn_valid _ _ _ h1 (validTags_scalar (nofun)) ⟨h1, h2⟩
  | unit => exact pushOn_valid _ _ _ h1 validTags_unit ⟨h1, h2⟩
  | tagStart n => exact ⟨mem_cons' (P := ValidFrame) (he n rfl) h1, h2⟩
  | tagEnd =>
    simp only [Builder.event]
    split
    · rename_i name sp' rest hs
      exact pushOn_valid _ _ _ (tl hs) (validTags_mk (by rintro x ⟨⟩; exact hd hs) (fun _ h => by cases h)) ⟨tl hs, h2⟩
    · exact ⟨h1, h2⟩
  | docComment lines =>
    simp only [Builder.event]
    split
    · rename_i es sp' d rest hs
      exact ⟨mem_cons' (P := ValidFrame) (show ∀ e ∈ es, ValidEntry e from hd hs) (tl hs), h2⟩
    · exact ⟨h1, h2⟩

theorem run_valid : ∀ {evs : List Event} {b : Builder}, ValidBuilder b →
    (∀ e ∈ evs, ∀ n, eventTag e.kind = some n → isValidTagName n = true) → ValidBuilder (b.run evs)
  | [], _, hb, _ => hb
  | e :: evs, _, hb, h => run_valid (evs := evs) (event_valid hb (h e (List.mem_cons_self ..)))
      fun x hx => h x (List.mem_cons_of_mem _ hx)

/-- Every tag of the tree of a source has a valid name. -/
theorem parseTree_validTags {s : List Char} {v : Value} (h : parseTree s = some (.ok v)) : ValidTags v := by
  obtain ⟨evs, h1, h2⟩ := parseEvents_run s
  unfold parseTree at h
  rw [h1] at h
  simp only at h
  split at h
  · cases h
  have hb : buildTree evs = .ok v := by simpa using h
  unfold buildTree Builder.finish at hb
  split at hb
  · cases hb
  rename_i he
  split at hb
  · have hn : ∀ e ∈ evs, ∀ k, e.kind ≠ .error k := by
      intro e hm k hk
      have := run_errors {} evs
      rw [he] at this
      have h3 : (k, e.span) ∈ errorsOf evs := errorsOf_mem hm hk
      have h4 : errorsOf evs = [] := by simpa using this.symm
      rw [h4] at h3
      cases h3
    have := run_valid (evs := evs) (b := {}) ⟨nofun, nofun⟩ (run_named h2 hn)
    cases hb
    exact validTags_object (nofun) this.2
  · cases hb

end Styx
