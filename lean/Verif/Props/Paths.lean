import Verif.Parse.PathLemmas
import Verif.Parse.Events
import Verif.Parse.RootKeys

/-! # Property theorems C15 and C16: root keys and histories of dotted paths

`Verif.Parse.PathSpec` is the specification.  `runPaths` feeds a list of paths to the tracker one
after the other, as the parser does for the entries of the root object. -/

namespace Styx.Props

open Styx Styx.Spec

/-- One call: path, kind of the value, span of the key. -/
structure PathCall where
  path : List (List Char)
  kind : PathValueKind
  span : Span

/-- Feeding calls to the tracker; `none` once one is rejected. -/
def runPaths : PathState → List PathCall → Option PathState
  | st, [] => some st
  | st, c :: rest =>
    match st.checkAndUpdate c.path c.span c.kind with
    | (st', none) => runPaths st' rest
    | (_, some _) => none

/-- The history of a list of calls. -/
def history (cs : List PathCall) : History := cs.map fun c => (c.path, c.kind)

/-- A history without conflicts: no path conflicts with those before it. -/
def Consistent (h : History) : Prop := ∀ h1 p k h2, h = h1 ++ (p, k) :: h2 → ¬ Conflict h1 p

theorem consistent_nil : Consistent [] := by
  intro h1 p k h2 h
  simp at h

theorem consistent_snoc (h : History) (p : List (List Char)) (k : PathValueKind) :
    Consistent (h ++ [(p, k)]) ↔ Consistent h ∧ ¬ Conflict h p := by
  constructor
  · intro hc
    refine ⟨?_, hc h p k [] rfl⟩
    rintro h1 p' k' h2 rfl
    exact hc h1 p' k' (h2 ++ [(p, k)]) (by simp)
  · rintro ⟨hc, hn⟩ h1 p' k' h2 he
    rcases snoc_split he with ⟨-, rfl, h3⟩ | ⟨h3, -, rfl⟩
    · cases h3; exact hn
    · exact hc h1 p' k' h3 rfl

/-- What is true of the tracker's state after an accepted history. -/
def Tracks (h : History) (st : PathState) : Prop :=
  (h = [] ∧ st = []) ∨ ∃ h0 l k, h = h0 ++ [(l, k)] ∧ l ≠ [] ∧ PathInv h l k st

theorem tracks_step (h : History) (st : PathState) (ht : Tracks h st) (p : List (List Char)) (sp : Span)
    (k : PathValueKind) (hp : p ≠ []) :
    (∃ st', st.checkAndUpdate p sp k = (st', none) ∧ Tracks (h ++ [(p, k)]) st' ∧ ¬ Conflict h p) ∨
    (∃ st' e, st.checkAndUpdate p sp k = (st', some e) ∧ Conflict h p) := by
  rcases ht with ⟨rfl, rfl⟩ | ⟨h0, l, k0, rfl, hl, hinv⟩
  · obtain ⟨st', h1, h2⟩ := path_first p sp k hp
    refine Or.inl ⟨st', h1, Or.inr ⟨[], p, k, rfl, hp, h2⟩, ?_⟩
    rintro ⟨h0, l, kd, h, -⟩
    simp at h
  · rcases path_step _ l p k0 k sp st h0 rfl hp hl hinv with ⟨st', h1, h2, h3⟩ | ⟨st', e, h1, h2⟩
    · exact Or.inl ⟨st', h1, Or.inr ⟨_, p, k, rfl, hp, h2⟩, h3⟩
    · exact Or.inr ⟨st', e, h1, h2⟩

theorem runPaths_spec (h : History) (st : PathState) (ht : Tracks h st) (hc : Consistent h)
    (cs : List PathCall) (hne : ∀ c ∈ cs, c.path ≠ []) :
    (∃ st', runPaths st cs = some st' ∧ Tracks (h ++ history cs) st' ∧ Consistent (h ++ history cs)) ∨
    (runPaths st cs = none ∧ ¬ Consistent (h ++ history cs)) := by
  induction cs generalizing h st with
  | nil => exact Or.inl ⟨st, rfl, by simpa [history] using ht, by simpa [history] using hc⟩
  | cons c cs ih =>
    have happ : h ++ history (c :: cs) = (h ++ [(c.path, c.kind)]) ++ history cs := by simp [history]
    rw [happ, runPaths]
    rcases tracks_step h st ht c.path c.span c.kind (hne c (by simp)) with ⟨st', h1, h2, h3⟩ | ⟨st', e, h1, h2⟩
    · rw [h1]
      exact ih _ st' h2 ((consistent_snoc ..).2 ⟨hc, h3⟩) (fun c hc => hne c (by simp [hc]))
    · rw [h1]
      refine Or.inr ⟨rfl, fun hcon => ?_⟩
      exact hcon h c.path c.kind (history cs) (by simp) h2

/-- **C16**, acceptance.  A sequence of paths is accepted exactly when none of them conflicts with
those before it.  The property as stated also says that a path extending *any* path that was given a
value is rejected; that is false (`C16_false`): `Conflict` has it for the last path only. -/
theorem C16_accepted_iff_partial (cs : List PathCall) (hne : ∀ c ∈ cs, c.path ≠ []) :
    (∃ st, runPaths [] cs = some st) ↔ Consistent (history cs) := by
  rcases runPaths_spec [] [] (Or.inl ⟨rfl, rfl⟩) consistent_nil cs hne with ⟨st', h1, -, h3⟩ | ⟨h1, h3⟩
  · rw [h1]; simpa using h3
  · rw [h1]; simpa using h3

/-- **C16**, the next path.  After an accepted history a path is rejected exactly when it conflicts. -/
theorem C16_next_partial (cs : List PathCall) (hne : ∀ c ∈ cs, c.path ≠ []) (st : PathState)
    (h : runPaths [] cs = some st) (p : List (List Char)) (hp : p ≠ []) (sp : Span) (k : PathValueKind) :
    (st.checkAndUpdate p sp k).2 ≠ none ↔ Conflict (history cs) p := by
  rcases runPaths_spec [] [] (Or.inl ⟨rfl, rfl⟩) consistent_nil cs hne with ⟨st', h1, h2, -⟩ | ⟨h1, -⟩
  · rw [h] at h1; cases h1
    rcases tracks_step _ st h2 p sp k hp with ⟨st', g1, -, g2⟩ | ⟨st', e, g1, g2⟩
    · rw [g1]; simpa using g2
    · rw [g1]; simpa using g2
  · rw [h] at h1; cases h1

/-- **C16**, the open paths.  After an accepted non-empty history the tracked path is the last path;
all its proper prefixes are open objects and the last segment has the kind it was given. -/
theorem C16_open_partial (cs : List PathCall) (c : PathCall) (hne : ∀ x ∈ cs ++ [c], x.path ≠ [])
    (st : PathState) (h : runPaths [] (cs ++ [c]) = some st) :
    st.map (·.key) = c.path ∧
    st.map (·.valueKind) = List.replicate (c.path.length - 1) .object ++ [c.kind] := by
  rcases runPaths_spec [] [] (Or.inl ⟨rfl, rfl⟩) consistent_nil _ hne with ⟨st', h1, h2, -⟩ | ⟨h1, -⟩
  · rw [h] at h1; cases h1
    rcases h2 with ⟨h2, -⟩ | ⟨h0, l, k, h2, hl, hinv⟩
    · simp [history] at h2
    · have : (c.path, c.kind) = (l, k) := by
        simp only [history, List.nil_append, List.map_append, List.map_cons, List.map_nil] at h2
        have := (List.append_inj' h2 rfl).2
        simpa using this
      cases this
      refine ⟨hinv.keys, ?_⟩
      have hlen : st.length = c.path.length := by rw [← hinv.keys]; simp
      have hpos : 0 < c.path.length := List.length_pos_iff.2 hl
      apply List.ext_getElem?
      intro i
      rw [List.getElem?_map]
      by_cases hi : i < st.length
      · rw [List.getElem?_eq_getElem hi]
        have := hinv.kinds i _ (List.getElem?_eq_getElem hi)
        simp only [Option.map_some, this]
        by_cases h1 : i + 1 = c.path.length
        · rw [if_pos h1, List.getElem?_append_right (by simp; omega)]
          simp [← h1]
        · rw [if_neg h1, List.getElem?_append_left (by simp; omega)]
          rw [List.getElem?_replicate, if_pos (by omega)]
      · rw [List.getElem?_eq_none (by omega), List.getElem?_eq_none (by simp; omega)]
        rfl
  · rw [h] at h1; cases h1

/-- A long accepted history, with siblings and a re-rooting, and a rejected continuation. -/
example : let call (p : List (List Char)) : PathCall := ⟨p, .terminal, ⟨0, 0⟩⟩
    let cs := [call [['a'], ['b'], ['c']], call [['a'], ['b'], ['d']], call [['a'], ['e']]]
    (∃ st, runPaths [] cs = some st) ∧ (∀ c ∈ cs, c.path ≠ []) ∧
    Conflict (history cs) [['a'], ['b'], ['x']] ∧ ¬ Conflict (history cs) [['f'], ['b']] := by
  have hacc : ∃ st, runPaths [] [(⟨[['a'], ['b'], ['c']], .terminal, ⟨0, 0⟩⟩ : PathCall),
      ⟨[['a'], ['b'], ['d']], .terminal, ⟨0, 0⟩⟩, ⟨[['a'], ['e']], .terminal, ⟨0, 0⟩⟩] = some st :=
    Option.isSome_iff_exists.1 (by decide +kernel)
  obtain ⟨st, hst⟩ := hacc
  refine ⟨⟨st, hst⟩, by simp, ?_, ?_⟩
  · exact (C16_next_partial _ (by simp) st hst [['a'], ['b'], ['x']] (by simp) ⟨0, 0⟩ .terminal).1
      (by have := Option.some.inj (hst.symm.trans rfl); subst this; decide +kernel)
  · intro h
    have := (C16_next_partial _ (by simp) st hst [['f'], ['b']] (by simp) ⟨0, 0⟩ .terminal).2 h
    have h2 := Option.some.inj (hst.symm.trans rfl); subst h2
    exact this (by decide +kernel)

/-- **C16 is false** of the code as stated for all earlier paths: after `a 1` and `b 2`, the path
`a.c` extends a path with a terminal value and is accepted. -/
theorem C16_false : ∃ evs, parseEvents (chars! "a 1\nb 2\na.c 3") = some evs ∧ NoError evs :=
  ⟨_, rfl, by decide +kernel⟩

/-- Likewise giving a value to a path that is already an object is accepted when it is a prefix of the
last path. -/
theorem C16_false_prefix : ∃ evs, parseEvents (chars! "a.b 1\na 2") = some evs ∧ NoError evs :=
  ⟨_, rfl, by decide +kernel⟩

/-- **C15**.  Full statement: no two root keys of an error-free document are the same (or one of them is
dotted).  It is false (`C15_false`).  Proved: for every source without `.` in which every `\u` begins a proper escape,
that gives no errors and whose root object has no braces, *neighbouring* root keys are different.
(For a root object with braces see `C14_duplicates_partial`.) -/
theorem C15_adjacent_partial (source : List Char) (evs : List Event) (h : parseEvents source = some evs)
    (hn : NoError evs) (hu : ProperUni source) (hd : '.' ∉ source) (hi : ImplicitRoot evs) :
    Adjacent (fun a b => ¬ SameKey a b) (rootKeys evs) := by
  obtain ⟨evs', h', hr⟩ := parseEvents_run source
  rw [h] at h'
  cases h'
  obtain ⟨ks, h1, h2, h3⟩ := run_chain hu hd hr 0 (lex_chain source) hn (Or.inl rfl) hi
  rintro x y ⟨a, b, he⟩ hs
  unfold rootKeys at he
  rw [h1] at he
  have he : a ++ (x :: y :: b) = ks.map keyEvent := by simpa using he
  obtain ⟨k1, k2, hk, ha, hxy⟩ := List.append_eq_map_iff.1 he
  obtain ⟨kx, kr, rfl, hx, hr⟩ := List.map_eq_cons_iff.1 hxy
  obtain ⟨ky, kb, rfl, hy, hb⟩ := List.map_eq_cons_iff.1 hr
  subst hx hy
  have hsame := ((h2 kx (by rw [hk]; simp)).same (h2 ky (by rw [hk]; simp))).1 hs
  refine h3.infix (a := k1.map keyStr) (x := keyStr kx) (y := keyStr ky) (b := kb.map keyStr) ?_ ?_
  · rw [hk]; simp
  · unfold keyStr; rw [hsame]

/-- The hypotheses hold of a document with three root entries, whose root keys are as expected. -/
example : ∃ evs, parseEvents (chars! "a 1\n\"b\" {x 1}\na 3") = some evs ∧ NoError evs ∧ ImplicitRoot evs ∧
    rootKeys evs = [⟨⟨0, 1⟩, .key none (some ['a']) .bare⟩, ⟨⟨4, 7⟩, .key none (some ['b']) .quoted⟩,
      ⟨⟨14, 15⟩, .key none (some ['a']) .bare⟩] :=
  ⟨_, rfl, by decide +kernel, by
    have : ∀ l : List Event, (l.all fun e => match e.kind with | .objectStart => e.span == ⟨0, 0⟩ | _ => true) = true →
        ∀ e ∈ l, e.kind = .objectStart → e.span = ⟨0, 0⟩ := by
      intro l hl e he hk
      have := List.all_eq_true.1 hl e he
      rw [hk] at this
      simpa using this
    intro e he
    rcases he with he | he
    · exact this _ (by decide +kernel) e he
    · exact this _ (by decide +kernel) e he, by decide +kernel⟩

/-- **C15 is false** of the code: the same root key twice, with another entry in between, gives no
error. -/
theorem C15_false : ∃ evs, parseEvents (chars! "a 1\nb 2\na 3") = some evs ∧ NoError evs :=
  ⟨_, rfl, by decide +kernel⟩

end Styx.Props
