import Verif.Tree.SpanRun
import Verif.Tree.SpanSpec

/-!
# Reading the places of a tree

From the internal description of the places (`Std`, `RootStd`) to the nodes of the tree.
-/

namespace Styx

open Spec

/-- What is known about one node. -/
structure Placed (s : List Char) (lo hi : Nat) (w : Value) : Prop where
  own : ∃ sp, w.span = some sp ∧ (∀ p, w.payload = some p → payloadPlace p = some sp) ∧
    (∀ text k psp, w.tag = none → w.payload = some (.scalar text k psp) → TextStd s sp text k)
  tag : ∀ t, w.tag = some t → ∃ sp, t.span = some sp ∧ sp.start + 1 + utf8Len t.name ≤ sp.stop ∧
    HasText s ⟨sp.start, sp.start + 1 + utf8Len t.name⟩ ('@' :: t.name)
  ok : ∀ sp, Notes w sp → SpanOK s sp ∧ lo ≤ sp.start ∧ sp.stop ≤ hi

theorem Placed.mono {s : List Char} {lo lo' hi hi' : Nat} {w : Value} (h : Placed s lo hi w) (hl : lo' ≤ lo)
    (hh : hi ≤ hi') : Placed s lo' hi' w :=
  ⟨h.own, h.tag, fun sp hn => let ⟨a, b, c⟩ := h.ok sp hn; ⟨a, by omega, by omega⟩⟩

theorem KeyStd.placed {s : List Char} {lo hi : Nat} {sp : Span} {k : Value} (h : KeyStd s lo sp k) (hh : sp.stop ≤ hi) :
    Placed s lo hi k := by
  obtain ⟨t, p, ksp⟩ := k
  obtain ⟨rfl, h2, h3, h4, h5⟩ := h
  refine ⟨⟨sp, rfl, ?_, ?_⟩, ?_, ?_⟩
  · intro p' hp
    rcases h5 with rfl | ⟨text, k, rfl, _⟩
    · cases hp
    · cases hp; rfl
  · intro text k psp ht hp
    rcases h5 with rfl | ⟨text, k, rfl, h5⟩
    · cases hp
    · cases hp; exact h5 ht
  · intro t' ht
    exact ⟨sp, (h4 t' ht).1, (h4 t' ht).2⟩
  · intro sp' hn
    have : sp' = sp := by
      rcases hn with hn | ⟨t', h6, h7⟩ | ⟨p', h6, h7⟩
      · cases hn; rfl
      · rw [(h4 t' h6).1] at h7; cases h7; rfl
      · rcases h5 with rfl | ⟨text, k, rfl, _⟩
        · cases h6
        · cases h6; cases h7; rfl
    subst this
    exact ⟨h2, h3, hh⟩

theorem KeyStd.node {s : List Char} {lo : Nat} {sp : Span} {k w : Value} (h : KeyStd s lo sp k) (hw : Node w k) :
    w = k := by
  obtain ⟨t, p, ksp⟩ := k
  obtain ⟨_, _, _, _, h5⟩ := h
  cases hw with
  | self => rfl
  | inside hc _ =>
    rcases h5 with rfl | ⟨text, k, rfl, _⟩ <;> cases hc

theorem unit_node {sp : Option Span} {w : Value} (hw : Node w (.mk none none sp)) : w = .mk none none sp := by
  cases hw with
  | self => rfl
  | inside hc _ => cases hc

theorem Std.placed {s : List Char} {lo hi : Nat} {v : Value} (h : Std s lo hi v) : Placed s lo hi v := by
  obtain ⟨t, p, vsp⟩ := v
  cases vsp with
  | none => exact h.elim
  | some sp =>
    obtain ⟨h1, h2, h3, h4, h5⟩ := h
    have hp : ∀ p', p = some p' → payloadPlace p' = some sp := by
      rintro p' rfl
      cases p' <;> exact h5.1
    refine ⟨⟨sp, rfl, hp, ?_⟩, ?_, ?_⟩
    · rintro text k psp - hpp
      simp only [Value.payload] at hpp
      subst hpp
      exact h5.2
    · intro t' ht
      obtain ⟨tsp, g1, _, _, _, _, _, g2⟩ := h4 t' ht
      exact ⟨tsp, g1, g2⟩
    · intro sp' hn
      rcases hn with hn | ⟨t', h6, h7⟩ | ⟨p', h6, h7⟩
      · cases hn; exact ⟨h1, h2, h3⟩
      · obtain ⟨tsp, g1, g2, g3, _, _, g4, _⟩ := h4 t' h6
        rw [g1] at h7; cases h7
        exact ⟨g2, g3, g4⟩
      · rw [hp p' h6] at h7; cases h7
        exact ⟨h1, h2, h3⟩

theorem SpanOK.le {s : List Char} {sp : Span} (h : SpanOK s sp) : sp.start ≤ sp.stop := h.1

theorem Std.le {s : List Char} {lo hi : Nat} {v : Value} (h : Std s lo hi v) : lo ≤ hi := by
  obtain ⟨t, p, vsp⟩ := v
  cases vsp with
  | none => exact h.elim
  | some sp => have := h.1.le; have := h.2.1; have := h.2.2.1; omega

theorem ItemsStd.le {s : List Char} {lo hi : Nat} {vs : List Value} (h : ItemsStd s lo hi vs) : lo ≤ hi := by
  induction vs generalizing lo with
  | nil => exact h
  | cons v vs ih => obtain ⟨m, h1, h2⟩ := h; exact Nat.le_trans h1.le (ih h2)

theorem KeyStd.le {s : List Char} {lo : Nat} {sp : Span} {k : Value} (h : KeyStd s lo sp k) : lo ≤ sp.stop := by
  obtain ⟨t, p, ksp⟩ := k
  obtain ⟨_, h2, h3, _⟩ := h
  have := h2.le; omega

theorem EntriesStd.le {s : List Char} {lo hi : Nat} {es : List Entry} (h : EntriesStd s lo hi es) : lo ≤ hi := by
  induction es generalizing lo with
  | nil => exact h
  | cons e es ih =>
    obtain ⟨k, v, d⟩ := e
    obtain ⟨sp, m, h1, h2, h3⟩ := h
    have h4 := ih h3
    have h5 := h1.le
    rcases h2 with ⟨_, h2⟩ | h2
    · omega
    · have := h2.le; omega

/-- Where an item of a sequence stands. -/
theorem ItemsStd.mem {s : List Char} {lo hi : Nat} {vs : List Value} (h : ItemsStd s lo hi vs) {v : Value}
    (hv : v ∈ vs) : Std s lo hi v := by
  induction vs generalizing lo with
  | nil => cases hv
  | cons x vs ih =>
    obtain ⟨m, h1, h2⟩ := h
    rcases List.mem_cons.mp hv with rfl | hv
    · exact h1.mono (Nat.le_refl _) h2.le
    · exact (ih h2 hv).mono h1.le (Nat.le_refl _)

/-- Where an entry of an object stands. -/
theorem EntriesStd.mem {s : List Char} {lo hi : Nat} {es : List Entry} (h : EntriesStd s lo hi es) {k v : Value}
    {d : Option (List Char)} (he : Entry.mk k v d ∈ es) :
    ∃ sp, KeyStd s lo sp k ∧ sp.stop ≤ hi ∧ (v = .mk none none (some sp) ∨ Std s sp.stop hi v) := by
  induction es generalizing lo with
  | nil => cases he
  | cons x es ih =>
    obtain ⟨k', v', d'⟩ := x
    obtain ⟨sp, m, h1, h2, h3⟩ := h
    have hm := h3.le
    rcases List.mem_cons.mp he with he | he
    · cases he
      refine ⟨sp, h1, ?_, ?_⟩
      · rcases h2 with ⟨_, h2⟩ | h2
        · omega
        · have := h2.le; omega
      · rcases h2 with ⟨h2, _⟩ | h2
        · exact .inl h2
        · exact .inr (h2.mono (Nat.le_refl _) hm)
    · obtain ⟨sp', g1, g2⟩ := ih h3 he
      refine ⟨sp', g1.mono ?_, g2⟩
      have := h1.le
      rcases h2 with ⟨_, h2⟩ | h2
      · omega
      · have := h2.le; omega

theorem unit_placed {s : List Char} {lo hi : Nat} {sp : Span} (h1 : SpanOK s sp) (h2 : lo ≤ sp.start)
    (h3 : sp.stop ≤ hi) : Placed s lo hi (.mk none none (some sp)) := by
  refine ⟨⟨sp, rfl, nofun, nofun⟩, nofun, ?_⟩
  rintro sp' (hn | ⟨t', h6, h7⟩ | ⟨p', h6, h7⟩)
  · cases hn; exact ⟨h1, h2, h3⟩
  · cases h6
  · cases h6

theorem KeyStd.spanOK {s : List Char} {lo : Nat} {sp : Span} {k : Value} (h : KeyStd s lo sp k) :
    SpanOK s sp ∧ lo ≤ sp.start := by
  obtain ⟨t, p, ksp⟩ := k
  exact ⟨h.2.1, h.2.2.1⟩

/-- Where a node right inside a value stands: a key, a unit for a missing value, or a value. -/
theorem Std.child {s : List Char} {lo hi : Nat} {v x : Value} (h : Std s lo hi v) (hc : Child x v) :
    ∃ sp, v.span = some sp ∧ lo ≤ sp.start ∧ sp.stop ≤ hi ∧
      ((∃ ksp, KeyStd s sp.start ksp x ∧ ksp.stop ≤ sp.stop) ∨
        (∃ ksp, SpanOK s ksp ∧ sp.start ≤ ksp.start ∧ ksp.stop ≤ sp.stop ∧ x = .mk none none (some ksp)) ∨
        Std s sp.start sp.stop x) := by
  obtain ⟨t, p, vsp⟩ := v
  cases vsp with
  | none => exact h.elim
  | some sp =>
    obtain ⟨h1, h2, h3, h4, h5⟩ := h
    refine ⟨sp, rfl, h2, h3, ?_⟩
    cases hc with
    | item hm => exact .inr (.inr (h5.2.mem hm))
    | key hm =>
      obtain ⟨ksp, g1, g2, _⟩ := h5.2.mem hm
      exact .inl ⟨ksp, g1, g2⟩
    | value hm =>
      obtain ⟨ksp, g1, g2, g3⟩ := h5.2.mem hm
      have := g1.spanOK
      rcases g3 with rfl | g3
      · exact .inr (.inl ⟨ksp, this.1, this.2, g2, rfl⟩)
      · exact .inr (.inr (g3.mono (by have := this.1.le; omega) (Nat.le_refl _)))

theorem Std.node {s : List Char} {v w : Value} (hw : Node w v) : ∀ {lo hi : Nat}, Std s lo hi v →
    Placed s lo hi w := by
  induction hw with
  | self => exact fun h => h.placed
  | inside hc hn ih =>
    intro lo hi h
    obtain ⟨sp, _, h2, h3, h4⟩ := h.child hc
    rcases h4 with ⟨ksp, g1, g2⟩ | ⟨ksp, g1, g2, g3, rfl⟩ | g
    · rw [g1.node hn]; exact (g1.placed g2).mono h2 h3
    · rw [unit_node hn]; exact (unit_placed g1 g2 g3).mono h2 h3
    · exact (ih g).mono h2 h3

/-- The nodes of an entry. -/
def EntryNode (w : Value) : Entry → Prop
  | .mk k v _ => Node w k ∨ Node w v

theorem EntriesStd.node {s : List Char} {lo hi : Nat} {e : Entry} (h : EntriesStd s lo hi [e]) {w : Value}
    (hw : EntryNode w e) : Placed s lo hi w := by
  obtain ⟨k, v, d⟩ := e
  obtain ⟨sp, g1, g2, g3⟩ := h.mem (List.mem_cons_self ..)
  have := g1.spanOK
  rcases hw with hw | hw
  · rw [g1.node hw]; exact g1.placed g2
  · rcases g3 with rfl | g3
    · rw [unit_node hw]; exact unit_placed this.1 this.2 g2
    · exact (Std.node hw g3).mono g1.le (Nat.le_refl _)

theorem dotKey_std {s : List Char} {lo : Nat} {sp : Span} {text : List Char} (h1 : lo ≤ sp.start)
    (h2 : HasText s sp text) : KeyStd s lo sp (.mk none (some (.scalar text .bare (some sp))) (some sp)) :=
  ⟨rfl, h2.spanOK, h1, nofun, .inr ⟨text, .bare, rfl, fun _ => .of_bare h2⟩⟩

theorem DotEntry.le {s : List Char} {whole : Span} {hi lo : Nat} {e : Entry} (h : DotEntry s whole hi lo e) :
    whole.start ≤ lo ∧ whole.stop ≤ hi := by
  induction h with
  | last h1 h2 h3 h4 h5 =>
    refine ⟨h2, ?_⟩
    rcases h5 with ⟨_, h5⟩ | h5
    · exact h5
    · exact h5.le
  | more h1 h2 h3 h4 h5 ih => exact ⟨h2, ih.2⟩

theorem DotEntry.node {s : List Char} {whole : Span} {hi lo : Nat} {e : Entry} (hw : SpanOK s whole)
    (h : DotEntry s whole hi lo e) {w : Value} (hn : EntryNode w e) : Placed s whole.start hi w := by
  induction h generalizing w with
  | last h1 h2 h3 h4 h5 =>
    rename_i lo sp text v d
    have hk := dotKey_std h1 h3
    have hle := DotEntry.le (.last (d := d) h1 h2 h3 h4 h5)
    rcases hn with hn | hn
    · rw [hk.node hn]; exact (hk.placed (by omega)).mono h2 (Nat.le_refl _)
    · rcases h5 with ⟨rfl, h5⟩ | h5
      · rw [unit_node hn]; exact unit_placed hw (Nat.le_refl _) h5
      · exact (Std.node hn h5).mono hw.le (Nat.le_refl _)
  | more h1 h2 h3 h4 h5 ih =>
    rename_i lo sp text e d
    have hk := dotKey_std h1 h3
    have hle := h5.le
    have hsp : SpanOK s ⟨sp.start, whole.stop⟩ :=
      ⟨by have := h3.spanOK.le; simp only; omega, h3.spanOK.2.1, hw.2.2⟩
    rcases hn with hn | hn
    · rw [hk.node hn]; exact (hk.placed (by omega)).mono h2 (Nat.le_refl _)
    · cases hn with
      | self =>
        refine ⟨⟨_, rfl, fun p hp => by cases hp; rfl, fun text k psp _ hp => by cases hp⟩, nofun, ?_⟩
        have hmain : SpanOK s ⟨sp.start, whole.stop⟩ ∧ whole.start ≤ sp.start ∧ whole.stop ≤ hi :=
          ⟨hsp, by omega, hle.2⟩
        rintro sp' (hn | ⟨t', h6, h7⟩ | ⟨p', h6, h7⟩)
        · cases hn; exact hmain
        · cases h6
        · cases h6; cases h7; exact hmain
      | inside hc hn =>
        obtain ⟨k, v, d'⟩ := e
        cases hc with
        | key hm => cases List.mem_singleton.mp hm; exact ih (.inl hn)
        | value hm => cases List.mem_singleton.mp hm; exact ih (.inr hn)

/-- Where the nodes of the entries of the root stand, one entry after the other. -/
theorem RootStd.split {s : List Char} {lo hi : Nat} {a : List Entry} {e : Entry} {b : List Entry}
    (h : RootStd s lo hi (a ++ e :: b)) :
    ∃ m n, RootStd s lo m a ∧ RootStd s m n [e] ∧ RootStd s n hi b := by
  induction a generalizing lo with
  | nil =>
    obtain ⟨n, h1, h2⟩ := h
    exact ⟨lo, n, Nat.le_refl lo, ⟨n, h1, Nat.le_refl n⟩, h2⟩
  | cons x a ih =>
    obtain ⟨m, h1, h2⟩ := h
    obtain ⟨m', n, g1, g2, g3⟩ := ih h2
    exact ⟨m', n, ⟨m, h1, g1⟩, g2, g3⟩

theorem RootStd.node {s : List Char} {lo hi : Nat} {e : Entry} (h : RootStd s lo hi [e]) {w : Value}
    (hw : EntryNode w e) : Placed s lo hi w := by
  obtain ⟨m, h1, h2⟩ := h
  rcases h1 with h1 | ⟨_, whole, g1, g2, g3⟩
  · exact (h1.node hw).mono (Nat.le_refl _) h2
  · exact (g3.node g1 hw).mono g2 h2

theorem RootStd.le {s : List Char} {lo hi : Nat} {es : List Entry} (h : RootStd s lo hi es) : lo ≤ hi := by
  induction es generalizing lo with
  | nil => exact h
  | cons x es ih =>
    obtain ⟨m, h1, h2⟩ := h
    have := ih h2
    rcases h1 with h1 | ⟨_, whole, g1, g2, g3⟩
    · have := h1.le; omega
    · have := g3.le; have := g1.le; omega

theorem RootStd.mem {s : List Char} {lo hi : Nat} {es : List Entry} (h : RootStd s lo hi es) {e : Entry} (he : e ∈ es) :
    ∃ m n, lo ≤ m ∧ n ≤ hi ∧ RootStd s m n [e] := by
  obtain ⟨a, b, rfl⟩ := List.append_of_mem he
  obtain ⟨m, n, g1, g2, g3⟩ := h.split
  exact ⟨m, n, g1.le, g3.le, g2⟩

/-- Every node of a parsed tree but the root. -/
theorem tree_placed {s : List Char} {v w : Value} (h : parseTree s = some (.ok v)) (hw : Node w v) :
    w = v ∨ Placed s 0 (utf8Len s) w := by
  obtain ⟨es, rfl, h2⟩ := parseTree_std h
  cases hw with
  | self => exact .inl rfl
  | inside hc hn =>
    right
    cases hc with
    | key hm => obtain ⟨m, n, h3, h4, h5⟩ := h2.mem hm; exact (h5.node (.inl hn)).mono h3 h4
    | value hm => obtain ⟨m, n, h3, h4, h5⟩ := h2.mem hm; exact (h5.node (.inr hn)).mono h3 h4

/-- The three sorts of nodes below the root: values, keys and units for missing values. -/
def Sort3 (s : List Char) (w : Value) : Prop :=
  (∃ lo hi, Std s lo hi w) ∨ (∃ lo ksp, KeyStd s lo ksp w) ∨ ∃ sp, w = .mk none none sp

theorem Std.sort {s : List Char} {v w : Value} (hw : Node w v) : ∀ {lo hi : Nat}, Std s lo hi v → Sort3 s w := by
  induction hw with
  | self => exact fun h => .inl ⟨_, _, h⟩
  | inside hc hn ih =>
    intro lo hi h
    obtain ⟨sp, _, h2, h3, h4⟩ := h.child hc
    rcases h4 with ⟨ksp, g1, g2⟩ | ⟨ksp, g1, g2, g3, rfl⟩ | g
    · rw [g1.node hn]; exact .inr (.inl ⟨_, _, g1⟩)
    · rw [unit_node hn]; exact .inr (.inr ⟨_, rfl⟩)
    · exact ih g

theorem EntriesStd.sort {s : List Char} {lo hi : Nat} {e : Entry} (h : EntriesStd s lo hi [e]) {w : Value}
    (hw : EntryNode w e) : Sort3 s w := by
  obtain ⟨k, v, d⟩ := e
  obtain ⟨sp, g1, g2, g3⟩ := h.mem (List.mem_cons_self ..)
  rcases hw with hw | hw
  · rw [g1.node hw]; exact .inr (.inl ⟨_, _, g1⟩)
  · rcases g3 with rfl | g3
    · rw [unit_node hw]; exact .inr (.inr ⟨_, rfl⟩)
    · exact Std.sort hw g3

theorem DotEntry.sort {s : List Char} {whole : Span} {hi lo : Nat} {e : Entry} (h : DotEntry s whole hi lo e)
    {w : Value} (hn : EntryNode w e) : Sort3 s w ∨ ∃ e' sp, w = .mk none (some (.object [e'] sp)) sp := by
  induction h generalizing w with
  | last h1 h2 h3 h4 h5 =>
    rcases hn with hn | hn
    · rw [(dotKey_std h1 h3).node hn]; exact .inl (.inr (.inl ⟨_, _, dotKey_std h1 h3⟩))
    · rcases h5 with ⟨rfl, h5⟩ | h5
      · rw [unit_node hn]; exact .inl (.inr (.inr ⟨_, rfl⟩))
      · exact .inl (Std.sort hn h5)
  | more h1 h2 h3 h4 h5 ih =>
    rename_i lo sp text e d
    rcases hn with hn | hn
    · rw [(dotKey_std h1 h3).node hn]; exact .inl (.inr (.inl ⟨_, _, dotKey_std h1 h3⟩))
    · cases hn with
      | self => exact .inr ⟨_, _, rfl⟩
      | inside hc hn =>
        obtain ⟨k, v, d'⟩ := e
        cases hc with
        | key hm => cases List.mem_singleton.mp hm; exact ih (.inl hn)
        | value hm => cases List.mem_singleton.mp hm; exact ih (.inr hn)

/-- Every node of a parsed tree. -/
theorem tree_sort {s : List Char} {v w : Value} (h : parseTree s = some (.ok v)) (hw : Node w v) :
    w = v ∨ Sort3 s w ∨ ∃ e sp, w = .mk none (some (.object [e] sp)) sp := by
  obtain ⟨es, rfl, h2⟩ := parseTree_std h
  have key : ∀ e ∈ es, EntryNode w e → Sort3 s w ∨ ∃ e sp, w = .mk none (some (.object [e] sp)) sp := by
    intro e he hn
    obtain ⟨m, n, _, _, k, h5, _⟩ := h2.mem he
    rcases h5 with h5 | ⟨_, _, _, _, h5⟩
    · exact .inl (h5.sort hn)
    · exact h5.sort hn
  cases hw with
  | self => exact .inl rfl
  | inside hc hn =>
    right
    cases hc with
    | key hm => exact key _ hm (.inl hn)
    | value hm => exact key _ hm (.inr hn)

/-- Every node of a parsed tree without dotted keys. -/
theorem undotted_sort {s : List Char} {es : List Entry} {w : Value}
    (h2 : RootStd s 0 (utf8Len s) es) (hu : Undotted es)
    (hw : Node w (.mk none (some (.object es none)) none)) :
    w = .mk none (some (.object es none)) none ∨ Sort3 s w := by
  have key : ∀ e ∈ es, EntryNode w e → Sort3 s w := by
    rintro ⟨k, v, d⟩ he hn
    obtain ⟨m, n, _, _, _, h5, _⟩ := h2.mem he
    rcases h5 with h5 | ⟨⟨ksp, es', vsp, g1, rfl, g2⟩, _⟩
    · exact h5.sort hn
    · exact absurd g2 (hu _ _ _ _ _ he g1 rfl (by simp [Value.payload]))
  cases hw with
  | self => exact .inl rfl
  | inside hc hn =>
    right
    cases hc with
    | key hm => exact key _ hm (.inl hn)
    | value hm => exact key _ hm (.inr hn)

theorem undotted_entries {s : List Char} {lo hi : Nat} {es : List Entry} (h2 : RootStd s lo hi es)
    (hu : Undotted es) : EntriesStd s lo hi es := by
  induction es generalizing lo with
  | nil => exact h2
  | cons e es ih =>
    obtain ⟨k, v, d⟩ := e
    obtain ⟨m, h3, h4⟩ := h2
    have h5 := ih h4 fun k v d ksp vsp hm => hu k v d ksp vsp (List.mem_cons_of_mem _ hm)
    rcases h3 with ⟨sp, m', g1, g2, g3⟩ | ⟨⟨ksp, es', vsp, g1, rfl, g2⟩, _⟩
    · exact ⟨sp, m', g1, g2, h5.weaken g3⟩
    · exact absurd g2 (hu _ _ _ _ _ (List.mem_cons_self ..) g1 rfl (by simp [Value.payload]))

theorem entryNotes_node {e : Entry} {sp : Span} (h : EntryNotes e sp) : ∃ w, EntryNode w e ∧ Notes w sp := by
  obtain ⟨k, v, d⟩ := e
  rcases h with ⟨w, h1, h2⟩ | ⟨w, h1, h2⟩
  · exact ⟨w, .inl h1, h2⟩
  · exact ⟨w, .inr h1, h2⟩

theorem EntriesStd.root {s : List Char} {lo hi : Nat} {es : List Entry} (h : EntriesStd s lo hi es) :
    RootStd s lo hi es := by
  induction es generalizing lo with
  | nil => exact h
  | cons e es ih =>
    obtain ⟨k, v, d⟩ := e
    obtain ⟨sp, m, h1, h2, h3⟩ := h
    exact ⟨m, .inl ⟨sp, m, h1, h2, Nat.le_refl m⟩, ih h3⟩

theorem RootStd.ordered {s : List Char} {lo hi : Nat} {a b c : List Entry} {e e' : Entry}
    (h : RootStd s lo hi (a ++ e :: b ++ e' :: c)) {sp sp' : Span} (h1 : EntryNotes e sp)
    (h2 : EntryNotes e' sp') : sp.stop ≤ sp'.start := by
  obtain ⟨m, n, g1, g2, _⟩ := h.split
  obtain ⟨m', n', _, g3, g4⟩ := g1.split
  obtain ⟨w, k1, k2⟩ := entryNotes_node h1
  obtain ⟨w', k3, k4⟩ := entryNotes_node h2
  have p1 := (g3.node k1).ok _ k2
  have p2 := (g2.node k3).ok _ k4
  have := g4.le
  omega

theorem ItemsStd.ordered {s : List Char} {lo hi : Nat} {a b c : List Value} {v v' : Value}
    (h : ItemsStd s lo hi (a ++ v :: b ++ v' :: c)) {sp sp' : Span} (h1 : NotesInside v sp)
    (h2 : NotesInside v' sp') : sp.stop ≤ sp'.start := by
  obtain ⟨w, k1, k2⟩ := h1
  obtain ⟨w', k3, k4⟩ := h2
  induction a generalizing lo with
  | nil =>
    obtain ⟨m, g1, g2⟩ := h
    have p1 := (Std.node k1 g1).ok _ k2
    have p2 := (Std.node k3 (g2.mem (v := v') (by simp))).ok _ k4
    omega
  | cons x a ih =>
    obtain ⟨m, g1, g2⟩ := h
    exact ih g2

end Styx
