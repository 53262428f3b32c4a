import Verif.Lsp.CursorSpec
import Verif.Tree.SpanLemmas

/-!
# Lemmas about the path at the cursor
-/

namespace Styx.Lsp

open Styx Styx.Spec

theorem inSpan_iff {off : Nat} {sp : Option Span} : inSpan off sp = true ↔ On off sp := by
  cases sp with
  | none => simp [inSpan, On]
  | some sp => simp [inSpan, On]

theorem inSpan_false {off : Nat} {sp : Option Span} : inSpan off sp = false ↔ ¬ On off sp := by
  rw [← inSpan_iff]; simp

/-- What is known when nothing is found in a node. -/
def Silent (off : Nat) (v : Value) : Prop :=
  ∃ x, LeadsTo x v [] ∧ (x = v ∨ On off x.span) ∧ NothingInside off x

theorem atCursor_field {off : Nat} {es : List Entry} {k y : Value} {d : Option (List Char)} {name : List Char}
    {p : List Seg} (hm : Entry.mk k y d ∈ es) (hk : k.asStr = some name) (h : AtCursor off y p) (t o sp) :
    AtCursor off (.mk t (some (.object es o)) sp) (.field name :: p) := by
  cases h with
  | key h1 h2 h3 h4 h5 => exact .key (p := .field name :: _) (.field hm hk h1) h2 h3 h4 h5
  | value h1 h2 h3 h4 => exact .value (.field hm hk h1) (by simp) h3 h4

theorem atCursor_unnamed {off : Nat} {es : List Entry} {k y : Value} {d : Option (List Char)}
    {p : List Seg} (hm : Entry.mk k y d ∈ es) (hk : k.asStr = none) (h : AtCursor off y p) (t o sp) :
    AtCursor off (.mk t (some (.object es o)) sp) p := by
  cases h with
  | key h1 h2 h3 h4 h5 => exact .key (.unnamed hm hk h1) h2 h3 h4 h5
  | value h1 h2 h3 h4 => exact .value (.unnamed hm hk h1) h2 h3 h4

theorem atCursor_item {off : Nat} {items : List Value} {i : Nat} {y : Value} {p : List Seg}
    (hm : items[i]? = some y) (h : AtCursor off y p) (t o sp) :
    AtCursor off (.mk t (some (.sequence items o)) sp) (.index i :: p) := by
  cases h with
  | key h1 h2 h3 h4 h5 => exact .key (p := .index i :: _) (.item hm h1) h2 h3 h4 h5
  | value h1 h2 h3 h4 => exact .value (.item hm h1) (by simp) h3 h4

/-- A value on the cursor with nothing found inside. -/
theorem Silent.field {off : Nat} {es : List Entry} {k y : Value} {d : Option (List Char)} {name : List Char}
    (hm : Entry.mk k y d ∈ es) (hk : k.asStr = some name) (hon : On off y.span) (h : Silent off y) (t o sp) :
    AtCursor off (.mk t (some (.object es o)) sp) [.field name] := by
  obtain ⟨x, h1, h2, h3⟩ := h
  refine .value (.field hm hk h1) (by simp) ?_ h3
  rcases h2 with rfl | h2
  · exact hon
  · exact h2

theorem Silent.item {off : Nat} {items : List Value} {i : Nat} {y : Value}
    (hm : items[i]? = some y) (hon : On off y.span) (h : Silent off y) (t o sp) :
    AtCursor off (.mk t (some (.sequence items o)) sp) [.index i] := by
  obtain ⟨x, h1, h2, h3⟩ := h
  refine .value (.item hm h1) (by simp) ?_ h3
  rcases h2 with rfl | h2
  · exact hon
  · exact h2

theorem leaf_silent {off : Nat} {t p sp} (h : ∀ es o, p ≠ some (.object es o)) (h' : ∀ es o, p ≠ some (.sequence es o)) :
    Silent off (.mk t p sp) :=
  ⟨_, .here, .inl rfl, fun es o _ _ _ hp => absurd hp (h es o), fun es o _ hp => absurd hp (h' es o)⟩

mutual
theorem findPath_sound (off : Nat) : ∀ v : Value,
    (∀ p, findPath off v = some p → AtCursor off v p) ∧ (findPath off v = none → Silent off v)
  | .mk t (some (.object es o)) sp => by
    obtain ⟨h1, h2⟩ := findEntries_sound off es es (fun _ h => h)
    refine ⟨fun p hp => ?_, fun hp => ?_⟩
    · rw [findPath] at hp
      exact h1 p hp t o sp
    · rw [findPath] at hp
      rcases h2 hp with h2 | ⟨k, y, d, h3, h4, h5, h6⟩
      · refine ⟨_, .here, .inl rfl, ?_, fun _ _ _ hp => (nomatch hp)⟩
        rintro es' o' k y d hp hm
        cases hp
        exact h2 k y d hm
      · obtain ⟨x, g1, g2, g3⟩ := h6
        refine ⟨x, .unnamed h3 h4 g1, .inr ?_, g3⟩
        rcases g2 with rfl | g2
        · exact h5
        · exact g2
  | .mk t (some (.sequence items o)) sp => by
    obtain ⟨h1, h2⟩ := findItems_sound off 0 items items (fun i y h => by simpa using h)
    refine ⟨fun p hp => ?_, fun hp => ?_⟩
    · rw [findPath] at hp
      exact h1 p hp t o sp
    · rw [findPath] at hp
      refine ⟨_, .here, .inl rfl, fun _ _ _ _ _ hp => (nomatch hp), ?_⟩
      rintro items' o' y hp hm
      cases hp
      exact h2 hp y hm
  | .mk t (some (.scalar text k o)) sp => ⟨fun p hp => (nomatch hp), fun _ => leaf_silent (by simp) (by simp)⟩
  | .mk t none sp => ⟨fun p hp => (nomatch hp), fun _ => leaf_silent (by simp) (by simp)⟩

theorem findEntries_sound (off : Nat) : ∀ (es all : List Entry), (∀ e ∈ es, e ∈ all) →
    (∀ p, findEntries off es = some p → ∀ t o sp, AtCursor off (.mk t (some (.object all o)) sp) p) ∧
    (findEntries off es = none →
      (∀ k y d, Entry.mk k y d ∈ es → ¬ On off y.span ∧ (k.asStr ≠ none → ¬ On off k.span)) ∨
      ∃ k y d, Entry.mk k y d ∈ all ∧ k.asStr = none ∧ On off y.span ∧ Silent off y)
  | [], _, _ => ⟨fun p hp => (nomatch hp), fun _ => .inl (fun _ _ _ h => by cases h)⟩
  | .mk k v d :: es, all, hall => by
    have hm : Entry.mk k v d ∈ all := hall _ (List.mem_cons_self ..)
    obtain ⟨g1, g2⟩ := findPath_sound off v
    obtain ⟨i1, i2⟩ := findEntries_sound off es all (fun e he => hall e (List.mem_cons_of_mem _ he))
    by_cases hk : ∃ key, k.asStr = some key ∧ On off k.span
    · obtain ⟨key, h1, h2⟩ := hk
      have he : findEntries off (.mk k v d :: es) = some [.field key] := by
        rw [findEntries, inSpan_iff.mpr h2]
        simp only [if_true, h1]
      rw [he]
      refine ⟨fun p hp t o sp => ?_, fun hp => (nomatch hp)⟩
      cases hp
      exact .key (p := []) .here rfl hm h1 h2
    · have hk0 : (if inSpan off k.span = true then k.asStr else none) = none := by
        split
        · rename_i hin
          cases hs : k.asStr with
          | none => rfl
          | some key => exact absurd ⟨key, hs, inSpan_iff.mp hin⟩ hk
        · rfl
      have hk' : k.asStr ≠ none → ¬ On off k.span := by
        intro hne hon
        cases hs : k.asStr with
        | none => exact hne hs
        | some key => exact hk ⟨key, hs, hon⟩
      by_cases hv : On off v.span
      · cases hf : findPath off v with
        | some q =>
          have he : findEntries off (.mk k v d :: es) = some (consKey k q) := by
            rw [findEntries, hk0]
            simp only [inSpan_iff.mpr hv, if_true, hf]
          rw [he]
          refine ⟨fun p hp t o sp => ?_, fun hp => (nomatch hp)⟩
          cases hp
          unfold consKey
          cases hs : k.asStr with
          | none => exact atCursor_unnamed hm hs (g1 q hf) t o sp
          | some key => exact atCursor_field hm hs (g1 q hf) t o sp
        | none =>
          cases hs : k.asStr with
          | some key =>
            have he : findEntries off (.mk k v d :: es) = some [.field key] := by
              rw [findEntries, hk0]
              simp only [inSpan_iff.mpr hv, if_true, hf, hs]
            rw [he]
            refine ⟨fun p hp t o sp => ?_, fun hp => (nomatch hp)⟩
            cases hp
            exact (g2 hf).field hm hs hv t o sp
          | none =>
            have he : findEntries off (.mk k v d :: es) = findEntries off es := by
              rw [findEntries, hk0]
              simp only [inSpan_iff.mpr hv, if_true, hf, hs]
            rw [he]
            exact ⟨i1, fun _ => .inr ⟨k, v, d, hm, hs, hv, g2 hf⟩⟩
      · have he : findEntries off (.mk k v d :: es) = findEntries off es := by
          rw [findEntries, hk0]
          simp [inSpan_false.mpr hv]
        rw [he]
        refine ⟨i1, fun hp => ?_⟩
        rcases i2 hp with i2 | i2
        · left
          intro k' y d' hm'
          rcases List.mem_cons.mp hm' with h | h
          · cases h; exact ⟨hv, hk'⟩
          · exact i2 k' y d' h
        · exact .inr i2

theorem findItems_sound (off : Nat) : ∀ (i : Nat) (vs all : List Value), (∀ j y, vs[j]? = some y → all[i + j]? = some y) →
    (∀ p, findItems off i vs = some p → ∀ t o sp, AtCursor off (.mk t (some (.sequence all o)) sp) p) ∧
    (findItems off i vs = none → ∀ y ∈ vs, ¬ On off y.span)
  | i, [], _, _ => ⟨fun p hp => by simp [findItems] at hp, fun _ y hy => by cases hy⟩
  | i, v :: vs, all, hall => by
    have hm : all[i]? = some v := hall 0 v rfl
    obtain ⟨g1, g2⟩ := findPath_sound off v
    obtain ⟨i1, i2⟩ := findItems_sound off (i + 1) vs all (fun j y hj => by
      have := hall (j + 1) y (by simpa using hj)
      rw [show i + 1 + j = i + (j + 1) by omega]
      exact this)
    by_cases hv : On off v.span
    · cases hf : findPath off v with
      | some q =>
        have he : findItems off i (v :: vs) = some (.index i :: q) := by
          rw [findItems]; simp only [inSpan_iff.mpr hv, if_true, hf]
        rw [he]
        refine ⟨fun p hp t o sp => ?_, fun hp => (nomatch hp)⟩
        cases hp
        exact atCursor_item hm (g1 q hf) t o sp
      | none =>
        have he : findItems off i (v :: vs) = some [.index i] := by
          rw [findItems]; simp only [inSpan_iff.mpr hv, if_true, hf]
        rw [he]
        refine ⟨fun p hp t o sp => ?_, fun hp => (nomatch hp)⟩
        cases hp
        exact (g2 hf).item hm hv t o sp
    · have he : findItems off i (v :: vs) = findItems off (i + 1) vs := by
        rw [findItems]; simp [inSpan_false.mpr hv]
      rw [he]
      refine ⟨i1, fun hp y hy => ?_⟩
      rcases List.mem_cons.mp hy with rfl | hy
      · exact hv
      · exact i2 hp y hy
end

/-! ## Trees whose parts stand in order -/

/-- The entries or items of the node stand in order. -/
def LaidNode (s : List Char) (v : Value) : Prop :=
  (∀ es o, v.payload = some (.object es o) → ∃ lo hi, EntriesStd s lo hi es) ∧
  (∀ items o, v.payload = some (.sequence items o) → ∃ lo hi, ItemsStd s lo hi items)

theorem std_laid {s : List Char} {lo hi : Nat} {v : Value} (h : Std s lo hi v) : LaidNode s v := by
  obtain ⟨t, p, vsp⟩ := v
  cases vsp with
  | none => exact h.elim
  | some sp =>
    obtain ⟨_, _, _, _, h5⟩ := h
    refine ⟨fun es o hp => ?_, fun items o hp => ?_⟩
    · simp only [Value.payload] at hp
      subst hp
      exact ⟨_, _, h5.2⟩
    · simp only [Value.payload] at hp
      subst hp
      exact ⟨_, _, h5.2⟩

theorem unit_laid {s : List Char} {sp : Option Span} : LaidNode s (.mk none none sp) :=
  ⟨fun _ _ hp => (nomatch hp), fun _ _ hp => (nomatch hp)⟩

theorem on_std {s : List Char} {lo hi off : Nat} {v : Value} (h : Std s lo hi v) (hon : On off v.span) :
    lo ≤ off ∧ off < hi := by
  obtain ⟨sp, h1, h2, h3⟩ := hon
  have := (h.placed.ok sp (.inl h1)).2
  omega

theorem on_key {s : List Char} {lo off : Nat} {ksp : Span} {k : Value} (h : KeyStd s lo ksp k) (hon : On off k.span) :
    lo ≤ off ∧ ksp.start ≤ off ∧ off < ksp.stop := by
  obtain ⟨t, p, sp⟩ := k
  obtain ⟨sp', h1, h2, h3⟩ := hon
  obtain ⟨rfl, _, h4, _⟩ := h
  cases h1
  exact ⟨by omega, h2, h3⟩

/-- Nothing is found before or after the bytes of the entries. -/
theorem findEntries_none {s : List Char} {off : Nat} : ∀ {es : List Entry} {lo hi : Nat}, EntriesStd s lo hi es →
    off < lo ∨ hi ≤ off → ∀ rest, findEntries off (es ++ rest) = findEntries off rest
  | [], _, _, _, _, _ => rfl
  | .mk k v d :: es, lo, hi, h, ho, rest => by
    have hle := h
    obtain ⟨sp, g1, g2, g3⟩ := h.mem (List.mem_cons_self ..)
    obtain ⟨sp0, m, f1, f2, f3⟩ := hle
    have hk : ¬ On off k.span := by
      intro hon
      have := on_key g1 hon
      omega
    have hv : ¬ On off v.span := by
      intro hon
      rcases g3 with rfl | g3
      · obtain ⟨sp', h1, h2, h3⟩ := hon
        cases h1
        have := g1.spanOK.2
        omega
      · have := on_std g3 hon
        have := g1.le
        omega
    have hm : lo ≤ m := by
      have := f1.le
      rcases f2 with ⟨_, f2⟩ | f2
      · omega
      · have := f2.le; omega
    rw [List.cons_append, findEntries]
    simp only [inSpan_false.mpr hk, inSpan_false.mpr hv, Bool.false_eq_true, if_false]
    exact findEntries_none f3 (by omega) rest

theorem EntriesStd.split {s : List Char} {a : List Entry} {k v : Value} {d : Option (List Char)} {b : List Entry} :
    ∀ {lo hi : Nat}, EntriesStd s lo hi (a ++ .mk k v d :: b) →
    ∃ m n sp, EntriesStd s lo m a ∧ KeyStd s m sp k ∧
      ((v = .mk none none (some sp) ∧ sp.stop ≤ n) ∨ Std s sp.stop n v) ∧ EntriesStd s n hi b := by
  induction a with
  | nil =>
    intro lo hi h
    obtain ⟨sp, m, h1, h2, h3⟩ := h
    exact ⟨lo, m, sp, Nat.le_refl lo, h1, h2, h3⟩
  | cons e a ih =>
    intro lo hi h
    obtain ⟨k', v', d'⟩ := e
    obtain ⟨sp, m, h1, h2, h3⟩ := h
    obtain ⟨m', n, sp', g1, g2⟩ := ih h3
    exact ⟨m', n, sp', ⟨sp, m, h1, h2, g1⟩, g2⟩

/-- The cursor is on a key. -/
theorem findEntries_key {s : List Char} {off lo hi : Nat} {es : List Entry} {k v : Value} {d : Option (List Char)}
    {name : List Char} (h : EntriesStd s lo hi es) (hm : Entry.mk k v d ∈ es) (hk : k.asStr = some name)
    (hon : On off k.span) : findEntries off es = some [.field name] := by
  obtain ⟨a, b, rfl⟩ := List.append_of_mem hm
  obtain ⟨m, n, sp, g1, g2, _⟩ := EntriesStd.split h
  rw [findEntries_none g1 (by have := on_key g2 hon; omega), findEntries]
  simp only [inSpan_iff.mpr hon, if_true, hk]

/-- The cursor is on a value. -/
theorem findEntries_value {s : List Char} {off lo hi : Nat} {es : List Entry} {k v : Value} {d : Option (List Char)}
    (h : EntriesStd s lo hi es) (hm : Entry.mk k v d ∈ es) (hon : On off v.span) :
    findEntries off es = match findPath off v with
      | some q => some (consKey k q)
      | none => k.asStr.map fun name => [.field name] := by
  obtain ⟨a, b, rfl⟩ := List.append_of_mem hm
  obtain ⟨m, n, sp, g1, g2, g3, g4⟩ := EntriesStd.split h
  have hb : m ≤ off ∧ off < n := by
    have := g2.le
    have := g2.spanOK.2
    rcases g3 with ⟨rfl, g3⟩ | g3
    · obtain ⟨sp', h1, h2, h3⟩ := hon
      cases h1
      omega
    · have := on_std g3 hon
      omega
  have hrest : findEntries off b = none := by
    have := findEntries_none g4 (.inl hb.2) []
    simpa [findEntries] using this
  rw [findEntries_none g1 (by omega), findEntries]
  have hkey : inSpan off k.span = true → ∀ name, k.asStr = some name → findPath off v = none := by
    intro hin name _
    have hk := on_key g2 (inSpan_iff.mp hin)
    rcases g3 with ⟨rfl, g3⟩ | g3
    · rfl
    · have := on_std g3 hon
      omega
  by_cases hin : inSpan off k.span = true
  · cases hs : k.asStr with
    | some name =>
      rw [hkey hin name hs]
      simp only [hin, if_true, Option.map]
    | none =>
      simp only [hin, if_true, inSpan_iff.mpr hon, hrest]
      cases findPath off v <;> simp [consKey, hs]
  · simp only [hin, if_true, inSpan_iff.mpr hon, hrest, Bool.false_eq_true, if_false]
    cases findPath off v with
    | some q => rfl
    | none => cases k.asStr <;> rfl

theorem findItems_value {s : List Char} {off : Nat} {y : Value} (hon : On off y.span) :
    ∀ {items : List Value} {lo hi j : Nat} (i : Nat), ItemsStd s lo hi items → items[j]? = some y →
    findItems off i items = match findPath off y with
      | some q => some (.index (i + j) :: q)
      | none => some [.index (i + j)]
  | [], _, _, _, _, _, hj => by simp at hj
  | v :: vs, lo, hi, j, i, h, hj => by
    obtain ⟨m, h1, h2⟩ := h
    cases j with
    | zero =>
      simp only [List.getElem?_cons_zero, Option.some.injEq] at hj
      subst hj
      rw [findItems]
      simp only [inSpan_iff.mpr hon, if_true, Nat.add_zero]
      cases findPath off v <;> rfl
    | succ j =>
      have hj' : vs[j]? = some y := by simpa using hj
      have hv : ¬ On off v.span := by
        intro hv
        have p1 := on_std h1 hv
        have p2 := on_std (h2.mem (List.mem_of_getElem? hj')) hon
        omega
      rw [findItems]
      simp only [inSpan_false.mpr hv, Bool.false_eq_true, if_false]
      rw [findItems_value hon (i + 1) h2 hj', show i + 1 + j = i + (j + 1) by omega]

/-- The place of what a path leads to is in the place of where it starts. -/
theorem leadsTo_on {s : List Char} {off : Nat} {x v : Value} {p : List Seg} (h : LeadsTo x v p) :
    ∀ {lo hi : Nat}, Std s lo hi v → On off x.span → On off v.span := by
  have key : ∀ {lo hi : Nat} {v y : Value}, Std s lo hi v → Child y v →
      (∀ {lo hi : Nat}, Std s lo hi y → On off x.span → On off y.span) → Node x y → On off x.span → On off v.span := by
    intro lo hi v y h hc ih hn hon
    obtain ⟨sp, h1, h2, h3, h4⟩ := h.child hc
    have : Placed s sp.start sp.stop x := by
      rcases h4 with ⟨ksp, k1, k2⟩ | ⟨ksp, k1, k2, k3, rfl⟩ | g
      · rw [k1.node hn]; exact k1.placed k2
      · rw [unit_node hn]; exact unit_placed k1 k2 k3
      · exact Std.node hn g
    obtain ⟨xsp, g1, g2, g3⟩ := hon
    have := (this.ok xsp (.inl g1)).2
    exact ⟨sp, h1, by omega, by omega⟩
  have hnode : ∀ {v p}, LeadsTo x v p → Node x v := by
    intro v p h
    induction h with
    | here => exact .self
    | field h1 _ _ ih => exact .inside (.value h1) ih
    | unnamed h1 _ _ ih => exact .inside (.value h1) ih
    | item h1 _ ih => exact .inside (.item (List.mem_of_getElem? h1)) ih
  induction h with
  | here => exact fun _ h => h
  | field h1 _ h3 ih => exact fun h hon => key h (.value h1) ih (hnode h3) hon
  | unnamed h1 _ h3 ih => exact fun h hon => key h (.value h1) ih (hnode h3) hon
  | item h1 h3 ih => exact fun h hon => key h (.item (List.mem_of_getElem? h1)) ih (hnode h3) hon

theorem entry_laid {s : List Char} {lo hi : Nat} {es : List Entry} {k y : Value} {d : Option (List Char)}
    (h : EntriesStd s lo hi es) (hm : Entry.mk k y d ∈ es) :
    LaidNode s y ∧ ∀ {off : Nat} {x : Value} {p : List Seg}, LeadsTo x y p → On off x.span → On off y.span := by
  obtain ⟨sp, _, _, g3⟩ := h.mem hm
  rcases g3 with rfl | g3
  · refine ⟨unit_laid, fun hl hon => ?_⟩
    cases hl
    exact hon
  · exact ⟨std_laid g3, fun hl hon => leadsTo_on hl g3 hon⟩

/-- What is found in a node that has the cursor, seen from a node it is in. -/
theorem leadsTo_find {s : List Char} {off : Nat} {x v : Value} {p : List Seg} (h : LeadsTo x v p) :
    LaidNode s v → On off x.span →
    (∀ q, findPath off x = some q → findPath off v = some (p ++ q)) ∧
    (findPath off x = none → p ≠ [] → findPath off v = some p) ∧
    (findPath off x = none → p = [] → findPath off v = none) := by
  induction h with
  | here => exact fun _ _ => ⟨fun q hq => hq, fun _ hp => absurd rfl hp, fun hq _ => hq⟩
  | @field _ _ _ _ _ _ _ _ p h1 h2 h3 ih =>
    intro hl hon
    obtain ⟨lo, hi, hes⟩ := hl.1 _ _ rfl
    obtain ⟨e1, e2⟩ := entry_laid hes h1
    obtain ⟨i1, i2, i3⟩ := ih e1 hon
    have hf := findEntries_value hes h1 (e2 h3 hon)
    rw [findPath]
    rw [hf]
    refine ⟨fun q hq => ?_, fun hq _ => ?_, fun _ hp => by simp at hp⟩
    · rw [i1 q hq]
      simp [consKey, h2]
    · by_cases hp : p = []
      · rw [i3 hq hp, hp]
        simp [h2]
      · rw [i2 hq hp]
        simp [consKey, h2]
  | unnamed h1 h2 h3 ih =>
    intro hl hon
    obtain ⟨lo, hi, hes⟩ := hl.1 _ _ rfl
    obtain ⟨e1, e2⟩ := entry_laid hes h1
    obtain ⟨i1, i2, i3⟩ := ih e1 hon
    have hf := findEntries_value hes h1 (e2 h3 hon)
    rw [findPath]
    rw [hf]
    refine ⟨fun q hq => ?_, fun hq hp => ?_, fun hq hp => ?_⟩
    · rw [i1 q hq]
      simp [consKey, h2]
    · rw [i2 hq hp]
      simp [consKey, h2]
    · rw [i3 hq hp]
      simp [h2]
  | @item _ _ _ _ _ _ p h1 h3 ih =>
    intro hl hon
    obtain ⟨lo, hi, hes⟩ := hl.2 _ _ rfl
    have hstd := hes.mem (List.mem_of_getElem? h1)
    obtain ⟨i1, i2, i3⟩ := ih (std_laid hstd) hon
    have hf := findItems_value (leadsTo_on h3 hstd hon) 0 hes h1
    rw [findPath]
    rw [hf]
    refine ⟨fun q hq => ?_, fun hq _ => ?_, fun _ hp => by simp at hp⟩
    · rw [i1 q hq]
      simp
    · by_cases hp : p = []
      · rw [i3 hq hp, hp]
        simp
      · rw [i2 hq hp]
        simp

theorem nothing_entries {off : Nat} {es : List Entry}
    (h : ∀ k y d, Entry.mk k y d ∈ es → ¬ On off y.span ∧ (k.asStr ≠ none → ¬ On off k.span)) :
    findEntries off es = none := by
  induction es with
  | nil => rfl
  | cons e es ih =>
    obtain ⟨k, y, d⟩ := e
    obtain ⟨h1, h2⟩ := h k y d (List.mem_cons_self ..)
    have hk0 : (if inSpan off k.span = true then k.asStr else none) = none := by
      split
      · rename_i hin
        cases hs : k.asStr with
        | none => rfl
        | some key => exact absurd (inSpan_iff.mp hin) (h2 (by simp [hs]))
      · rfl
    rw [findEntries, hk0]
    simp only [inSpan_false.mpr h1, Bool.false_eq_true, if_false]
    exact ih fun k y d hm => h k y d (List.mem_cons_of_mem _ hm)

theorem nothing_items {off : Nat} {items : List Value} (h : ∀ y ∈ items, ¬ On off y.span) (i : Nat) :
    findItems off i items = none := by
  induction items generalizing i with
  | nil => rfl
  | cons y items ih =>
    rw [findItems]
    simp only [inSpan_false.mpr (h y (List.mem_cons_self ..)), Bool.false_eq_true, if_false]
    exact ih (fun y hy => h y (List.mem_cons_of_mem _ hy)) _

theorem nothing_none {off : Nat} {x : Value} (h : NothingInside off x) : findPath off x = none := by
  obtain ⟨t, p, sp⟩ := x
  match p, h with
  | some (.object es o), h => exact nothing_entries fun k y d hm => h.1 es o k y d rfl hm
  | some (.sequence items o), h => exact nothing_items (fun y hm => h.2 items o y rfl hm) 0
  | some (.scalar _ _ _), _ => rfl
  | none, _ => rfl

theorem leadsTo_node {x v : Value} {p : List Seg} (h : LeadsTo x v p) : Node x v := by
  induction h with
  | here => exact .self
  | field h1 _ _ ih => exact .inside (.value h1) ih
  | unnamed h1 _ _ ih => exact .inside (.value h1) ih
  | item h1 _ ih => exact .inside (.item (List.mem_of_getElem? h1)) ih

/-- Everything at the cursor is found. -/
theorem atCursor_found {s : List Char} {off : Nat} {es : List Entry} {p : List Seg}
    (hr : RootStd s 0 (utf8Len s) es) (hu : Undotted es)
    (h : AtCursor off (.mk none (some (.object es none)) none) p) :
    findPath off (.mk none (some (.object es none)) none) = some p := by
  have hes := undotted_entries hr hu
  have hlaid : LaidNode s (.mk none (some (.object es none)) none) :=
    ⟨fun es' o hp => by cases hp; exact ⟨_, _, hes⟩, fun _ _ hp => (nomatch hp)⟩
  cases h with
  | @value x p h1 h2 h3 h4 => exact (leadsTo_find h1 hlaid h3).2.1 (nothing_none h4) h2
  | @key w es' o k y d name p h1 h2 h3 h4 h5 =>
    have hcase : w = .mk none (some (.object es none)) none ∧ p = [] ∨ Sort3 s w := by
      cases h1 with
      | here => exact .inl ⟨rfl, rfl⟩
      | field g1 _ g3 =>
        obtain ⟨sp, _, _, g4⟩ := hes.mem g1
        right
        rcases g4 with rfl | g4
        · exact .inr (.inr ⟨_, unit_node (leadsTo_node g3)⟩)
        · exact Std.sort (leadsTo_node g3) g4
      | unnamed g1 _ g3 =>
        obtain ⟨sp, _, _, g4⟩ := hes.mem g1
        right
        rcases g4 with rfl | g4
        · exact .inr (.inr ⟨_, unit_node (leadsTo_node g3)⟩)
        · exact Std.sort (leadsTo_node g3) g4
    rcases hcase with ⟨rfl, rfl⟩ | hs
    · cases h2
      exact findEntries_key hes h3 h4 h5
    · rcases hs with ⟨lo, hi, hs⟩ | ⟨lo, ksp, hs⟩ | ⟨sp, rfl⟩
      · obtain ⟨t, pl, wsp⟩ := w
        simp only [Value.payload] at h2
        subst h2
        cases wsp with
        | none => exact hs.elim
        | some wsp =>
          have hent : EntriesStd s wsp.start wsp.stop es' := hs.2.2.2.2.2
          have hon : On off (Value.span (.mk t (some (.object es' o)) (some wsp))) := by
            obtain ⟨ksp, g1, g2, _⟩ := hent.mem h3
            have := on_key g1 h5
            exact ⟨wsp, rfl, by omega, by omega⟩
          exact (leadsTo_find h1 hlaid hon).1 _ (findEntries_key hent h3 h4 h5)
      · obtain ⟨t, pl, wsp⟩ := w
        simp only [Value.payload] at h2
        subst h2
        rcases hs.2.2.2.2 with hs | ⟨_, _, hs, _⟩ <;> cases hs
      · cases h2

end Styx.Lsp
