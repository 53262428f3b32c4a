import Verif.Lsp.Harness
import Verif.Lsp.HarnessSpec
import Verif.Lsp.CursorLemmas
import Verif.Lsp.ContextLemmas

/-!
# Lemmas about the requests of the test harness
-/

namespace Styx.Lsp

open Styx Styx.Spec

/-! ## The tagged value -/

mutual
theorem tagged_same (off : Nat) : ∀ (v : Value) (cur : Option Value), harnessTagged off cur v = findTagged off cur v
  | .mk t (some (.object es o)) sp, cur => by
    have h := tagged_same_entries off es
    rw [harnessTagged, findTagged, maybeIn]
    cases hb : (sp.isNone || touches off sp) <;> simp [harnessTaggedIn, h]
  | .mk t (some (.sequence items o)) sp, cur => by
    have h := tagged_same_items off items
    rw [harnessTagged, findTagged, maybeIn]
    cases hb : (sp.isNone || touches off sp) <;> simp [harnessTaggedIn, h]
  | .mk t (some (.scalar text k o)) sp, cur => by
    rw [harnessTagged, findTagged, maybeIn]
    · cases hb : (sp.isNone || touches off sp) <;> simp [harnessTaggedIn]
    all_goals simp
  | .mk t none sp, cur => by
    rw [harnessTagged, findTagged, maybeIn]
    · cases hb : (sp.isNone || touches off sp) <;> simp [harnessTaggedIn]
    all_goals simp
theorem tagged_same_entries (off : Nat) : ∀ (es : List Entry) (cur : Option Value),
    harnessTaggedEntries off cur es = findTaggedEntries off cur es
  | [], _ => rfl
  | .mk k v d :: es, cur => by
    rw [harnessTaggedEntries, findTaggedEntries, tagged_same off v cur, tagged_same_entries off es cur]
    cases findTagged off cur v <;> rfl
theorem tagged_same_items (off : Nat) : ∀ (vs : List Value) (cur : Option Value),
    harnessTaggedItems off cur vs = findTaggedItems off cur vs
  | [], _ => rfl
  | v :: vs, cur => by
    rw [harnessTaggedItems, findTaggedItems, tagged_same off v cur, tagged_same_items off vs cur]
    cases findTagged off cur v <;> rfl
end

/-! ## Before and after the cursor -/

theorem touches_after {off : Nat} {sp : Span} (h : sp.stop < off) : touches off (some sp) = false := by
  simp [touches]; omega

theorem touches_before {off : Nat} {sp : Span} (h : off < sp.start) : touches off (some sp) = false := by
  simp [touches]; omega

theorem KeyStd.span_eq {s : List Char} {lo : Nat} {sp : Span} {k : Value} (h : KeyStd s lo sp k) : k.span = some sp := by
  obtain ⟨t, p, ksp⟩ := k
  exact h.1

theorem Std.span_eq {s : List Char} {lo hi : Nat} {v : Value} (h : Std s lo hi v) :
    ∃ sp, v.span = some sp ∧ sp.start ≤ sp.stop ∧ lo ≤ sp.start ∧ sp.stop ≤ hi := by
  obtain ⟨t, p, vsp⟩ := v
  cases vsp with
  | none => exact h.elim
  | some sp => exact ⟨sp, rfl, h.1.le, h.2.1, h.2.2.1⟩

mutual
/-- An object that ends before the cursor gives no context. -/
theorem harnessObject_after {s : List Char} {off : Nat} : ∀ (v : Value) {lo hi : Nat} (par : Option Value),
    Std s lo hi v → hi < off → harnessObject off par v = none
  | .mk t p none, _, _, _, h, _ => h.elim
  | .mk t (some (.object es o)) (some sp), lo, hi, par, h, ho => by
    obtain ⟨_, _, h3, _, h5⟩ := h
    have hm : maybeIn off (some sp) = false := by rw [maybeIn, touches_after (by omega)]; rfl
    have he := harnessObjectEntries_after (off := off) es h5.2 (by omega) (.mk t (some (.object es o)) (some sp)) []
    rw [List.append_nil] at he
    rw [harnessObject, he, hm]
    rfl
  | .mk t (some (.sequence items o)) (some sp), lo, hi, par, h, ho => by
    obtain ⟨_, _, h3, _, h5⟩ := h
    have hm : maybeIn off (some sp) = false := by rw [maybeIn, touches_after (by omega)]; rfl
    rw [harnessObject, harnessObjectItems_after items h5.2 (by omega), hm]
    rfl
  | .mk t (some (.scalar text k o)) (some sp), lo, hi, par, h, ho => by
    obtain ⟨_, _, h3, _⟩ := h
    have hm : maybeIn off (some sp) = false := by rw [maybeIn, touches_after (by omega)]; rfl
    rw [harnessObject, hm]
    · rfl
    all_goals simp
  | .mk t none (some sp), lo, hi, par, h, ho => by
    obtain ⟨_, _, h3, _⟩ := h
    have hm : maybeIn off (some sp) = false := by rw [maybeIn, touches_after (by omega)]; rfl
    rw [harnessObject, hm]
    · rfl
    all_goals simp
theorem harnessObjectEntries_after {s : List Char} {off : Nat} : ∀ (es : List Entry) {lo hi : Nat},
    EntriesStd s lo hi es → hi < off → ∀ self rest, harnessObjectEntries off self (es ++ rest) =
      harnessObjectEntries off self rest
  | [], _, _, _, _, _, _ => rfl
  | .mk k v d :: es, lo, hi, h, ho, self, rest => by
    obtain ⟨sp, m, h1, h2, h3⟩ := h
    have hmh := h3.le
    have hk : touches off k.span = false := by
      rw [KeyStd.span_eq h1]
      refine touches_after ?_
      rcases h2 with ⟨_, h2⟩ | h2
      · omega
      · have := h2.le; omega
    have hv : harnessObject off (some self) v = none ∧ touches off v.span = false := by
      rcases h2 with ⟨rfl, h2⟩ | h2
      · have : touches off (some sp) = false := touches_after (by omega)
        refine ⟨?_, this⟩
        rw [harnessObject, maybeIn, this]
        · rfl
        all_goals simp
      · obtain ⟨vsp, e1, e2, e3, e4⟩ := Std.span_eq h2
        exact ⟨harnessObject_after v _ h2 (by omega), by rw [e1]; exact touches_after (by omega)⟩
    rw [List.cons_append, harnessObjectEntries, hv.1]
    simp only [hk, hv.2, Bool.false_eq_true, if_false]
    exact harnessObjectEntries_after es h3 ho self rest
theorem harnessObjectItems_after {s : List Char} {off : Nat} : ∀ (vs : List Value) {lo hi : Nat},
    ItemsStd s lo hi vs → hi < off → ∀ self, harnessObjectItems off self vs = none
  | [], _, _, _, _, _ => rfl
  | v :: vs, lo, hi, h, ho, self => by
    obtain ⟨m, h1, h2⟩ := h
    have hmh := h2.le
    rw [harnessObjectItems, harnessObject_after v _ h1 (by omega), harnessObjectItems_after vs h2 ho]
    rfl
end

/-- Objects that end before the cursor, or start behind it, are not entered by the server. -/
theorem findObjectEntries_away {s : List Char} {off : Nat} {path : List (List Char)} : ∀ (es : List Entry) {lo hi : Nat},
    EntriesStd s lo hi es → (hi < off ∨ off < lo) → ∀ rest, findObjectEntries off path (es ++ rest) =
      findObjectEntries off path rest
  | [], _, _, _, _, _ => rfl
  | .mk k v d :: es, lo, hi, h, ho, rest => by
    obtain ⟨sp, m, h1, h2, h3⟩ := h
    have hmh := h3.le
    have hks := h1.spanOK
    have hkl := hks.1.le
    have hv : touches off v.span = false := by
      rcases h2 with ⟨rfl, h2⟩ | h2
      · rcases ho with ho | ho
        · exact touches_after (by omega)
        · exact touches_before (by omega)
      · obtain ⟨vsp, e1, e2, e3, e4⟩ := Std.span_eq h2
        rw [e1]
        rcases ho with ho | ho
        · exact touches_after (by omega)
        · exact touches_before (by omega)
    have hlm : lo ≤ m := by
      rcases h2 with ⟨_, h2⟩ | h2
      · omega
      · have := h2.le; omega
    rw [List.cons_append, findObjectEntries]
    simp only [hv, Bool.false_eq_true, if_false]
    exact findObjectEntries_away es h3 (by omega) rest

/-- Entries that end before the cursor add nothing to the path of the harness. -/
theorem harnessEntries_after {s : List Char} {off : Nat} : ∀ (es : List Entry) {lo hi : Nat},
    EntriesStd s lo hi es → hi < off → (∀ k y d, Entry.mk k y d ∈ es → y.payload ≠ none) →
    ∀ rest, harnessEntries off (es ++ rest) = harnessEntries off rest
  | [], _, _, _, _, _, _ => rfl
  | .mk k v d :: es, lo, hi, h, ho, hg, rest => by
    obtain ⟨sp, m, h1, h2, h3⟩ := h
    have hmh := h3.le
    have hgv := hg k v d (List.mem_cons_self ..)
    have ih := harnessEntries_after es h3 ho (fun k y d hm => hg k y d (List.mem_cons_of_mem _ hm)) rest
    have hv : harnessPath off v = none := by
      rcases h2 with ⟨rfl, h2⟩ | h2
      · exact absurd rfl hgv
      · obtain ⟨vsp, e1, e2, e3, e4⟩ := Std.span_eq h2
        obtain ⟨t, p, vs⟩ := v
        simp only [Value.span] at e1
        subst e1
        have hout : outside off (some vsp) = true := by simp [outside]; omega
        match p with
        | some (.object es' o) => simp only [harnessPath, hout, if_true]
        | some (.sequence items o) => rw [harnessPath, hout] <;> simp
        | some (.scalar text k o) => rw [harnessPath, hout] <;> simp
        | none => rw [harnessPath, hout] <;> simp
    have ha : afterKey off k v = false := by
      have : v.payload.isNone = false := by cases hp : v.payload with
        | none => exact absurd hp hgv
        | some _ => rfl
      simp [afterKey, this]
    rw [List.cons_append, harnessEntries]
    cases k.asStr with
    | none => exact ih
    | some key => simp only [ha, hv, Bool.false_eq_true, if_false]; exact ih

theorem allGiven_mem {es : List Entry} (h : AllGivenEntries es) {k y : Value} {d : Option (List Char)}
    (hm : Entry.mk k y d ∈ es) : y.payload ≠ none ∧ AllGiven y := by
  induction es with
  | nil => cases hm
  | cons e es ih =>
    obtain ⟨k', v', d'⟩ := e
    rw [AllGivenEntries] at h
    rcases List.mem_cons.mp hm with hm | hm
    · cases hm; exact ⟨h.1, h.2.1⟩
    · exact ih h.2.2 hm

theorem fieldsTo_leadsTo {x v : Value} {p : List (List Char)} (h : FieldsTo x v p) : LeadsTo x v (p.map .field) := by
  induction h with
  | here => exact .here
  | field h1 h2 _ ih => exact .field h1 h2 ih

theorem fieldsTo_inside {s : List Char} {off lo hi : Nat} {x v : Value} {p : List (List Char)} (h : FieldsTo x v p)
    (hs : Std s lo hi v) (hi' : WithinPlace off x.span) : WithinPlace off v.span := by
  obtain ⟨sp, h1, h2, h3⟩ := hi'
  have a := leadsTo_on (fieldsTo_leadsTo h) hs (off := off) ⟨sp, h1, by omega, h3⟩
  have b := leadsTo_on (fieldsTo_leadsTo h) hs (off := off - 1) ⟨sp, h1, by omega, by omega⟩
  obtain ⟨vsp, e1, e2, e3⟩ := a
  obtain ⟨vsp', f1, f2, f3⟩ := b
  rw [e1] at f1
  cases f1
  exact ⟨vsp, e1, by omega, e3⟩

theorem inside_not_outside {off : Nat} {sp : Option Span} (h : WithinPlace off sp) : outside off sp = false := by
  obtain ⟨sp, rfl, h1, h2⟩ := h
  simp [outside]; omega

theorem inside_touches {off : Nat} {sp : Option Span} (h : WithinPlace off sp) : touches off sp = true := by
  obtain ⟨sp, rfl, h1, h2⟩ := h
  simp [touches]; omega

/-- What the harness and the server find for a cursor inside a scalar that is reached through objects. -/
theorem harness_walk {s : List Char} {off : Nat} {x v : Value} {p : List (List Char)} (h : FieldsTo x v p) :
    (∃ text k o, x.payload = some (.scalar text k o)) → WithinPlace off x.span →
    (v.span = none ∨ WithinPlace off v.span) →
    (∀ es o, v.payload = some (.object es o) → (o = none ∨ touches off o = true) ∧ ∃ lo hi, EntriesStd s lo hi es) →
    AllGiven v →
    harnessPath off v = some p ∧
    ∀ par, (p = [] → harnessObject off par v = par ∧ v.asObject = none) ∧
      (p ≠ [] → v.asObject ≠ none ∧ ∃ t es o sp, harnessObject off par v = some (.mk t (some (.object es o)) sp) ∧
        ∀ path, ∃ ctx, findObject off path v = some ctx ∧ ctx.entries = es ∧ ctx.span = o) := by
  induction h with
  | here =>
    rintro ⟨text, k, o, hp⟩ hin _ _ _
    obtain ⟨t, pl, sp⟩ := x
    simp only [Value.payload] at hp
    subst hp
    have hm : maybeIn off sp = true := by rw [maybeIn, show touches off sp = true from inside_touches hin]; simp
    refine ⟨?_, fun par => ⟨fun _ => ⟨?_, rfl⟩, fun hp => absurd rfl hp⟩⟩
    · rw [harnessPath, show outside off sp = false from inside_not_outside hin] <;> simp
    · rw [harnessObject, hm] <;> simp
  | @field es o sp k y d name p h1 h2 h3 ih =>
    intro hx hin hv hl hg
    rw [AllGiven] at hg
    obtain ⟨ho, lo, hi, hes⟩ := hl es o rfl
    obtain ⟨a, b, rfl⟩ := List.append_of_mem h1
    obtain ⟨m, n, ksp, g1, g2, g3, g4⟩ := EntriesStd.split hes
    have hgy : y.payload ≠ none := (allGiven_mem hg h1).1
    have hstd : Std s ksp.stop n y := by
      rcases g3 with ⟨rfl, _⟩ | g3
      · exact absurd rfl hgy
      · exact g3
    have hiny := fieldsTo_inside h3 hstd hin
    obtain ⟨ysp, e1, e2, e3, e4⟩ := Std.span_eq hstd
    obtain ⟨ysp', f1, f2, f3⟩ := id hiny
    rw [e1] at f1
    cases f1
    have hgy' : AllGiven y := (allGiven_mem hg h1).2
    obtain ⟨i1, i2⟩ := ih hx hin (.inr hiny) (fun es' o' hp => by
      obtain ⟨t, pl, vs⟩ := y
      simp only [Value.payload] at hp
      subst hp
      simp only [Value.span] at e1
      subst e1
      obtain ⟨_, _, _, _, q1, q2⟩ := hstd
      refine ⟨.inr ?_, _, _, q2⟩
      rw [q1]
      exact inside_touches hiny) hgy'
    have hks := g2.spanOK
    have hkl := hks.1.le
    have hma : m < off := by omega
    have hga : ∀ k y d, Entry.mk k y d ∈ a → y.payload ≠ none :=
      fun k' y' d' hm => (allGiven_mem hg (List.mem_append_left _ hm)).1
    have hak : afterKey off k y = false := by
      have : y.payload.isNone = false := by cases hp : y.payload with
        | none => exact absurd hp hgy
        | some _ => rfl
      simp [afterKey, this]
    have hout : outside off sp = false := by
      rcases hv with hv | hv
      · simp only [Value.span] at hv; subst hv; rfl
      · exact inside_not_outside hv
    refine ⟨?_, fun par => ⟨fun hp => (nomatch hp), fun _ => ⟨by simp [Value.asObject], ?_⟩⟩⟩
    · rw [harnessPath, hout, harnessEntries_after a g1 hma hga, harnessEntries, h2]
      simp [hak, i1]
    · have hobj : ∀ path, findObject off path (.mk none (some (.object (a ++ .mk k y d :: b) o)) sp) =
          some ((findObjectEntries off path (.mk k y d :: b)).getD ⟨path, a ++ .mk k y d :: b, o⟩) := by
        intro path
        rw [findObject, findObjectEntries_away a g1 (.inl hma)]
        rcases ho with rfl | ho
        · rfl
        · simp [ho]
      by_cases hp : p = []
      · obtain ⟨j1, j2⟩ := (i2 (some (.mk none (some (.object (a ++ .mk k y d :: b) o)) sp))).1 hp
        refine ⟨none, a ++ .mk k y d :: b, o, sp, ?_, fun path => ⟨_, hobj path, ?_⟩⟩
        · rw [harnessObject, harnessObjectEntries_after a g1 hma, harnessObjectEntries, j1]
          rfl
        · have hb := findObjectEntries_away (off := off) (path := path) b g4 (.inr (by omega)) []
          rw [List.append_nil] at hb
          rw [findObjectEntries, j2, hb]
          simp [findObjectEntries]
      · obtain ⟨j0, t', es', o', sp', j1, j2⟩ := (i2 (some (.mk none (some (.object (a ++ .mk k y d :: b) o)) sp))).2 hp
        refine ⟨t', es', o', sp', ?_, fun path => ?_⟩
        · rw [harnessObject, harnessObjectEntries_after a g1 hma, harnessObjectEntries, j1]
          rfl
        · obtain ⟨ctx, c1, c2, c3⟩ := j2 (nestedPath path k y)
          refine ⟨ctx, ?_, c2, c3⟩
          rw [hobj, findObjectEntries, e1]
          have : touches off (some ysp) = true := by rw [← e1]; exact inside_touches hiny
          cases ha : y.asObject with
          | none => exact absurd ha j0
          | some nested => simp [this, c1]

/-! ## The word before the cursor -/

theorem rfindBy_none {p : Char → Bool} {w : List Char} (h : ∀ c ∈ w, p c = false) : ∀ i, rfindBy p i w = none := by
  induction w with
  | nil => intro i; rfl
  | cons c w ih =>
    intro i
    rw [rfindBy, ih (fun x hx => h x (List.mem_cons_of_mem _ hx)), h c (List.mem_cons_self ..)]
    rfl

theorem rfindBy_at {p : Char → Bool} {w : List Char} (h : ∀ c ∈ w, p c = false) {b : Char} (hb : p b = true)
    (q : List Char) : ∀ i, rfindBy p i (q ++ b :: w) = some (i + utf8Len q) := by
  induction q with
  | nil => intro i; rw [List.nil_append, rfindBy, rfindBy_none h, hb]; simp [utf8Len]
  | cons c q ih => intro i; rw [List.cons_append, rfindBy, ih]; simp only [utf8Len]; congr 1; omega

/-! ## The document of a test -/

theorem splitBar_none {s : List Char} (h : '|' ∉ s) : splitBar s = none := by
  induction s with
  | nil => rfl
  | cons c cs ih =>
    simp only [List.mem_cons, not_or] at h
    rw [splitBar, if_neg (fun e => h.1 e.symm), ih h.2]
    rfl

theorem splitBar_at {a b : List Char} (h : '|' ∉ a) : splitBar (a ++ '|' :: b) = some (a, b) := by
  induction a with
  | nil => rfl
  | cons c cs ih =>
    simp only [List.mem_cons, not_or] at h
    rw [List.cons_append, splitBar, if_neg (fun e => h.1 e.symm), ih h.2]
    rfl

end Styx.Lsp
