import Verif.Gen.TypeLoose

/-!
# The definitions of a generated schema file
-/

namespace Styx.TypeGen

open Schema
open Spec

variable {F : Type} {sf : SchemaFile F} {prog : Program} {root : Nat}

theorem lookup_put {K V : Type} [DecidableEq K] (k : K) (v : V) : ∀ (l : List (K × V)) (k' : K),
    lookup k' (put k v l) = if k' = k then some v else lookup k' l
  | [], k' => by
    by_cases h : k' = k
    · simp [put, lookup, h]
    · simp [put, lookup, h, Ne.symm h]
  | (a, b) :: rest, k' => by
    have ih := lookup_put k v rest k'
    rw [put]
    by_cases h : k' = k
    · subst h
      simp only [if_true] at ih ⊢
      split
      · simp [lookup]
      · next hne => rw [lookup, if_neg hne, ih]
    · rw [if_neg h] at ih ⊢
      split
      · next he => subst he; rw [lookup, lookup, if_neg (Ne.symm h), if_neg (Ne.symm h)]
      · rw [lookup, lookup, ih]

theorem mem_put {K V : Type} [DecidableEq K] {k : K} {v : V} : ∀ {l : List (K × V)} {x},
    x ∈ put k v l → x = (k, v) ∨ x ∈ l
  | [], x, h => by simpa [put] using h
  | (a, b) :: rest, x, h => by
    rw [put] at h
    split at h
    · rcases List.mem_cons.mp h with h | h
      · exact Or.inl h
      · exact Or.inr (List.mem_cons_of_mem _ h)
    · rcases List.mem_cons.mp h with h | h
      · exact Or.inr (by simp [h])
      · rcases mem_put h with h | h
        · exact Or.inl h
        · exact Or.inr (List.mem_cons_of_mem _ h)

theorem keys_put {K V : Type} [DecidableEq K] {k : K} {v : V} {l : List (K × V)}
    (h : DistinctKeys l) (hn : lookup k l = none) : DistinctKeys (put k v l) := by
  have hno : k ∉ l.map (·.1) := by
    intro hm
    obtain ⟨⟨a, b⟩, hx, rfl⟩ := List.mem_map.mp hm
    exact lookup_none hn b hx
  rw [put_append hno]
  unfold DistinctKeys at *
  rw [List.map_append, List.nodup_append]
  refine ⟨h, by simp, ?_⟩
  intro a ha b hb
  simp only [List.map_cons, List.map_nil, List.mem_singleton] at hb
  subst hb
  rintro rfl
  exact hno ha

/-- The name of a type of the program. -/
def nameOf (prog : Program) (i : Nat) : Option (List Char) := prog[i]?.map (·.name)

/-- Every type in `shapeTypes` is a type of the program that the shape contains. -/
theorem shapeTypes_contains {s : Shape} {j} (h : j ∈ shapeTypes prog s) :
    Contains (.user j) s ∧ ∃ d, prog[j]? = some d ∧ d.isSchema = false := by
  induction s with
  | option t ih => exact ⟨.option (ih h).1, (ih h).2⟩
  | list t ih => exact ⟨.list (ih h).1, (ih h).2⟩
  | map k v ih1 ih2 =>
    rcases List.mem_append.mp h with h | h
    · exact ⟨.key (ih1 h).1, (ih1 h).2⟩
    · exact ⟨.value (ih2 h).1, (ih2 h).2⟩
  | result k v ih1 ih2 =>
    rcases List.mem_append.mp h with h | h
    · exact ⟨.ok (ih1 h).1, (ih1 h).2⟩
    · exact ⟨.err (ih2 h).1, (ih2 h).2⟩
  | pointer t ih => exact ⟨.pointer (ih h).1, (ih h).2⟩
  | documented t ih => exact ⟨.documented (ih h).1, (ih h).2⟩
  | user i =>
    simp only [shapeTypes] at h
    split at h
    · next d hd =>
      split at h
      · cases h
      · next hs =>
        obtain rfl := List.mem_singleton.mp h
        exact ⟨.here, d, hd, by simpa using hs⟩
    · cases h
  | _ => cases h

theorem dataTypes_field {kind fs j} (h : j ∈ dataTypes prog kind fs) :
    kind ≠ .unit ∧ ∃ f ∈ fs, j ∈ shapeTypes prog f.shape := by
  cases kind with
  | unit => cases h
  | _ => exact ⟨by simp, List.mem_flatMap.mp h⟩

theorem bodyTypes_mentions {d : TypeDef} {j} (h : j ∈ bodyTypes prog d.body) :
    Mentions d (.user j) ∧ ∃ d', prog[j]? = some d' ∧ d'.isSchema = false := by
  cases hb : d.body with
  | struct kind fs =>
    rw [hb] at h
    obtain ⟨hk, f, hf, hj⟩ := dataTypes_field h
    obtain ⟨h1, h2⟩ := shapeTypes_contains hj
    exact ⟨⟨kind, fs, f, by rw [hb]; exact .struct .., hk, hf, h1⟩, h2⟩
  | enum vs =>
    rw [hb, bodyTypes] at h
    split at h
    · cases h
    · obtain ⟨w, hw, hj⟩ := List.mem_flatMap.mp h
      obtain ⟨hk, f, hf, hj⟩ := dataTypes_field hj
      obtain ⟨h1, h2⟩ := shapeTypes_contains hj
      exact ⟨⟨w.kind, w.fields, f, by rw [hb]; exact .variant hw, hk, hf, h1⟩, h2⟩

/-- The queue and the table fit together: a queued name is pending or defined. -/
structure QueueOk (prog : Program) (root : Nat) (q : Queue) (sf : SchemaFile F) : Prop where
  nodup : q.names.Nodup
  names : ∀ n ∈ q.names, ∃ d ∈ prog, d.name = n
  pending : ∀ i ∈ q.pending, ∃ d, prog[i]? = some d ∧ d.isSchema = false ∧ Reachable prog root i ∧
    d.name ∈ q.names ∧ lookup (some d.name) sf = none
  once : (q.pending.map (nameOf prog)).Nodup
  done : ∀ n ∈ q.names, (∃ i ∈ q.pending, nameOf prog i = some n) ∨ ∃ s, lookup (some n) sf = some s
  defined : ∀ n s, lookup (some n) sf = some s → n ∈ q.names

/-- Every definition is that of a type of the program, and the types it uses are queued. -/
def DefsOk (prog : Program) (root : Nat) (names : List (List Char)) (sf : SchemaFile F) : Prop :=
  ∀ k s, lookup k sf = some s → ∃ i d, prog[i]? = some d ∧ Reachable prog root i ∧
    (k = none ∧ i = root ∨ k = some d.name ∧ d.isSchema = false) ∧ s = bodySchema prog d.body ∧
    ∀ j ∈ bodyTypes prog d.body, ∃ n ∈ names, nameOf prog j = some n

theorem add_ok {q : Queue} (h : QueueOk prog root q sf) {j d} (hd : prog[j]? = some d)
    (hs : d.isSchema = false) (hr : Reachable prog root j) :
    QueueOk prog root (q.add prog j) sf ∧ d.name ∈ (q.add prog j).names ∧
      (∀ n ∈ q.names, n ∈ (q.add prog j).names) ∧
      (q.add prog j).names.length + q.pending.length = q.names.length + (q.add prog j).pending.length := by
  simp only [Queue.add, hd, hs, Bool.false_eq_true, if_false]
  split
  · next hc => exact ⟨h, List.contains_iff_mem.mp hc, fun n hn => hn, rfl⟩
  · next hc =>
    have hc : d.name ∉ q.names := fun hm => hc (List.contains_iff_mem.mpr hm)
    refine ⟨⟨?_, ?_, ?_, ?_, ?_, ?_⟩, by simp, fun n hn => by simp [hn], by simp; omega⟩
    · exact List.nodup_cons.mpr ⟨hc, h.nodup⟩
    · intro n hn
      rcases List.mem_cons.mp hn with rfl | hn
      · exact ⟨d, List.mem_of_getElem? hd, rfl⟩
      · exact h.names n hn
    · intro i hi
      rcases List.mem_cons.mp hi with rfl | hi
      · refine ⟨d, hd, hs, hr, by simp, ?_⟩
        cases hl : lookup (some d.name) sf with
        | none => rfl
        | some s => exact absurd (h.defined _ _ hl) hc
      · obtain ⟨d', h1, h2, h3, h4, h5⟩ := h.pending i hi
        exact ⟨d', h1, h2, h3, by simp [h4], h5⟩
    · rw [List.map_cons, List.nodup_cons]
      refine ⟨?_, h.once⟩
      intro hm
      obtain ⟨i, hi, he⟩ := List.mem_map.mp hm
      obtain ⟨d', h1, _, _, h4, _⟩ := h.pending i hi
      simp only [nameOf, h1, hd, Option.map_some, Option.some.injEq] at he
      exact hc (he ▸ h4)
    · intro n hn
      rcases List.mem_cons.mp hn with rfl | hn
      · exact Or.inl ⟨j, by simp, by simp [nameOf, hd]⟩
      · rcases h.done n hn with ⟨i, hi, he⟩ | h
        · exact Or.inl ⟨i, by simp [hi], he⟩
        · exact Or.inr h
    · intro n s hl
      exact List.mem_cons_of_mem _ (h.defined n s hl)

theorem addAll_ok : ∀ (js : List Nat) {q : Queue}, QueueOk prog root q sf →
    (∀ j ∈ js, ∃ d, prog[j]? = some d ∧ d.isSchema = false ∧ Reachable prog root j) →
    QueueOk prog root (js.foldl (Queue.add prog) q) sf ∧
      (∀ j ∈ js, ∃ n ∈ (js.foldl (Queue.add prog) q).names, nameOf prog j = some n) ∧
      (∀ n ∈ q.names, n ∈ (js.foldl (Queue.add prog) q).names) ∧
      (js.foldl (Queue.add prog) q).names.length + q.pending.length =
        q.names.length + (js.foldl (Queue.add prog) q).pending.length
  | [], q, h, _ => ⟨h, by simp, fun n hn => hn, rfl⟩
  | j :: js, q, h, hj => by
    obtain ⟨d, h1, h2, h3⟩ := hj j (by simp)
    obtain ⟨a1, a2, a3, a4⟩ := add_ok h h1 h2 h3
    obtain ⟨b1, b2, b3, b4⟩ := addAll_ok js a1 (fun i hi => hj i (by simp [hi]))
    rw [List.foldl_cons]
    refine ⟨b1, ?_, fun n hn => b3 n (a3 n hn), by omega⟩
    intro i hi
    rcases List.mem_cons.mp hi with rfl | hi
    · exact ⟨d.name, b3 _ a2, by simp [nameOf, h1]⟩
    · exact b2 i hi

theorem bodyTypes_reachable {i d} (hi : prog[i]? = some d) (hr : Reachable prog root i) :
    ∀ j ∈ bodyTypes prog d.body, ∃ d', prog[j]? = some d' ∧ d'.isSchema = false ∧
      Reachable prog root j := by
  intro j hj
  obtain ⟨h1, d', h2, h3⟩ := bodyTypes_mentions hj
  exact ⟨d', h2, h3, .field hr hi h1⟩

theorem define_ok : ∀ (n : Nat) (q : Queue) (sf : SchemaFile F), QueueOk prog root q sf →
    DefsOk prog root q.names sf → DistinctKeys sf →
    prog.length + 1 + q.pending.length ≤ n + q.names.length →
    ∃ names, DefsOk prog root names (definePending prog n q sf) ∧
      DistinctKeys (definePending prog n q sf) ∧
      (∀ k s, lookup k sf = some s → lookup k (definePending prog n q sf) = some s) ∧
      (∀ m ∈ q.names, m ∈ names) ∧
      ∀ m ∈ names, ∃ s, lookup (some m) (definePending prog n q sf) = some s
  | 0, q, sf, hq, _, _, hn => by
    have := hq.nodup.length_le_of_subset (l₂ := prog.map (·.name)) (by
      intro m hm
      obtain ⟨d, hd, rfl⟩ := hq.names m hm
      exact List.mem_map.mpr ⟨d, hd, rfl⟩)
    rw [List.length_map] at this
    omega
  | n + 1, q, sf, hq, hd, hk, hn => by
    rw [definePending]
    split
    · next hp =>
      refine ⟨q.names, hd, hk, fun _ _ h => h, fun _ h => h, ?_⟩
      intro m hm
      rcases hq.done m hm with ⟨i, hi, _⟩ | h
      · rw [hp] at hi; cases hi
      · exact h
    · next i rest hp =>
      obtain ⟨d, h1, h2, h3, h4, h5⟩ := hq.pending i (by simp [hp])
      simp only [h1, h2, h5, Bool.false_eq_true, if_false, Option.isSome_none]
      have hlk : ∀ k, k ≠ some d.name →
          lookup k (put (some d.name) (bodySchema prog d.body) sf) = lookup k sf := by
        intro k hk
        rw [lookup_put, if_neg hk]
      have hself : lookup (some d.name) (put (some d.name) (bodySchema prog d.body) sf) =
          some (bodySchema prog d.body) := by
        rw [lookup_put, if_pos rfl]
      have hq' : QueueOk prog root { q with pending := rest }
          (put (some d.name) (bodySchema prog d.body) sf) := by
        have honce := hq.once
        rw [hp, List.map_cons, List.nodup_cons] at honce
        refine ⟨hq.nodup, hq.names, ?_, honce.2, ?_, ?_⟩
        · intro j hj
          obtain ⟨d', g1, g2, g3, g4, g5⟩ := hq.pending j (by rw [hp]; exact List.mem_cons_of_mem _ hj)
          refine ⟨d', g1, g2, g3, g4, ?_⟩
          rw [hlk, g5]
          intro he
          refine honce.1 (List.mem_map.mpr ⟨j, hj, ?_⟩)
          simp only [nameOf, g1, h1, Option.map_some]
          exact he
        · intro m hm
          by_cases he : m = d.name
          · subst he; exact Or.inr ⟨_, hself⟩
          · rcases hq.done m hm with ⟨j, hj, hje⟩ | ⟨s, hs⟩
            · rw [hp] at hj
              rcases List.mem_cons.mp hj with rfl | hj
              · simp only [nameOf, h1, Option.map_some, Option.some.injEq] at hje
                exact absurd hje.symm he
              · exact Or.inl ⟨j, hj, hje⟩
            · exact Or.inr ⟨s, by rw [hlk _ (by simp [he])]; exact hs⟩
        · intro m s hs
          by_cases he : m = d.name
          · subst he; exact h4
          · rw [hlk _ (by simp [he])] at hs
            exact hq.defined m s hs
      obtain ⟨a1, a2, a3, a4⟩ := addAll_ok (bodyTypes prog d.body) hq' (bodyTypes_reachable h1 h3)
      have hd' : DefsOk prog root ((bodyTypes prog d.body).foldl (Queue.add prog)
          { q with pending := rest }).names (put (some d.name) (bodySchema prog d.body) sf) := by
        intro k s hs
        by_cases he : k = some d.name
        · subst he
          rw [hself] at hs
          exact ⟨i, d, h1, h3, Or.inr ⟨rfl, h2⟩, (Option.some.inj hs).symm, a2⟩
        · rw [hlk _ he] at hs
          obtain ⟨i', d', g1, g2, g3, g4, g5⟩ := hd k s hs
          refine ⟨i', d', g1, g2, g3, g4, ?_⟩
          intro j hj
          obtain ⟨m, hm, hme⟩ := g5 j hj
          exact ⟨m, a3 m hm, hme⟩
      have hfuel : prog.length + 1 + ((bodyTypes prog d.body).foldl (Queue.add prog)
          { q with pending := rest }).pending.length ≤ n + ((bodyTypes prog d.body).foldl
          (Queue.add prog) { q with pending := rest }).names.length := by
        rw [hp, List.length_cons] at hn
        simp only at a4
        omega
      obtain ⟨names, b1, b2, b3, b4, b5⟩ := define_ok n _ _ a1 hd' (keys_put hk h5) hfuel
      refine ⟨names, b1, b2, ?_, fun m hm => b4 m (a3 m hm), b5⟩
      intro k s hs
      refine b3 k s ?_
      rw [hlk, hs]
      rintro rfl
      rw [h5] at hs
      cases hs

/-- The generated file: its root is the type, and the types that are used are defined. -/
theorem generate_ok (F : Type) {d : TypeDef} (hd : prog[root]? = some d) :
    lookup none (generate (F := F) prog root) = some (bodySchema prog d.body) ∧
      DistinctKeys (generate (F := F) prog root) ∧
      ∃ names, DefsOk prog root names (generate (F := F) prog root) ∧
        ∀ m ∈ names, ∃ s, lookup (some m) (generate (F := F) prog root) = some s := by
  have h0 : QueueOk prog root {} [((none : Option (List Char)), bodySchema (F := F) prog d.body)] :=
    ⟨by simp, by simp, by simp, by simp, by simp, by
      intro n s h
      simp [lookup] at h⟩
  obtain ⟨a1, a2, a3, a4⟩ := addAll_ok (bodyTypes prog d.body) h0 (bodyTypes_reachable hd .root)
  obtain ⟨names, b1, b2, b3, b4, b5⟩ := define_ok (prog.length + 1) _ _ a1 (by
    intro k s h
    rw [lookup] at h
    split at h
    · next he =>
      subst he
      exact ⟨root, d, hd, .root, Or.inl ⟨rfl, rfl⟩, (Option.some.inj h).symm, a2⟩
    · cases h) (by simp [DistinctKeys]) (by
      simp only [List.length_nil] at a4
      omega)
  simp only [generate, hd]
  exact ⟨b3 none _ (by simp [lookup]), b2, names, b1, b5⟩

theorem getElem_unique (hn : DistinctTypes prog) {i j : Nat} {c d : TypeDef}
    (hi : prog[i]? = some c) (hj : prog[j]? = some d) (he : c.name = d.name) : c = d := by
  have h := distinct_unique (l := prog.map fun t => (t.name, t))
    (by simpa [DistinctKeys, DistinctTypes, Function.comp_def] using hn) (k := c.name)
    (List.mem_map.mpr ⟨c, List.mem_of_getElem? hi, rfl⟩)
    (List.mem_map.mpr ⟨d, List.mem_of_getElem? hj, by rw [he]⟩)
  exact h

theorem generate_faithful (hn : DistinctTypes prog) {d : TypeDef} (hd : prog[root]? = some d) :
    Faithful (generate (F := F) prog root) prog ∧ Closed (generate (F := F) prog root) prog ∧
      ∀ j ∈ bodyTypes prog d.body, Known (generate (F := F) prog root) prog j := by
  obtain ⟨h1, _, names, h2, h3⟩ := generate_ok F hd
  have fa : Faithful (generate (F := F) prog root) prog := by
    intro i c s hi hl
    obtain ⟨i', d', g1, _, g3, g4, _⟩ := h2 _ _ hl
    rcases g3 with ⟨h, _⟩ | ⟨h, _⟩
    · cases h
    · rw [g4, getElem_unique hn hi g1 (Option.some.inj h)]
  have kn : ∀ k s, lookup k (generate (F := F) prog root) = some s → ∀ i c, prog[i]? = some c →
      s = bodySchema prog c.body → (k = none ∧ i = root ∨ k = some c.name) →
      ∀ j ∈ bodyTypes prog c.body, Known (generate (F := F) prog root) prog j := by
    intro k s hl i c hc _ hk j hj
    obtain ⟨i', d', g1, _, g3, _, g5⟩ := h2 k s hl
    have hcd : c = d' := by
      rcases hk with ⟨rfl, rfl⟩ | rfl
      · rcases g3 with ⟨_, rfl⟩ | ⟨h, _⟩
        · rw [hc] at g1; exact Option.some.inj g1
        · cases h
      · rcases g3 with ⟨h, _⟩ | ⟨h, _⟩
        · cases h
        · exact getElem_unique hn hc g1 (Option.some.inj h)
    subst hcd
    obtain ⟨m, hm, hme⟩ := g5 j hj
    obtain ⟨_, d'', q1, q2⟩ := bodyTypes_mentions hj
    obtain ⟨s', hs'⟩ := h3 m hm
    simp only [nameOf, q1, Option.map_some, Option.some.injEq] at hme
    subst hme
    exact ⟨d'', q1, q2, by rw [hs', fa j d'' s' q1 hs']⟩
  refine ⟨fa, ?_, kn none _ h1 root d hd rfl (Or.inl ⟨rfl, rfl⟩)⟩
  intro i c hc hk
  obtain ⟨c', hc', _, hl⟩ := hk
  obtain rfl := Option.some.inj (hc.symm.trans hc')
  exact kn _ _ hl i c hc rfl (Or.inr rfl)

end Styx.TypeGen
