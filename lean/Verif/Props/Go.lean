import Verif.Gen.GoDecl
import Verif.Gen.GoRun

/-!
# C86: the Go code generated from a schema
-/

namespace Styx.Props
open Styx Styx.Spec Styx.Go

variable {F : Type} {upper : Char → List Char}

/-- The named fields of an object. -/
def namedFields (fs : List (Schema.ObjectKey × Schema.Schema F)) : List (List Char × Schema.Schema F) :=
  fs.filterMap fun e => e.1.value.map (·, e.2)

/-- A name the file of types declares. -/
def GoDeclares (upper : Char → List Char) (sf : Schema.SchemaFile F) (n : List Char) : Prop :=
  (chars! "type " ++ n ++ chars! " ") <:+: typesFile upper (generate upper sf)

/-- C86, the structs: if no two of their Go names are the same, the code has for each object of the
schema file a struct, with one field for each of the object's named fields, with its name in the tags and
optional if the schema says so; the file of types has the text of the struct. -/
theorem C86_structs_partial (sf : Schema.SchemaFile F) (hc : NoClash upper sf) (m : List Char)
    (fs : List (Schema.ObjectKey × Schema.Schema F)) (ho : ObjectNamed upper sf m fs) :
    ∃ gs, Schema.lookup m (generate upper sf) = some (.struct gs) ∧
      (chars! "type " ++ m ++ chars! " struct {\n" ++ (gs.map fun g => goFieldText g.goName g.typeName g.name g.optional).flatten ++ chars! "}\n") <:+:
        typesFile upper (generate upper sf) ∧
      gs.map (·.name) = (namedFields fs).map (·.1) ∧
      ∀ p ∈ (namedFields fs).zip gs, FieldFor upper m p.1.1 p.1.2 p.2 := by
  have h := generate_struct hc ho
  have hline : (fun g : Field F => goFieldText g.goName g.typeName g.name g.optional) = fieldLine := by
    funext g
    cases hg : g.optional <;> simp [goFieldText, fieldLine, hg]
  refine ⟨fieldsFor upper m fs, h, by rw [hline]; exact definition_in_file (lookup_mem h), ?_, ?_⟩
  · rw [fieldsFor, List.map_map]
    refine List.map_congr_left fun e _ => ?_
    obtain ⟨o, c, hcore, h1, h2⟩ := core_exists e.2
    simp only [Function.comp_apply]
    rw [fieldFor_core hcore]
    cases c <;> first | rfl | (exfalso; simp_all)
  · intro p hp
    rw [fieldsFor, show named fs = namedFields fs from rfl, List.zip_map_right] at hp
    obtain ⟨q, hq, rfl⟩ := List.mem_map.1 hp
    have : q.1 = q.2 := by
      have := List.of_mem_zip hq
      obtain ⟨i, hi, he⟩ := List.getElem_of_mem hq
      rw [← he]; simp
    obtain ⟨a, b⟩ := q
    simp only at this
    subst this
    obtain ⟨o, c, hcore, h1, h2⟩ := core_exists a.2
    simp only [Prod.map_apply, id_eq]
    rw [fieldFor_core hcore, Bool.false_or]
    have hbase : ∀ {f : Field F}, f = fieldFor upper m a.1 o c →
        f.goName = pascal upper a.1 ∧ f.name = a.1 ∧ f.optional = o := by
      rintro f rfl
      cases c <;> first | exact ⟨rfl, rfl, rfl⟩ | (exfalso; simp_all)
    obtain ⟨b1, b2, b3⟩ := hbase rfl
    refine ⟨b1, b2, ?_, ?_⟩
    · rw [b3]
      constructor
      · rintro rfl; exact ⟨c, hcore⟩
      · rintro ⟨c', h'⟩; exact (core_unique hcore h').1
    · intro fs' o' h'
      obtain ⟨rfl, rfl⟩ := core_unique hcore h'
      show optionalType o _ = _ ∨ _
      rw [fieldFor, fieldOf]
      simp only [optionalType]
      split
      · next hx =>
        simp only [Bool.and_eq_true] at hx
        exact Or.inr ⟨hx.1, rfl⟩
      · exact Or.inl rfl

/-- C86, the names: two fields with different names in snake case have different Go names. -/
theorem C86_names_partial (hu : ∀ c, 'a' ≤ c → c ≤ 'z' → upper c = [c.toUpper]) (a b : List Char)
    (ha : SnakeCase a) (hb : SnakeCase b) (h : pascal upper a = pascal upper b) : a = b := by
  obtain ⟨ws, hne, hw, rfl⟩ := ha
  obtain ⟨ws', hne', hw', rfl⟩ := hb
  rw [pascal_snake hne hw, pascal_snake hne' hw'] at h
  rw [capitals_inj hu hw hw' h]

/-- C86, the types of fields: the Go type of a field that is no object is the one for its schema, if
the schema has no `@map` with one argument and the names in it are in Pascal case. -/
theorem C86_types_partial (sf : Schema.SchemaFile F) (hc : NoClash upper sf) (m : List Char)
    (fs : List (Schema.ObjectKey × Schema.Schema F)) (ho : ObjectNamed upper sf m fs) :
    ∃ gs, Schema.lookup m (generate upper sf) = some (.struct gs) ∧
      ∀ p ∈ (namedFields fs).zip gs, ∀ t, GoTypeOf p.1.2 t → (∀ v, ¬ Inside (.map [v]) p.1.2) →
        (∀ n, Inside (.type (some n)) p.1.2 → PascalCase upper n) →
        (∀ o fs', ¬ FieldCore p.1.2 o (.object fs')) → p.2.typeName = t := by
  refine ⟨_, generate_struct hc ho, ?_⟩
  intro p hp t ht hm hn hobj
  rw [fieldsFor, show named fs = namedFields fs from rfl, List.zip_map_right] at hp
  obtain ⟨q, hq, rfl⟩ := List.mem_map.1 hp
  have : q.1 = q.2 := by
    obtain ⟨i, hi, he⟩ := List.getElem_of_mem hq
    rw [← he]; simp
  obtain ⟨a, b⟩ := q
  simp only at this
  subst this
  have := fieldFor_type (upper := upper) (parent := m) (name := a.1) ht hm hn hobj false
  simpa [optionalType] using this

/-- C86, no missing declarations: if the types of the file are objects and enums, and each type that
is used is in the file and its name in Pascal case, then the types of the fields of all structs are
built from the types of Go and types that are declared. -/
theorem C86_declared_partial (sf : Schema.SchemaFile F)
    (hd : ∀ k s, (k, s) ∈ sf → (∃ fs, DefinesObject s fs) ∨ ∃ vs, DefinesEnum s vs)
    (hr : ∀ k s n, (k, s) ∈ sf → Inside (.type (some n)) s →
      (∃ s', (some n, s') ∈ sf) ∧ PascalCase upper n)
    (m : List Char) (gs : List (Field F)) (hm : (m, .struct gs) ∈ generate upper sf)
    (g : Field F) (hg : g ∈ gs) : GoTypeText (GoDeclares upper sf) g.typeName := by
  obtain ⟨hfine, hkeys⟩ := generate_written hd hr
  refine GoTypeText.mono (fun n hn => ?_) (hfine hm g hg)
  have hk : n ∈ keys (generate upper sf) := by
    rcases hn with hn | ⟨s, hs⟩
    · exact hn
    · exact hkeys _ _ hs
  obtain ⟨t, ht⟩ := mem_keys.1 hk
  obtain ⟨x, hx⟩ := definition_starts (upper := upper) (m := n) (hfine ht)
  obtain ⟨a, b, hab⟩ := definition_in_file (upper := upper) ht
  exact ⟨a, x ++ b, by rw [← hab, ← hx]; simp⟩

/-- C86, the `Validate` methods: for a struct whose fields have values of their types, `Validate` runs
and reports the bounds that are violated, each under the name of its field, and never that an
optional field is missing. The bounds of `@int` have to fit in 64 bits, and no field may be marked
with `@deprecated` or `@flatten`. -/
theorem C86_validate_partial (ltF : F → F → Bool) (sf : Schema.SchemaFile F) (hc : NoClash upper sf)
    (m : List Char) (fs : List (Schema.ObjectKey × Schema.Schema F)) (ho : ObjectNamed upper sf m fs)
    (hs : ∀ e ∈ namedFields fs, Unmarked e.2 ∧ Bounds64 e.2) :
    ∃ gs, Schema.lookup m (generate upper sf) = some (.struct gs) ∧
      ∀ v : List Char → GoValue F, (∀ g ∈ gs, OfGoType g.typeName (v g.goName)) →
      ∃ errs, runStmts ltF v (validateMethod gs) = some errs ∧
        (∀ name msg, msg ≠ .missing → ((name, msg) ∈ errs ↔
          ∃ s, (name, s) ∈ namedFields fs ∧ OutOfBounds ltF s (v (pascal upper name)) msg)) ∧
        ∀ name, (name, .missing) ∈ errs →
          ∃ s, (name, s) ∈ namedFields fs ∧ ∀ c, ¬ FieldCore s true c := by
  refine ⟨_, generate_struct hc ho, ?_⟩
  intro v hv
  rw [fieldsFor, show named fs = namedFields fs from rfl] at hv ⊢
  generalize namedFields fs = l at hs hv
  induction l with
  | nil => exact ⟨[], rfl, by simp, by simp⟩
  | cons e l ih =>
    obtain ⟨name, s⟩ := e
    obtain ⟨es', hr', h1', h2'⟩ := ih (fun e he => hs e (List.mem_cons_of_mem _ he))
      (fun g hg => hv g (List.mem_cons_of_mem _ hg))
    have hgo : (fieldFor upper m name false s).goName = pascal upper name := by
      obtain ⟨o, c, hcore, k1, k2⟩ := core_exists s
      rw [fieldFor_core hcore]
      cases c <;> first | rfl | (exfalso; simp_all)
    have ht := hv (fieldFor upper m name false s) (List.mem_cons_self ..)
    rw [hgo] at ht
    obtain ⟨es, hr, h1, h2, h3⟩ := run_field (ltF := ltF) (hs _ (List.mem_cons_self ..)).1
      (hs _ (List.mem_cons_self ..)).2 ht
    refine ⟨es ++ es', ?_, ?_, ?_⟩
    · simp only [validateMethod, List.map_cons, List.flatten_cons]
      exact run_append hr hr'
    · intro n msg hmsg
      rw [List.mem_append]
      constructor
      · rintro (h | h)
        · have hn : n = name := h1 _ h
          subst hn
          exact ⟨s, List.mem_cons_self .., (h2 msg hmsg).1 h⟩
        · obtain ⟨s', hs', ho'⟩ := (h1' n msg hmsg).1 h
          exact ⟨s', List.mem_cons_of_mem _ hs', ho'⟩
      · rintro ⟨s', hs', ho'⟩
        rcases List.mem_cons.1 hs' with he | he
        · cases he
          exact Or.inl ((h2 msg hmsg).2 ho')
        · exact Or.inr ((h1' n msg hmsg).2 ⟨s', he, ho'⟩)
    · intro n h
      rcases List.mem_append.1 h with h | h
      · have hn : n = name := h1 _ h
        subst hn
        exact ⟨s, List.mem_cons_self .., h3 h⟩
      · obtain ⟨s', hs', ho'⟩ := h2' n h
        exact ⟨s', List.mem_cons_of_mem _ hs', ho'⟩

/-! ## A schema file that meets the hypotheses -/

def asciiUpper (c : Char) : List Char := [c.toUpper]

def goField (n : List Char) (s : Schema.Schema Nat) : Schema.ObjectKey × Schema.Schema Nat :=
  (.named n, s)

def goServer : List (Schema.ObjectKey × Schema.Schema Nat) :=
  [goField (chars! "port") (.default (chars! "80") (.int (some ⟨some 1, some 65535⟩))),
   goField (chars! "host_name") (.optional (.string (some ⟨none, some 3, none⟩)))]

def goRoot : List (Schema.ObjectKey × Schema.Schema Nat) :=
  [goField (chars! "server") (.object goServer), goField (chars! "owner") (.optional (.type (some (chars! "Owner")))),
   goField (chars! "modes") (.map [.string none, .type (some (chars! "Mode"))]),
   (.unit, .any)]

def goOwner : List (Schema.ObjectKey × Schema.Schema Nat) :=
  [goField (chars! "names") (.seq (.string none))]

def goSample : Schema.SchemaFile Nat :=
  [(some (chars! "Owner"), .object goOwner), (none, .object goRoot),
   (some (chars! "Mode"), .enum [(chars! "fast", .unit), (chars! "slow", .unit)])]

theorem goSample_objects {m : List Char} {fs : List (Schema.ObjectKey × Schema.Schema Nat)}
    (h : ObjectNamed asciiUpper goSample m fs) :
    (m = chars! "Owner" ∧ fs = goOwner) ∨ (m = chars! "Root" ∧ fs = goRoot) ∨
      (m = chars! "RootServer" ∧ fs = goServer) := by
  induction h with
  | named he hd =>
    simp only [goSample, List.mem_cons, Prod.mk.injEq, List.not_mem_nil, or_false] at he
    rcases he with ⟨hk, rfl⟩ | ⟨hk, rfl⟩ | ⟨hk, rfl⟩
    · cases hk; cases hd; exact Or.inl ⟨rfl, rfl⟩
    · cases hk
    · cases hd
  | root he hd =>
    simp only [goSample, List.mem_cons, Prod.mk.injEq, List.not_mem_nil, or_false] at he
    rcases he with ⟨hk, rfl⟩ | ⟨hk, rfl⟩ | ⟨hk, rfl⟩
    · cases hk
    · cases hd; exact Or.inr (Or.inl ⟨rfl, rfl⟩)
    · cases hk
  | nested _ he hv hcore ih =>
    rcases ih with ⟨rfl, rfl⟩ | ⟨rfl, rfl⟩ | ⟨rfl, rfl⟩
    · simp only [goOwner, goField, List.mem_cons, Prod.mk.injEq, List.not_mem_nil, or_false] at he
      obtain ⟨rfl, rfl⟩ := he
      cases hcore
    · simp only [goRoot, goField, List.mem_cons, Prod.mk.injEq, List.not_mem_nil, or_false] at he
      rcases he with ⟨rfl, rfl⟩ | ⟨rfl, rfl⟩ | ⟨rfl, rfl⟩ | ⟨rfl, rfl⟩
      · cases hcore
        cases hv
        exact Or.inr (Or.inr ⟨by decide +kernel, rfl⟩)
      · cases hcore with
        | optional h => cases h
      · cases hcore
      · cases hcore
    · simp only [goServer, goField, List.mem_cons, Prod.mk.injEq, List.not_mem_nil, or_false] at he
      rcases he with ⟨rfl, rfl⟩ | ⟨rfl, rfl⟩
      · cases hcore with
        | default h => cases h
      · cases hcore with
        | optional h => cases h

theorem goSample_noClash : NoClash asciiUpper goSample where
  objects := by
    intro m fs fs' h h'
    rcases goSample_objects h with ⟨h1, rfl⟩ | ⟨h1, rfl⟩ | ⟨h1, rfl⟩ <;>
    rcases goSample_objects h' with ⟨h2, rfl⟩ | ⟨h2, rfl⟩ | ⟨h2, rfl⟩ <;>
    first | rfl | (rw [h1] at h2; exact absurd h2 (by decide))
  named := by
    intro m fs s h he
    simp only [goSample, List.mem_cons, Prod.mk.injEq, List.not_mem_nil, or_false, Option.some.injEq] at he
    rcases he with ⟨_, rfl⟩ | ⟨hk, _⟩ | ⟨rfl, rfl⟩
    · exact ⟨_, .object _⟩
    · cases hk
    · rcases goSample_objects h with ⟨h1, _⟩ | ⟨h1, _⟩ | ⟨h1, _⟩ <;> exact absurd h1 (by decide)
  root := by
    intro fs s _ he
    simp only [goSample, List.mem_cons, Prod.mk.injEq, List.not_mem_nil, or_false] at he
    rcases he with ⟨hk, _⟩ | ⟨_, rfl⟩ | ⟨hk, _⟩
    · cases hk
    · exact ⟨_, .object _⟩
    · cases hk

theorem goSample_server : ObjectNamed asciiUpper goSample (chars! "RootServer") goServer := by
  have h : ObjectNamed asciiUpper goSample (chars! "Root" ++ pascal asciiUpper (chars! "server")) goServer :=
    .nested (.root (s := .object goRoot) (by simp [goSample]) (.object _))
      (by unfold goRoot; exact List.mem_cons_self ..) rfl (.base (by simp) (by simp))
  exact (show chars! "Root" ++ pascal asciiUpper (chars! "server") = chars! "RootServer" by
    decide +kernel) ▸ h

example : ∃ gs, Schema.lookup (chars! "RootServer") (generate asciiUpper goSample) = some (.struct gs) ∧
    (chars! "type RootServer struct {\n" ++ (gs.map fun g => goFieldText g.goName g.typeName g.name g.optional).flatten ++ chars! "}\n") <:+:
      typesFile asciiUpper (generate asciiUpper goSample) ∧
    gs.map (·.name) = [chars! "port", chars! "host_name"] := by
  obtain ⟨gs, h1, h2, h3, _⟩ := C86_structs_partial goSample goSample_noClash _ _ goSample_server
  exact ⟨gs, h1, h2, h3⟩

example : typesFile asciiUpper (generate asciiUpper goSample) =
    (chars! "type Owner struct {\n\tNames []string `json:\"names\" styx:\"names\"`\n}\n\ntype RootServer struct {\n\tPort int64 `json:\"port\" styx:\"port\"`\n\tHostName *string `json:\"host_name,omitempty\" styx:\"host_name,optional\"`\n}\n\ntype Root struct {\n\tServer RootServer `json:\"server\" styx:\"server\"`\n\tOwner *Owner `json:\"owner,omitempty\" styx:\"owner,optional\"`\n\tModes map[string]Mode `json:\"modes\" styx:\"modes\"`\n}\n\ntype Mode string\n\nconst (\n\tModeFast Mode = \"fast\"\n\tModeSlow Mode = \"slow\"\n)\n\n") := by
  decide +kernel

example : SnakeCase (chars! "host_name") ∧ SnakeCase (chars! "port") :=
  ⟨⟨[chars! "host", chars! "name"], by simp, by decide, by decide⟩,
   ⟨[chars! "port"], by simp, by decide, by decide⟩⟩

theorem goServer_fields : ∀ e ∈ namedFields goServer, Unmarked e.2 ∧ Bounds64 e.2 := by
  intro e he
  simp only [namedFields, goServer, goField, Schema.ObjectKey.named, List.filterMap_cons,
    Option.map_some, List.filterMap_nil, List.mem_cons, List.not_mem_nil, or_false] at he
  rcases he with rfl | rfl
  · refine ⟨fun o i r => ⟨fun h => ?_, fun h => ?_⟩, fun o c n h hn => ?_⟩
    · cases core_default.1 h
    · cases core_default.1 h
    · cases core_default.1 h
      rcases hn with hn | hn <;> cases hn <;> decide
  · refine ⟨fun o i r => ⟨fun h => ?_, fun h => ?_⟩, fun o c n h hn => ?_⟩
    · obtain ⟨_, _, h⟩ := core_optional.1 h; cases h
    · obtain ⟨_, _, h⟩ := core_optional.1 h; cases h
    · obtain ⟨_, _, h⟩ := core_optional.1 h; cases h

example : ∃ gs, Schema.lookup (chars! "RootServer") (generate asciiUpper goSample) = some (.struct gs) ∧
    ∀ v : List Char → GoValue Nat, (∀ g ∈ gs, OfGoType g.typeName (v g.goName)) →
    ∃ errs, runStmts (· < ·) v (validateMethod gs) = some errs := by
  obtain ⟨gs, h1, h2⟩ := C86_validate_partial (· < ·) goSample goSample_noClash _ _ goSample_server
    goServer_fields
  exact ⟨gs, h1, fun v hv => let ⟨errs, h, _⟩ := h2 v hv; ⟨errs, h⟩⟩

theorem inside_leaf {n : List Char} {s : Schema.Schema Nat} (h : Inside (.type (some n)) s) :
    match s with
    | .string _ | .int _ | .float _ | .bool | .unit | .any | .enum _ | .type none => False
    | .type (some n') => n = n'
    | .object fs => ∃ e ∈ fs, Inside (.type (some n)) e.2
    | .seq i | .optional i | .default _ i | .flatten i | .deprecated _ i => Inside (.type (some n)) i
    | .map is | .tuple is => ∃ i ∈ is, Inside (.type (some n)) i
    | _ => True := by
  cases h with
  | here => rfl
  | object h h' => exact ⟨_, h, h'⟩
  | seq h => exact h
  | tuple h h' => exact ⟨_, h, h'⟩
  | map h h' => exact ⟨_, h, h'⟩
  | optional h => exact h
  | default h => exact h
  | flatten h => exact h
  | deprecated h => exact h

theorem goSample_refs {k : Option (List Char)} {s : Schema.Schema Nat} {n : List Char}
    (he : (k, s) ∈ goSample) (h : Inside (.type (some n)) s) :
    n = chars! "Owner" ∨ n = chars! "Mode" := by
  simp only [goSample, List.mem_cons, Prod.mk.injEq, List.not_mem_nil, or_false] at he
  rcases he with ⟨_, rfl⟩ | ⟨_, rfl⟩ | ⟨_, rfl⟩
  · obtain ⟨e, he, h⟩ := inside_leaf h
    simp only [goOwner, goField, List.mem_cons, List.not_mem_nil, or_false] at he
    subst he
    exact (inside_leaf (inside_leaf h)).elim
  · obtain ⟨e, he, h⟩ := inside_leaf h
    simp only [goRoot, goField, List.mem_cons, List.not_mem_nil, or_false] at he
    rcases he with rfl | rfl | rfl | rfl
    · obtain ⟨e, he, h⟩ := inside_leaf h
      simp only [goServer, goField, List.mem_cons, List.not_mem_nil, or_false] at he
      rcases he with rfl | rfl
      · exact (inside_leaf (inside_leaf h)).elim
      · exact (inside_leaf (inside_leaf h)).elim
    · exact Or.inl (inside_leaf (inside_leaf h))
    · obtain ⟨i, hi, h⟩ := inside_leaf h
      simp only [List.mem_cons, List.not_mem_nil, or_false] at hi
      rcases hi with rfl | rfl
      · exact (inside_leaf h).elim
      · exact Or.inr (inside_leaf h)
    · exact (inside_leaf h).elim
  · exact (inside_leaf h).elim

example : GoTypeText (GoDeclares asciiUpper goSample) (chars! "map[string]Mode") := by
  refine C86_declared_partial goSample ?_ ?_ (chars! "Root")
    [⟨chars! "Server", chars! "server", chars! "RootServer", false, none⟩,
     ⟨chars! "Owner", chars! "owner", chars! "*Owner", true, none⟩,
     ⟨chars! "Modes", chars! "modes", chars! "map[string]Mode", false, none⟩]
    (by decide +kernel) ⟨chars! "Modes", chars! "modes", chars! "map[string]Mode", false, none⟩ (by simp)
  · intro k s he
    simp only [goSample, List.mem_cons, Prod.mk.injEq, List.not_mem_nil, or_false] at he
    rcases he with ⟨_, rfl⟩ | ⟨_, rfl⟩ | ⟨_, rfl⟩
    · exact Or.inl ⟨_, .object _⟩
    · exact Or.inl ⟨_, .object _⟩
    · exact Or.inr ⟨_, .enum _⟩
  · intro k s n he h
    rcases goSample_refs he h with rfl | rfl
    · exact ⟨⟨.object goOwner, by simp [goSample]⟩,
        'O', chars! "wner", rfl, by decide, by decide, by decide⟩
    · exact ⟨⟨_, List.mem_cons_of_mem _ (List.mem_cons_of_mem _ (List.mem_cons_self ..))⟩,
        'M', chars! "ode", rfl, by decide, by decide, by decide⟩

/-- The schema of `modes` in the sample meets the conditions of `C86_types_partial`. -/
example : GoTypeOf (.map [.string none, .type (some (chars! "Mode"))] : Schema.Schema Nat)
    (chars! "map[string]Mode") ∧
    (∀ v : Schema.Schema Nat, ¬ Inside (.map [v]) (.map [.string none, .type (some (chars! "Mode"))])) := by
  refine ⟨.map (s := chars! "string") (t := chars! "Mode") (.string _) (.type _), ?_⟩
  intro v h
  cases h with
  | map h h' =>
    simp only [List.mem_cons, List.not_mem_nil, or_false] at h
    rcases h with rfl | rfl <;> cases h'

/-! ## Where the generated code is wrong -/

/-- The types of the fields of a struct. -/
def goFieldTypes (types : Types Nat) (m : List Char) : List (List Char) :=
  match Schema.lookup m types with
  | some (.struct gs) => gs.map (·.typeName)
  | _ => []

/-- C86 is false: a named type that is no object and no enum is used and not declared. -/
theorem C86_undeclared_false :
    let sf : Schema.SchemaFile Nat := [(none, .object [goField (chars! "port") (.type (some (chars! "Port")))]),
      (some (chars! "Port"), .int (some ⟨some 1, none⟩))]
    goFieldTypes (generate asciiUpper sf) (chars! "Root") = [chars! "Port"] ∧
      ¬ GoDeclares asciiUpper sf (chars! "Port") := by
  refine ⟨by decide +kernel, ?_⟩
  unfold GoDeclares
  decide +kernel

/-- C86 is false: a type whose name is not in Pascal case is declared under its name and used under
another. -/
theorem C86_renamed_false :
    let sf : Schema.SchemaFile Nat := [(none, .object [goField (chars! "owner") (.type (some (chars! "owner_info")))]),
      (some (chars! "owner_info"), .object [])]
    goFieldTypes (generate asciiUpper sf) (chars! "Root") = [chars! "OwnerInfo"] ∧
      GoDeclares asciiUpper sf (chars! "owner_info") ∧ ¬ GoDeclares asciiUpper sf (chars! "OwnerInfo") := by
  refine ⟨by decide +kernel, ?_, ?_⟩ <;> unfold GoDeclares <;> decide +kernel

/-- C86 is false: an object whose name is also the one of a type of the file gets that type's struct,
without its own fields. -/
theorem C86_clash_false :
    let sf : Schema.SchemaFile Nat :=
      [(none, .object [goField (chars! "server") (.object [goField (chars! "port") (.int none)])]),
       (some (chars! "RootServer"), .object [goField (chars! "name") (.string none)])]
    ObjectNamed asciiUpper sf (chars! "Root" ++ pascal asciiUpper (chars! "server"))
        [goField (chars! "port") (.int none)] ∧
      goFieldTypes (generate asciiUpper sf) (chars! "Root") = [chars! "RootServer"] ∧
      goFieldTypes (generate asciiUpper sf) (chars! "RootServer") = [chars! "string"] := by
  refine ⟨?_, by decide +kernel, by decide +kernel⟩
  exact .nested (.root (List.mem_cons_self ..) (.object _)) (List.mem_cons_self ..) rfl
    (.base (by simp) (by simp))

/-- C86 is false: two fields of a struct can have the same Go name. -/
theorem C86_names_false :
    pascal asciiUpper (chars! "log_level") = chars! "LogLevel" ∧
      pascal asciiUpper (chars! "logLevel") = chars! "LogLevel" ∧
      pascal asciiUpper (chars! "log-level") = chars! "LogLevel" := by decide +kernel

/-- C86 is false: the values of a `@map` with one argument become its keys, and a tuple becomes a
slice of its first item's type. -/
theorem C86_types_false :
    let sf : Schema.SchemaFile Nat := [(none, .object [goField (chars! "limits") (.map [.int none]),
      goField (chars! "pair") (.tuple [.string none, .int none])])]
    goFieldTypes (generate asciiUpper sf) (chars! "Root") =
        [chars! "map[int64]interface{}", chars! "[]string"] ∧
      GoTypeOf (.map [.int none] : Schema.Schema Nat) (chars! "map[string]int64") ∧
      ∀ t, ¬ GoTypeOf (.tuple [.string none, .int none] : Schema.Schema Nat) t := by
  refine ⟨by decide +kernel, .values (.int _), ?_⟩
  intro t h
  cases h with
  | tuple _ h =>
    have h1 := h _ (List.mem_cons_self ..)
    have h2 := h (.int none) (by simp)
    generalize hx : chars! "int64" = x at h1
    cases h1
    generalize hy : chars! "string" = y at h2
    cases h2
    exact absurd hy (by simp)

/-- What `Validate` of the root struct reports. -/
def goReports (sf : Schema.SchemaFile Nat) (v : List Char → GoValue Nat) :
    Option (List (List Char × Message)) :=
  match Schema.lookup (chars! "Root") (generate asciiUpper sf) with
  | some (.struct gs) => runStmts (fun a b => decide (a < b)) v (validateMethod gs)
  | _ => none

/-- C86 is false: a bound that does not fit in 64 bits is replaced by another. -/
theorem C86_bound_false :
    goReports [(none, .object [goField (chars! "size") (.int (some ⟨none, some (2 ^ 63)⟩))])]
        (fun _ => .int 5) = some [(chars! "size", .tooLarge)] ∧
      ¬ OutOfBounds (fun a b : Nat => decide (a < b)) (.int (some ⟨none, some (2 ^ 63)⟩)) (.int 5) .tooLarge := by
  refine ⟨by decide +kernel, fun h => ?_⟩
  cases h with
  | large h h' => cases h; exact absurd h' (by decide)

/-- C86 is false: a field marked with `@deprecated` is reported as missing although it is optional,
and its bounds are not checked. -/
theorem C86_deprecated_false :
    goReports [(none, .object [goField (chars! "size") (.deprecated [] (.optional (.int none)))])]
        (fun _ => .nil) = some [(chars! "size", .missing)] ∧
      goReports [(none, .object [goField (chars! "size") (.deprecated [] (.int (some ⟨some 1, none⟩)))])]
        (fun _ => .int 0) = some [] ∧
      OutOfBounds (fun a b : Nat => decide (a < b)) (.deprecated [] (.int (some ⟨some 1, none⟩))) (.int 0)
        .tooSmall :=
  ⟨by decide +kernel, by decide +kernel, .deprecated (.small rfl (by decide))⟩

/-- C86 is false: `Validate` does not look at the objects in a struct, so that the bounds in them are
not checked. -/
theorem C86_nested_false (v : List Char → GoValue Nat) :
    goReports [(none, .object [goField (chars! "server")
      (.object [goField (chars! "port") (.int (some ⟨some 1, some 65535⟩))])])] v = some [] := by
  have h : Schema.lookup (chars! "Root") (generate asciiUpper [(none, .object [goField (chars! "server")
      (.object [goField (chars! "port") (.int (some ⟨some 1, some 65535⟩))])])]) =
      some (.struct [⟨chars! "Server", chars! "server", chars! "RootServer", false, (none : Option (Constraints Nat))⟩]) := by
    decide +kernel
  unfold goReports
  rw [h]
  rfl

end Styx.Props
