import Verif.Cli.Lemmas
import Verif.Props.Schema

/-! # Property theorems C43, C44, C46, C53: the schema tools of the command line -/

namespace Styx.Props

open Styx Styx.Spec Styx.Cli

/-! ## C43 -/

/-- **C43**, when no number of the version is the largest of 64 bits: the next version is computed; it
is greater; breaking changes bump the major number, or the minor one when the major is 0, else additive changes
bump the minor number, else the patch is bumped; the numbers after the bumped one are 0. -/
theorem C43_partial (a b c : Nat) (changes : Changes) (ha : a < 2 ^ 64 - 1) (hb : b < 2 ^ 64 - 1)
    (hc : c < 2 ^ 64 - 1) :
    ∃ a' b' c', calculateNextVersion (versionText a b c) changes = .ok (versionText a' b' c') ∧
      OlderVersion a b c a' b' c' ∧
      (changes.breaking ≠ [] → a ≠ 0 → a' = a + 1 ∧ b' = 0 ∧ c' = 0) ∧
      (changes.breaking ≠ [] → a = 0 → a' = 0 ∧ b' = b + 1 ∧ c' = 0) ∧
      (changes.breaking = [] → changes.additive ≠ [] → a' = a ∧ b' = b + 1 ∧ c' = 0) ∧
      (changes.breaking = [] → changes.additive = [] → a' = a ∧ b' = b ∧ c' = c + 1) := by
  have hu : usizeMax = 2 ^ 64 - 1 := rfl
  have pa := parseUsize_decimal a (by omega)
  have pb := parseUsize_decimal b (by omega)
  have pc := parseUsize_decimal c (by omega)
  unfold calculateNextVersion
  rw [splitDots_version]
  simp only [pa, pb, pc, showVersion_eq]
  have ia : incr a = some (a + 1) := if_pos (by omega)
  have ib : incr b = some (b + 1) := if_pos (by omega)
  have ic : incr c = some (c + 1) := if_pos (by omega)
  simp only [ia, ib, ic, Option.map_some, OlderVersion]
  by_cases h1 : changes.breaking = []
  · by_cases h2 : changes.additive = []
    · exact ⟨a, b, c + 1, by simp [h1, h2], by omega, by simp [h1], by simp [h1], by simp [h2], by simp⟩
    · exact ⟨a, b + 1, 0, by simp [h1, h2], by omega, by simp [h1], by simp [h1], by simp, by simp [h2]⟩
  · by_cases h0 : a = 0
    · exact ⟨0, b + 1, 0, by simp [h1, h0], by omega, by simp [h0], by simp, by simp [h1], by simp [h1]⟩
    · exact ⟨a + 1, 0, 0, by simp [h1, h0], by omega, by simp, by simp [h0], by simp [h1], by simp [h1]⟩

/-- **C43** is false of the largest numbers: the sum overflows. -/
theorem C43_false : ∃ a b c changes, a ≤ 2 ^ 64 - 1 ∧ b ≤ 2 ^ 64 - 1 ∧ c ≤ 2 ^ 64 - 1 ∧
    calculateNextVersion (versionText a b c) changes = .overflow := by
  refine ⟨1, 2 ^ 64 - 1, 0, ⟨[], [.addedType none], []⟩, by decide, by decide, by decide, ?_⟩
  unfold calculateNextVersion
  rw [splitDots_version]
  simp only [parseUsize_decimal 1 (by decide), parseUsize_decimal (2 ^ 64 - 1) (by decide),
    parseUsize_decimal 0 (by decide)]
  rfl

/-- A version number that is not three numbers is refused. -/
example : calculateNextVersion (chars! "1.2") {} = .error ∧
    calculateNextVersion (chars! "1.2.3-rc1") {} = .error ∧
    calculateNextVersion (chars! "1.2.3") ⟨[.removedType none], [], []⟩ = .ok (chars! "2.0.0") ∧
    calculateNextVersion (chars! "0.9.3") ⟨[.removedType none], [], []⟩ = .ok (chars! "0.10.0") := by
  decide +kernel

/-! ## C44 -/

/-- **C44**: comparing a schema with itself reports no change, whatever the order in which hash maps
are visited. -/
theorem C44_self (o : Order) (v : Value) : compareSchemas o v v = ⟨[], [], []⟩ := compareSchemas_self o v

/-- **C44**: the breaking changes reported are exactly the removed types, types of another tag, removed
fields, added required fields and removed variants – whatever the order in which hash maps are
visited. -/
theorem C44 (o : Order) (old new : Value) (ho : UniqueTypes old) (hn : UniqueTypes new)
    (hf : ∀ n ty, Defines new n ty → UniqueEntries ty) (x : Change) :
    x ∈ (compareSchemas o old new).breaking ↔ Breaking old new x := by
  rw [mem_breaking]
  constructor
  · rintro (⟨n, ⟨ty, h1⟩, h2, rfl⟩ | ⟨n, tb, tl, hb, hl, hx⟩)
    · exact .removedType h1 (fun ty' h => h2 ⟨ty', h⟩)
    · have hb := get_defines hb
      have hl := get_defines hl
      rw [mem_typeDefinitions o n tb tl (hf _ _ hl)] at hx
      rcases hx with ⟨h1, rfl⟩ | ⟨h1, h2, ⟨f, v, h3, h4, rfl⟩ | ⟨f, v, h3, h4, h5, h6, rfl⟩⟩ | ⟨h1, h2, f, v, h3, h4, rfl⟩
      · exact .changedTag hb hl h1
      · exact .removedField hb hl h1 h2 h3 h4
      · exact .addedRequired hb hl h1 h2 h3 h4 h5 h6
      · exact .removedVariant hb hl h1 h2 h3 h4
  · intro h
    have go : ∀ {n ty ty'}, Defines old n ty → Defines new n ty' →
        x ∈ (compareTypeDefinitions o n ty ty' {}).breaking →
        ∃ name tb tl, mapGet (extractSchemaMap old) name = some tb ∧
          mapGet (extractSchemaMap new) name = some tl ∧
          x ∈ (compareTypeDefinitions o name tb tl {}).breaking := by
      intro n ty ty' h1 h2 hx
      exact ⟨n, ty, ty', (defines_get ho _ _).2 h1, (defines_get hn _ _).2 h2, hx⟩
    cases h with
    | removedType h1 h2 => exact .inl ⟨_, ⟨_, h1⟩, fun ⟨ty', h⟩ => h2 ty' h, rfl⟩
    | changedTag h1 h2 h3 =>
      exact .inr (go h1 h2 ((mem_typeDefinitions o _ _ _ (hf _ _ h2) _).2 (.inl ⟨h3, rfl⟩)))
    | removedField h1 h2 h3 h4 h5 h6 =>
      exact .inr (go h1 h2 ((mem_typeDefinitions o _ _ _ (hf _ _ h2) _).2
        (.inr (.inl ⟨h3, h4, .inl ⟨_, _, h5, h6, rfl⟩⟩))))
    | addedRequired h1 h2 h3 h4 h5 h6 h7 h8 =>
      exact .inr (go h1 h2 ((mem_typeDefinitions o _ _ _ (hf _ _ h2) _).2
        (.inr (.inl ⟨h3, h4, .inr ⟨_, _, h5, h6, h7, h8, rfl⟩⟩))))
    | removedVariant h1 h2 h3 h4 h5 h6 =>
      exact .inr (go h1 h2 ((mem_typeDefinitions o _ _ _ (hf _ _ h2) _).2
        (.inr (.inr ⟨h3, h4, _, _, h5, h6, rfl⟩))))

/-- The order of insertion. -/
def insertionOrder : Order := ⟨id, fun l => List.Perm.refl l⟩

/-- `schema {@ @object{ … }}` with these fields. -/
def objectSchema (fields : List (Value × Value)) : Value :=
  objV [(scalarV (chars! "schema"), objV [(unitV,
    .mk (some ⟨chars! "object", none⟩)
      (some (.object (fields.map fun e => .mk e.1 e.2 none) none)) none)])]

/-- A value `@t(@int)`. -/
abbrev wrapV (t : List Char) : Value := .mk (some ⟨t, none⟩) (some (.sequence [tagV (chars! "int")] none)) none

/-- The changes of a schema: `host` is gone, `port` must be given, `log` need not. -/
example : compareSchemas insertionOrder
      (objectSchema [(scalarV (chars! "name"), tagV (chars! "string")),
        (scalarV (chars! "host"), tagV (chars! "string"))])
      (objectSchema [(scalarV (chars! "name"), tagV (chars! "string")),
        (scalarV (chars! "port"), tagV (chars! "int")),
        (scalarV (chars! "log"), wrapV (chars! "optional"))]) =
    ⟨[.removedField none (chars! "host"), .addedRequired none (chars! "port")],
      [.addedOptional none (chars! "log")], []⟩ := by decide +kernel

theorem objectSchema_defines {fields : List (Value × Value)} {n : Option (List Char)} {ty : Value}
    (h : Defines (objectSchema fields) n ty) : n = none ∧
      ty = .mk (some ⟨chars! "object", none⟩)
        (some (.object (fields.map fun e => .mk e.1 e.2 none) none)) none := by
  obtain ⟨t, es, sp, s, h1, e, he, hk, t', ses, sp', s', hv, e', he', hk', hv'⟩ := h
  simp only [objectSchema, objV, Value.mk.injEq, Option.some.injEq, Payload.object.injEq] at h1
  obtain ⟨_, ⟨h1, _⟩, _⟩ := h1
  subst h1
  simp only [List.map_cons, List.map_nil, List.mem_singleton] at he
  subst he
  simp only [Entry.value, Value.mk.injEq, Option.some.injEq, Payload.object.injEq] at hv
  obtain ⟨_, ⟨h2, _⟩, _⟩ := hv
  subst h2
  simp only [List.mem_singleton] at he'
  subst he'
  refine ⟨?_, hv'.symm⟩
  cases n with
  | none => rfl
  | some n => simp [IsTypeKey, Entry.key, Value.asStr] at hk'

/-- The hypotheses of `C44` are met by a schema with two fields. -/
example : UniqueTypes (objectSchema [(scalarV (chars! "name"), tagV (chars! "string")),
      (scalarV (chars! "host"), tagV (chars! "int"))]) ∧
    ∀ n ty, Defines (objectSchema [(scalarV (chars! "name"), tagV (chars! "string")),
      (scalarV (chars! "host"), tagV (chars! "int"))]) n ty → UniqueEntries ty := by
  refine ⟨fun n ty ty' h h' => ?_, fun n ty h => ?_⟩
  · rw [(objectSchema_defines h).2, (objectSchema_defines h').2]
  · obtain ⟨_, rfl⟩ := objectSchema_defines h
    intro f v v' hv hv'
    rw [hasEntry_iff] at hv hv'
    obtain ⟨t, es, sp, s, h1, h2⟩ := hv
    obtain ⟨t', es', sp', s', h1', h2'⟩ := hv'
    cases h1; cases h1'
    simp [fieldPairs, Entry.key, Value.asStr, Entry.value] at h2 h2'
    grind

/-! ## C53 -/

/-- **C53** is false: the type of a field changes from a number to a boolean, a document that was valid is not valid
any more, and the comparison reports no change at all. -/
theorem C53_false : ∃ old new : Value, ∃ sOld sNew : Schema.SchemaFile Unit, ∃ doc,
    old = objectSchema [(scalarV (chars! "port"), tagV (chars! "int"))] ∧
    sOld = [(none, .object [(⟨some (chars! "port"), none⟩, .int none)])] ∧
    new = objectSchema [(scalarV (chars! "port"), tagV (chars! "bool"))] ∧
    sNew = [(none, .object [(⟨some (chars! "port"), none⟩, .bool)])] ∧
    (∀ o, compareSchemas o old new = ⟨[], [], []⟩) ∧
    Schema.validateDocument noFloats sOld 3 doc = some ⟨[], []⟩ ∧
    (∃ r, Schema.validateDocument noFloats sNew 3 doc = some r ∧ r.errors ≠ []) := by
  refine ⟨_, _, _, _, objV [(scalarV (chars! "port"), scalarV (chars! "80"))], rfl, rfl, rfl, rfl, ?_, rfl,
    _, rfl, by decide⟩
  intro o
  have one : ∀ {α : Type} (a : α), o.ord [a] = [a] := by
    intro α a; exact List.perm_singleton.mp (o.perm [a])
  simp [compareSchemas, objectSchema, extractSchemaMap, Value.payload, Entry.key, Entry.value, Value.asStr,
    typeKey, Value.isUnit, Value.tag, mapInsert, one, mapHas, mapGet, compareStep, compareTypeDefinitions,
    Value.tagName, compareObjectFields, extractObjectFields]

/-- **C53**, what a comparison without breaking changes does ensure: every old type is still there with
its tag; an object type still has its fields, and its new fields are optional or have a default; an enum
type still has its variants. -/
theorem C53_partial (o : Order) (old new : Value) (ho : UniqueTypes old) (hn : UniqueTypes new)
    (hf : ∀ n ty, Defines new n ty → UniqueEntries ty) (h : (compareSchemas o old new).breaking = [])
    (n : Option (List Char)) (ty : Value) (hd : Defines old n ty) :
    ∃ ty', Defines new n ty' ∧ ty'.tagName = ty.tagName ∧
      ((HasTag ty (chars! "object") ∨ HasTag ty (chars! "enum")) →
        ∀ f v, HasEntry ty f v → ∃ v', HasEntry ty' f v') ∧
      (HasTag ty (chars! "object") → ∀ f v, HasEntry ty' f v → (∃ v', HasEntry ty f v') ∨
        HasTag v (chars! "optional") ∨ HasTag v (chars! "default")) := by
  have no : ∀ x, ¬ Breaking old new x := by
    intro x hx
    have := (C44 o old new ho hn hf x).2 hx
    rw [h] at this
    cases this
  by_cases h1 : ∃ ty', Defines new n ty'
  · obtain ⟨ty', hd'⟩ := h1
    have ht : ty.tagName = ty'.tagName := by
      by_cases ht : ty.tagName = ty'.tagName
      · exact ht
      · exact absurd (.changedTag hd hd' ht) (no _)
    refine ⟨ty', hd', ht.symm, fun hk f v hv => ?_, fun hk f v hv => ?_⟩
    · by_cases hv' : ∃ v', HasEntry ty' f v'
      · exact hv'
      · exfalso
        rcases hk with hk | hk
        · have hk' : HasTag ty' (chars! "object") := by rw [hasTag_iff] at hk ⊢; rw [← ht]; exact hk
          exact no _ (.removedField hd hd' hk hk' hv fun v' hv'' => hv' ⟨v', hv''⟩)
        · have hk' : HasTag ty' (chars! "enum") := by rw [hasTag_iff] at hk ⊢; rw [← ht]; exact hk
          exact no _ (.removedVariant hd hd' hk hk' hv fun v' hv'' => hv' ⟨v', hv''⟩)
    · by_cases hv' : ∃ v', HasEntry ty f v'
      · exact .inl hv'
      · right
        have hk' : HasTag ty' (chars! "object") := by rw [hasTag_iff] at hk ⊢; rw [← ht]; exact hk
        by_cases ho : HasTag v (chars! "optional")
        · exact .inl ho
        · by_cases hdf : HasTag v (chars! "default")
          · exact .inr hdf
          · exact absurd (.addedRequired hd hd' hk hk' hv (fun v' hv'' => hv' ⟨v', hv''⟩) ho hdf) (no _)
  · exact absurd (.removedType hd fun ty' h => h1 ⟨ty', h⟩) (no _)

/-! ## C46 -/

/-- **C46**: of an object the entries with key `@schema` are removed, all others are kept in order, and
nothing else changes; other values are unchanged; doing it twice is the same as once. -/
theorem C46 (v : Value) :
    (∀ t es sp s, v = .mk t (some (.object es sp)) s →
      ∃ es', stripSchemaDeclaration v = .mk t (some (.object es' sp)) s ∧ Undeclared es es') ∧
    ((∀ t es sp s, v ≠ .mk t (some (.object es sp)) s) → stripSchemaDeclaration v = v) ∧
    stripSchemaDeclaration (stripSchemaDeclaration v) = stripSchemaDeclaration v := by
  refine ⟨?_, ?_, ?_⟩
  · rintro t es sp s rfl
    exact ⟨_, rfl, (undeclared_iff _ _).2 rfl⟩
  · intro h
    unfold stripSchemaDeclaration
    split
    · exact absurd rfl (h _ _ _ _)
    · rfl
  · unfold stripSchemaDeclaration
    split
    · rename_i heq
      split at heq
      · cases heq; simp
      · rename_i h; exact absurd heq (h _ _ _ _)
    · rfl

/-- A declaration, an entry, and a tag below that stays. -/
example : stripSchemaDeclaration (objV [(tagV (chars! "schema"), scalarV (chars! "s.styx")),
      (scalarV (chars! "a"), objV [(tagV (chars! "schema"), unitV)])]) =
    objV [(scalarV (chars! "a"), objV [(tagV (chars! "schema"), unitV)])] := rfl

end Styx.Props
