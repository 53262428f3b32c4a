import Verif.Schema.Report
import Verif.Schema.Term
import Verif.Schema.TermSpec
import Verif.Schema.Order
import Verif.Schema.Table
import Verif.Schema.EditLemmas
import Verif.Schema.Mark

/-! # Property theorems C30–C35 and C50: schemas

`Verif.Schema.Spec` (conforming to a schema), `Verif.Schema.ReportSpec` (what is reported for an
object), `Verif.Schema.TermSpec` (guarded schemas), `Verif.Schema.OrderSpec` and
`Verif.Schema.TableSpec` (reordering), `Verif.Schema.MarkSpec` (marking as deprecated) and `Verif.Schema.EditSpec` (edit distance) are the
specifications. -/

namespace Styx.Props

open Styx Styx.Schema

variable {F : Type} {E : Env F} {M : List Char → List Char → Prop} {sf : SchemaFile F}

/-! Sample values. -/

/-- A bare scalar. -/
abbrev scalarV (t : List Char) : Value := .mk none (some (.scalar t .bare none)) none
/-- A tag with no payload. -/
abbrev tagV (t : List Char) : Value := .mk (some ⟨t, none⟩) none none
/-- The unit value. -/
abbrev unitV : Value := .mk none none none
/-- A sequence. -/
abbrev seqV (vs : List Value) : Value := .mk none (some (.sequence vs none)) none
/-- An object. -/
abbrev objV (es : List (Value × Value)) : Value :=
  .mk none (some (.object (es.map fun e => .mk e.1 e.2 none) none)) none
/-- Numbers left out: no text is a float. -/
abbrev noFloats : Env Unit := ⟨fun _ => none, fun _ _ => false, id⟩

/-! ## C33 -/

/-- **C33**: when no named type refers to itself without passing through a container, validation of
every value against every schema returns: there is one result, reached with all fuel from some amount
on, and no other result is ever reached. -/
theorem C33 (hg : Guarded sf) (v : Value) (s : Schema F) (path : List Char) :
    ∃ n r, (∀ m, n ≤ m → validate E sf m v s path = some r) ∧
      ∀ m r', validate E sf m v s path = some r' → r' = r := by
  obtain ⟨n, r, h⟩ := returns_value (E := E) hg _ v (Nat.le_refl _) s path
  refine ⟨n, r, fun m hm => validate_mono hm _ _ _ _ h, ?_⟩
  intro m r' h'
  have h1 := validate_mono (Nat.le_max_left m n) _ _ _ _ h'
  have h2 := validate_mono (Nat.le_max_right m n) _ _ _ _ h
  rw [h1] at h2
  exact Option.some.inj h2

/-- **C33**, for whole documents. -/
theorem C33_document (hg : Guarded sf) (doc : Value) :
    ∃ n r, ∀ m, n ≤ m → validateDocument E sf m doc = some r := by
  cases hl : lookup none sf with
  | none => exact ⟨0, _, fun m _ => by rw [validateDocument, hl]⟩
  | some root =>
    obtain ⟨n, r, h, _⟩ := C33 (E := E) hg doc root []
    exact ⟨n, r, fun m hm => by rw [validateDocument, hl]; exact h m hm⟩

/-- **C33**, the condition is needed: a type that is itself under another name is never decided. -/
theorem C33_unguarded (E : Env F) (v : Value) (path : List Char) (n : Nat) :
    validate E [(some (chars! "T"), Schema.type (some (chars! "T")))] n v
      (.type (some (chars! "T"))) path = none := by
  induction n with
  | zero => rfl
  | succ n ih => exact ih

/-- A recursive schema: `@` is `@Tree`, a tree has a name of at least one byte, perhaps children that
are trees, and any further entries. -/
def treeSchema : SchemaFile F :=
  [(none, .type (some (chars! "Tree"))),
   (some (chars! "Tree"), .object
     [(⟨some (chars! "name"), none⟩, .string (some ⟨some 1, none, none⟩)),
      (⟨some (chars! "kids"), none⟩, .optional (.seq (.type (some (chars! "Tree"))))),
      (⟨some (chars! "kind"), none⟩, .default (chars! "@leaf")
        (.enum [(chars! "leaf", .unit), (chars! "other", .string none)])),
      (⟨none, some (chars! "string")⟩, .any)])]

theorem tree_guarded : Guarded (treeSchema : SchemaFile F) := by
  have no : ∀ a b, ¬ Reaches (treeSchema : SchemaFile F) a b := by
    intro a b h
    have key : ∀ {a b s}, (some a, s) ∈ (treeSchema : SchemaFile F) → ¬ DirectRef s b := by
      intro a b s hm hd
      simp only [treeSchema, List.mem_cons, Prod.mk.injEq, List.not_mem_nil, or_false, reduceCtorEq,
        false_and, false_or] at hm
      obtain ⟨_, rfl⟩ := hm
      cases hd
    cases h with
    | one hm hd => exact key hm hd
    | more hm hd _ => exact key hm hd
  exact fun a => no a a

/-! ## C30 -/

/-- **C30**, partial: for every value and every schema of the plain fragment (no patterns, no
flattening, enums with plainly typed variants, no field that is both deprecated and optional), the
value is accepted exactly when it conforms.  Missing: the full statement, which is false of the code
for each of the excluded features, see the `C30_false` theorems. -/
theorem C30_partial (hf : PlainFile sf) (v : Value) (s : Schema F) (hp : Plain sf s)
    (path : List Char) (n : Nat) (r : Result) (h : validate E sf n v s path = some r) :
    r.isValid = true ↔ Conforms E M sf v s :=
  validate_agrees hf n v s path r hp h

/-- **C30**, partial, for whole documents: validation returns, and accepts exactly the documents that
conform to the type of the root. -/
theorem C30_document_partial (hf : PlainFile sf) (hg : Guarded sf) (doc : Value) {root : Schema F}
    (hr : (none, root) ∈ sf) :
    ∃ n r, (∀ m, n ≤ m → validateDocument E sf m doc = some r) ∧
      (r.isValid = true ↔ Conforms E M sf doc root) := by
  obtain ⟨n, r, h⟩ := C33_document (E := E) hg doc
  refine ⟨n, r, h, ?_⟩
  have hl : lookup none sf = some root := lookup_of_mem hf.1 hr
  have := h n (Nat.le_refl _)
  rw [validateDocument, hl] at this
  exact C30_partial hf doc root (hf.2 _ hr) _ _ _ this

theorem tree_plain : PlainFile (treeSchema : SchemaFile F) := by
  constructor
  · simp [DistinctKeys, treeSchema]
  · intro d hd
    simp only [treeSchema, List.mem_cons, List.not_mem_nil, or_false] at hd
    rcases hd with rfl | rfl
    · exact .type _
    · refine .object ?_ ?_ ?_ ?_ ?_
      · simp [DistinctKeys]
      · intro f hf
        simp only [List.mem_cons, List.not_mem_nil, or_false] at hf
        rcases hf with rfl | rfl | rfl | rfl
        · exact Or.inl ⟨_, by simp, rfl⟩
        · exact Or.inl ⟨_, by simp, rfl⟩
        · exact Or.inl ⟨_, by simp, rfl⟩
        · exact Or.inr ⟨_, rfl⟩
      · intro f hf g hg h1 h2
        simp only [List.mem_cons, List.not_mem_nil, or_false] at hf hg
        rcases hf with rfl | rfl | rfl | rfl <;> first | (cases h1; done) | skip
        rcases hg with rfl | rfl | rfl | rfl <;> first | (cases h2; done) | rfl
      · intro f hf
        simp only [List.mem_cons, List.not_mem_nil, or_false] at hf
        rcases hf with rfl | rfl | rfl | rfl
        · exact .string (by rintro c' h; obtain rfl := Option.some.inj h; rfl)
        · exact .optional (.seq (.type _))
        · refine .default _ (.enum ?_ ?_ ?_ ?_)
          · simp [DistinctKeys]
          · intro p hp
            simp only [List.mem_cons, List.not_mem_nil, or_false] at hp
            rcases hp with rfl | rfl
            · exact .unit
            · exact .string (by rintro c' h; cases h)
          · intro p hp
            simp only [List.mem_cons, List.not_mem_nil, or_false] at hp
            rcases hp with rfl | rfl
            · exact .unit
            · exact .scalar (.string _)
          · constructor
            · intro p hp hs
              simp only [List.mem_cons, List.not_mem_nil, or_false] at hp
              rcases hp with rfl | rfl
              · cases hs
              · exact Or.inl rfl
            · intro p hp he
              simp only [List.mem_cons, List.not_mem_nil, or_false] at hp
              rcases hp with rfl | rfl <;> cases he
        · exact .any
      · intro f hf r s he
        simp only [List.mem_cons, List.not_mem_nil, or_false] at hf
        rcases hf with rfl | rfl | rfl | rfl <;> cases he

/-- A tree with one child, whose child has the given name. -/
def treeDoc (childName : List Char) : Value :=
  objV [(scalarV (chars! "name"), scalarV (chars! "root")),
    (scalarV (chars! "kids"), seqV [objV [(scalarV (chars! "name"), scalarV childName)]]),
    (scalarV (chars! "kind"), tagV (chars! "leaf")), (scalarV (chars! "x"), unitV)]

/-- The hypotheses are met by a recursive schema, one document conforms to it and a similar one does
not, both settled by running the validator. -/
example : Conforms noFloats (fun _ _ => False) treeSchema (treeDoc (chars! "a")) (.type (some (chars! "Tree"))) :=
  (C30_partial (E := noFloats) tree_plain _ _ (.type _) [] 20 ⟨[], []⟩ (by decide +kernel)).mp rfl

example : ¬ Conforms noFloats (fun _ _ => False) treeSchema (treeDoc []) (.type (some (chars! "Tree"))) := fun h =>
  absurd ((C30_partial (E := noFloats) tree_plain _ _ (.type _) []
      20 ⟨[⟨chars! "kids[0].name", none, .invalidValue .tooShort⟩], []⟩ (by decide +kernel)).mpr h)
    (by decide)

/-- **C30** is false of the code, patterns: a text that does not match is accepted. -/
theorem C30_false_pattern (E : Env F) (hM : ¬ M (chars! "^[0-9]+$") (chars! "abc")) :
    let s : Schema F := .string (some ⟨none, none, some (chars! "^[0-9]+$")⟩)
    let v := scalarV (chars! "abc")
    validate E [] 1 v s [] = some ⟨[], []⟩ ∧ ¬ Conforms E M [] v s := by
  refine ⟨rfl, fun h => ?_⟩
  generalize hs : (Schema.string (some ⟨none, none, some (chars! "^[0-9]+$")⟩) : Schema F) = s at h
  cases h with
  | string ht hok =>
    obtain ⟨_, _, _, _, he⟩ := ht
    cases he
    cases hs
    exact hM ((hok _ rfl).2.2 _ rfl)
  | _ => cases hs

/-- The example of the document (schema.flatten): `Admin` is `User` with permissions. -/
def adminSchema : SchemaFile F :=
  [(some (chars! "User"), .object [(⟨some (chars! "name"), none⟩, .string none),
     (⟨some (chars! "email"), none⟩, .string none)]),
   (some (chars! "Admin"), .object
     [(⟨some (chars! "user"), none⟩, .flatten (.type (some (chars! "User")))),
      (⟨some (chars! "permissions"), none⟩, .seq (.string none))])]

/-- `name Alice, email alice@example.com, permissions (read write admin)`. -/
def adminDoc : Value :=
  objV [(scalarV (chars! "name"), scalarV (chars! "Alice")),
    (scalarV (chars! "email"), scalarV (chars! "alice@example.com")),
    (scalarV (chars! "permissions"),
      seqV [scalarV (chars! "read"), scalarV (chars! "write"), scalarV (chars! "admin")])]

theorem adminDoc_conforms : Conforms E M adminSchema adminDoc (.type (some (chars! "Admin"))) := by
  have str : ∀ t, Conforms E M adminSchema (scalarV t) (.string none : Schema F) := fun t =>
    .string ⟨_, _, _, _, rfl⟩ (by rintro c' h; cases h)
  have user : ∀ k s, (k, s) ∈ ([(⟨some (chars! "name"), none⟩, .string none),
      (⟨some (chars! "email"), none⟩, .string none)] : List (ObjectKey × Schema F)) →
      HasField adminSchema [(⟨some (chars! "user"), none⟩, .flatten (.type (some (chars! "User")))),
      (⟨some (chars! "permissions"), none⟩, Schema.seq (.string none))] k s := by
    intro k s hm
    refine .inline (List.mem_cons_self ..) (.named (s := .object _) (by simp [adminSchema]) (.object _)) (.own hm ?_)
    intro inner he
    simp only [List.mem_cons, Prod.mk.injEq, List.not_mem_nil, or_false] at hm
    rcases hm with ⟨_, rfl⟩ | ⟨_, rfl⟩ <;> cases he
  refine .named (s := .object _) (List.mem_cons_of_mem _ (List.mem_cons_self ..)) (.object ⟨_, _, _, rfl⟩ ?_ ?_)
  · intro e he
    simp only [List.map_cons, List.map_nil, List.mem_cons, List.not_mem_nil, or_false] at he
    rcases he with rfl | rfl | rfl
    · exact .named ⟨_, _, _, rfl⟩ (user _ _ (by simp)) (str _)
    · exact .named ⟨_, _, _, rfl⟩ (user _ _ (by simp)) (str _)
    · refine .named (s := .seq (.string none)) ⟨_, _, _, rfl⟩
        (.own (by simp) (by intro _ h; cases h)) (.seq ⟨_, _, _, rfl⟩ ?_)
      intro x hx
      simp only [List.mem_cons, List.not_mem_nil, or_false] at hx
      rcases hx with rfl | rfl | rfl <;> exact str _
  · intro k s name hf hk _
    have names : ∀ {k : ObjectKey} {s : Schema F} {name : List Char} {l : List (ObjectKey × Schema F)},
        (k, s) ∈ l → k.value = some name → name ∈ l.filterMap (·.1.value) := by
      intro k s name l hm hk
      exact List.mem_filterMap.mpr ⟨_, hm, hk⟩
    have pick : name ∈ [chars! "name", chars! "email", chars! "permissions"] := by
      cases hf with
      | own hm hne =>
        simp only [List.mem_cons, Prod.mk.injEq, List.not_mem_nil, or_false] at hm
        rcases hm with ⟨rfl, rfl⟩ | ⟨rfl, rfl⟩
        · exact absurd rfl (hne _)
        · simp only [Option.some.injEq] at hk; simp [← hk]
      | inline hm ho hf' =>
        simp only [List.mem_cons, Prod.mk.injEq, List.not_mem_nil, or_false, Schema.flatten.injEq,
          reduceCtorEq, and_false] at hm
        obtain ⟨_, rfl⟩ := hm
        cases ho with
        | named hm' ho' =>
          simp only [adminSchema, List.mem_cons, Prod.mk.injEq, List.not_mem_nil, or_false,
            Option.some.injEq, List.cons.injEq, Char.reduceEq, false_and, true_and] at hm'
          subst hm'
          cases ho'
          cases hf' with
          | own hm'' _ =>
            have := names hm'' hk
            simp only [List.filterMap_cons, List.filterMap_nil, List.mem_cons,
              List.not_mem_nil, or_false] at this
            rcases this with rfl | rfl <;> simp
          | inline hm'' _ _ => simp at hm''
    simp only [List.mem_cons, List.not_mem_nil, or_false] at pick
    rcases pick with rfl | rfl | rfl
    · exact ⟨_, List.mem_cons_self .., ⟨_, _, _, rfl⟩⟩
    · exact ⟨_, List.mem_cons_of_mem _ (List.mem_cons_self ..), ⟨_, _, _, rfl⟩⟩
    · exact ⟨_, List.mem_cons_of_mem _ (List.mem_cons_of_mem _ (List.mem_cons_self ..)), ⟨_, _, _, rfl⟩⟩

/-- **C30** is false of the code, flattening: the document's own example is rejected, its inlined
fields being unknown and the field that flattens them missing. -/
theorem C30_false_flatten :
    (validate noFloats adminSchema 9 adminDoc (.type (some (chars! "Admin"))) []).map
        (fun r => r.errors.map (·.kind)) =
      some [.unknownField (chars! "name") [chars! "user", chars! "permissions"] none,
        .unknownField (chars! "email") [chars! "user", chars! "permissions"] none,
        .missingField (chars! "user")] ∧
    Conforms noFloats M adminSchema adminDoc (.type (some (chars! "Admin"))) :=
  ⟨by decide +kernel, adminDoc_conforms⟩

/-- **C30** is false of the code, enum variants: a variant whose payload is optional cannot be written
without one. -/
theorem C30_false_variant (E : Env F) :
    let s : Schema F := .enum [(chars! "log", .optional (.string none))]
    let v := tagV (chars! "log")
    (∃ r, validate E [] 2 v s [] = some r ∧ r.isValid = false) ∧ Conforms E M [] v s :=
  ⟨⟨_, rfl, rfl⟩, .variant (List.mem_cons_self ..) (.absent ⟨_, rfl⟩)⟩

/-- **C30** is false of the code, untagged values of enums: only one of the scalar variants is tried. -/
theorem C30_false_fallback (E : Env F) :
    let s : Schema F := .enum [(chars! "long", .string (some ⟨some 5, none, none⟩)), (chars! "count", .int none)]
    let v := scalarV (chars! "42")
    (∃ r, validate E [] 2 v s [] = some r ∧ r.isValid = false) ∧ Conforms E M [] v s := by
  refine ⟨⟨_, rfl, rfl⟩, .fallback (s := .int none) (List.mem_cons_of_mem _ (List.mem_cons_self ..)) (.int _)
    (.int (n := 42) ⟨_, _, _, _, rfl⟩ ⟨chars! "42", by simp, ?_, Or.inl ⟨rfl, by decide⟩⟩ (by decide) (by decide) ?_)⟩
  · decide
  · rintro c' h; cases h

/-- **C30** is false of the code, deprecated fields: wrapping an optional field as deprecated makes it
required. -/
theorem C30_false_deprecated (E : Env F) :
    let s : Schema F := .object [(⟨some (chars! "a"), none⟩, .deprecated (chars! "gone") (.optional .bool))]
    let v := objV []
    (∃ r, validate E [] 2 v s [] = some r ∧ r.isValid = false) ∧ Conforms E M [] v s := by
  refine ⟨⟨_, rfl, rfl⟩, .object ⟨_, _, _, rfl⟩ (by simp) ?_⟩
  intro k s name hf hk hn
  cases hf with
  | own hm _ =>
    simp only [List.mem_cons, Prod.mk.injEq, List.not_mem_nil, or_false] at hm
    obtain ⟨_, rfl⟩ := hm
    exact absurd (.deprecated _ (.optional _)) hn
  | inline hm _ _ => simp at hm

/-- **C30** is false of the code, the unit key: it is taken for the field named by the empty text. -/
theorem C30_false_unitKey (E : Env F) :
    let s : Schema F := .object [(⟨some [], none⟩, .optional .any)]
    let v := objV [(unitV, unitV)]
    validate E [] 3 v s [] = some ⟨[], []⟩ ∧ ¬ Conforms E M [] v s := by
  refine ⟨rfl, fun h => ?_⟩
  generalize hs : (Schema.object [(⟨some [], none⟩, .optional .any)] : Schema F) = s at h
  cases h with
  | object he hall _ =>
    obtain ⟨_, _, _, he⟩ := he
    cases he
    cases hs
    have := hall _ (List.mem_cons_self ..)
    cases this with
    | named hk _ _ =>
      obtain ⟨_, _, _, hk⟩ := hk
      cases hk
    | additional _ _ hf _ =>
      cases hf with
      | own hm _ => simp at hm
      | inline hm _ _ => simp at hm
  | _ => cases hs

/-! ## C31 -/

/-- **C31**: reordering the entries of objects, at any depth, changes neither whether validation
returns, nor whether the document is valid, nor what is reported, up to the order of reports. -/
theorem C31 {v v' : Value} (h : Reordered v v') (s : Schema F) (path : List Char) (n : Nat) (r : Result)
    (hr : validate E sf n v s path = some r) :
    ∃ r', validate E sf n v' s path = some r' ∧ r'.isValid = r.isValid ∧
      r.errors.Perm r'.errors ∧ r.warnings.Perm r'.warnings := by
  obtain ⟨r', h1, h2⟩ := validate_steady n v v' s path r h hr
  exact ⟨r', h1, h2.isValid.symm, h2⟩

/-- Reordering is symmetric enough to be applied both ways; the sample swaps entries two levels
down. -/
example : Reordered (treeDoc (chars! "a"))
    (objV [(scalarV (chars! "kids"), seqV [objV [(scalarV (chars! "name"), scalarV (chars! "a"))]]),
      (scalarV (chars! "name"), scalarV (chars! "root")),
      (scalarV (chars! "kind"), tagV (chars! "leaf")), (scalarV (chars! "x"), unitV)]) :=
  .entries (.swap _ _ _)

/-! ## C32 -/

/-- **C32**, partial: the errors reported for an object are, entry by entry, those of its value against
its field or the catch-all, or one unknown-field error (or one for a key that is no key), followed by
one error for exactly each named field that is absent and neither optional nor default.  Missing: schemas
with a field named by the empty text (excluded by `ProperKey`), see `C32_false`. -/
theorem C32_partial {fields : List (ObjectKey × Schema F)} (hk : ∀ f ∈ fields, ProperKey f.1)
    (hd : DistinctKeys fields) {v : Value} {es : List Entry} (hv : HasEntries v es) (path : List Char)
    (n : Nat) (r : Result) (hr : validate E sf n v (.object fields) path = some r) :
    ∃ (parts : List (List Err)) (missing : List Err), r.errors = parts.flatten ++ missing ∧
      parts.length = es.length ∧
      (∀ (i : Nat) e p, es[i]? = some e → parts[i]? = some p → EntryReport E sf fields path e p) ∧
      missing.Nodup ∧ ∀ err, err ∈ missing ↔ IsMissing fields es path v.span err := by
  cases n with
  | zero => cases hr
  | succ n =>
    obtain ⟨tag, sp, sp', rfl⟩ := hv
    have hr : validateObject E (validate E sf n) (.mk tag (some (.object es sp)) sp') fields path = some r := hr
    simp only [validateObject, Value.asObject, Option.map_eq_some_iff] at hr
    obtain ⟨r₀, h0, rfl⟩ := hr
    obtain ⟨parts, h1, h2, h3⟩ := mergeAll_errors (P := EntryReport E sf fields path)
      (fun e r h => validateEntry_report hk h) h0
    exact ⟨parts, _, by rw [Result.merge, h3], h1, h2, missingFields_nodup hk hd,
      fun err => missingFields_mem hk⟩

/-- The hypotheses are met, and the report has all three kinds of part. -/
example : (∀ f ∈ ([(⟨some (chars! "name"), none⟩, .string none), (⟨some (chars! "port"), none⟩, .int none)] :
      List (ObjectKey × Schema Unit)), ProperKey f.1) ∧
    (validate noFloats [] 3 (objV [(scalarV (chars! "nmae"), unitV), (scalarV (chars! "port"), unitV)])
      (.object [(⟨some (chars! "name"), none⟩, .string none), (⟨some (chars! "port"), none⟩, .int none)])
      (chars! "a")).map (fun r => r.errors.map fun e => (e.path, e.kind)) =
      some [(chars! "a.nmae", .unknownField (chars! "nmae") [chars! "name", chars! "port"] (some (chars! "name"))),
        (chars! "a.port", .expectedScalar), (chars! "a.name", .missingField (chars! "name"))] := by
  refine ⟨?_, by decide +kernel⟩
  intro f hf
  simp only [List.mem_cons, List.not_mem_nil, or_false] at hf
  rcases hf with rfl | rfl <;> exact Or.inl ⟨_, by simp, rfl⟩

/-- **C32** is false of the code: the key `@` matches no named field, there is no catch-all, and no
unknown-field error is reported when the schema has a field named by the empty text. -/
theorem C32_false (E : Env F) :
    validate E [] 3 (objV [(unitV, unitV)]) (.object [(⟨some [], none⟩, .optional .any)] : Schema F) [] =
      some ⟨[], []⟩ := rfl

/-! ## C34 -/

/-- **C34**: wrapping a schema as deprecated changes neither whether validation of a value against it
returns nor the errors, and adds exactly one warning, with the reason given. -/
theorem C34 (n : Nat) (v : Value) (s : Schema F) (reason path : List Char) :
    validate E sf (n + 1) v (.deprecated reason s) path =
      (validate E sf n v s path).map fun r => ⟨r.errors, r.warnings ++ [⟨path, v.span, reason⟩]⟩ := rfl

/-- **C34**, deep, partial: marking any parts of a schema file as deprecated, at any depth, leaves every
document valid or invalid as it was, with its errors at the same places.  Missing: marks directly around
an optional or default field and directly around the schema of an enum variant, where it is false
(`C34_false_field`, `C34_false_variant`). -/
theorem C34_deep_partial {sf' : SchemaFile F} (hsf : MarkedFile sf sf') {s s' : Schema F} (hs : Marked s s')
    (v : Value) (path : List Char) (n : Nat) (r : Result) (h : validate E sf n v s path = some r) :
    ∃ m r', validate E sf' m v s' path = some r' ∧ r'.isValid = r.isValid ∧
      errorPlaces r' = errorPlaces r := by
  obtain ⟨m, r', h1, h2⟩ := validate_leads hsf n v s s' path r hs h
  exact ⟨m, r', h1 m (Nat.le_refl _), h2.isValid, h2⟩

/-- A mark two levels down, on a required field. -/
example : Marked (.seq (.object [(⟨some (chars! "a"), none⟩, .bool), (⟨some (chars! "b"), none⟩, .optional .any)]))
    (.seq (.object [(⟨some (chars! "a"), none⟩, .deprecated (chars! "gone") .bool),
      (⟨some (chars! "b"), none⟩, .optional (.deprecated (chars! "gone") .any))]) : Schema F) := by
  refine .seq (.object [(⟨some (chars! "a"), none⟩, .bool, .deprecated (chars! "gone") .bool),
    (⟨some (chars! "b"), none⟩, .optional .any, .optional (.deprecated (chars! "gone") .any))] ?_ ?_)
  · intro q hq
    simp only [List.mem_cons, List.not_mem_nil, or_false] at hq
    rcases hq with rfl | rfl
    · exact .wrap _ (.same _)
    · exact .optional (.wrap _ (.same _))
  · intro q hq ho
    simp only [List.mem_cons, List.not_mem_nil, or_false] at hq
    rcases hq with rfl | rfl
    · cases ho
    · constructor

/-- **C34** is false of the code in depth: marking an optional field as deprecated makes it required. -/
theorem C34_false_field (E : Env F) :
    let v := objV []
    (∃ r, validate E [] 2 v (.object [(⟨some (chars! "a"), none⟩, (.optional .bool : Schema F))]) [] = some r ∧
      r.isValid = true) ∧
    ∃ r, validate E [] 2 v (.object [(⟨some (chars! "a"), none⟩,
      (.deprecated (chars! "gone") (.optional .bool) : Schema F))]) [] = some r ∧ r.isValid = false :=
  ⟨⟨_, rfl, rfl⟩, ⟨_, rfl, rfl⟩⟩

/-- **C34** is false of the code in depth: marking a unit variant of an enum as deprecated makes it
unusable. -/
theorem C34_false_variant (E : Env F) :
    let v := tagV (chars! "old")
    (∃ r, validate E [] 2 v (.enum [(chars! "old", (.unit : Schema F))]) [] = some r ∧ r.isValid = true) ∧
    ∃ r, validate E [] 2 v (.enum [(chars! "old", (.deprecated (chars! "gone") .unit : Schema F))]) [] = some r ∧
      r.isValid = false :=
  ⟨⟨_, rfl, rfl⟩, ⟨_, rfl, rfl⟩⟩

/-- **C34** is false of the code in depth: inside a union the warning is lost. -/
theorem C34_false_warning (E : Env F) :
    validate E [] 3 (scalarV (chars! "x")) (.union [.deprecated (chars! "gone") (.string none)] : Schema F) [] =
      some ⟨[], []⟩ := rfl

/-! ## C35 -/

/-- **C35**: the distance computed is the edit distance. -/
theorem C35_distance (a b : List Char) : EditDistance a b (levenshtein a b) := levenshtein_distance a b

/-- `v` can be suggested for `unknown`: the number `n` of edits between them, case aside, is at most 2
and less than the length of `unknown` in bytes (at least 1). -/
def Candidate (lower : List Char → List Char) (unknown v : List Char) (n : Nat) : Prop :=
  EditDistance (lower unknown) (lower v) n ∧ n ≤ 2 ∧ n < max (utf8Len unknown) 1

theorem editDistance_unique {a b : List Char} {m n : Nat} (h : EditDistance a b m) (g : EditDistance a b n) :
    m = n := Nat.le_antisymm (h.2 _ g.1) (g.2 _ h.1)

/-- **C35**: the suggestion is one of the valid fields, a candidate, no farther than any other
candidate; and there is no suggestion exactly when there is no candidate. -/
theorem C35 (lower : List Char → List Char) (unknown : List Char) (valid : List (List Char)) :
    (∀ s, suggestSimilar lower unknown valid = some s →
      s ∈ valid ∧ ∃ n, Candidate lower unknown s n ∧ ∀ v ∈ valid, ∀ m, Candidate lower unknown v m → n ≤ m) ∧
    (suggestSimilar lower unknown valid = none ↔ ∀ v ∈ valid, ∀ m, ¬ Candidate lower unknown v m) := by
  have hc : ∀ v m, Candidate lower unknown v m ↔
      m = levenshtein (lower unknown) (lower v) ∧ m ≤ 2 ∧ m < max (utf8Len unknown) 1 := by
    intro v m
    constructor
    · rintro ⟨h, h1, h2⟩
      exact ⟨editDistance_unique h (levenshtein_distance _ _), h1, h2⟩
    · rintro ⟨rfl, h1, h2⟩
      exact ⟨levenshtein_distance _ _, h1, h2⟩
  have hm : ∀ (x : List Char × Nat), x ∈ (valid.filterMap fun v =>
      let dist := levenshtein (lower unknown) (lower v)
      if dist ≤ 2 ∧ dist < max (utf8Len unknown) 1 then some (v, dist) else none) ↔
      x.1 ∈ valid ∧ Candidate lower unknown x.1 x.2 := by
    rintro ⟨v, m⟩
    simp only [List.mem_filterMap, Option.ite_none_right_eq_some, Option.some.injEq, Prod.mk.injEq, hc]
    constructor
    · rintro ⟨w, hw, hd, rfl, rfl⟩
      exact ⟨hw, rfl, hd⟩
    · rintro ⟨hw, rfl, hd⟩
      exact ⟨v, hw, hd, rfl, rfl⟩
  constructor
  · intro s hs
    simp only [suggestSimilar, Option.map_eq_some_iff] at hs
    obtain ⟨⟨w, n⟩, hs, rfl⟩ := hs
    obtain ⟨before, after, he, h1, h2⟩ := minByDist_some hs
    have hx := (hm (w, n)).mp (by rw [he]; simp)
    refine ⟨hx.1, n, hx.2, ?_⟩
    intro v hv m hcm
    have := (hm (v, m)).mpr ⟨hv, hcm⟩
    rw [he] at this
    rcases List.mem_append.mp this with h | h
    · exact Nat.le_of_lt (h1 _ h)
    · rcases List.mem_cons.mp h with h | h
      · cases h; exact Nat.le_refl _
      · exact h2 _ h
  · constructor
    · intro hn v hv m hcm
      simp only [suggestSimilar, Option.map_eq_none_iff] at hn
      have h0 := minByDist_none hn
      have := (hm (v, m)).mpr ⟨hv, hcm⟩
      rw [h0] at this
      cases this
    · intro hn
      cases hs : suggestSimilar lower unknown valid with
      | none => rfl
      | some s =>
        exfalso
        simp only [suggestSimilar, Option.map_eq_some_iff] at hs
        obtain ⟨⟨w, n⟩, hs, rfl⟩ := hs
        obtain ⟨before, after, he, h1, h2⟩ := minByDist_some hs
        have hx := (hm (w, n)).mp (by rw [he]; simp)
        exact hn _ hx.1 _ hx.2

/-- A suggestion that needs two edits (a transposition), preferred to nothing and beaten by a nearer
one. -/
example : suggestSimilar id (chars! "nmae") [chars! "email", chars! "name", chars! "port"] = some (chars! "name") ∧
    suggestSimilar id (chars! "nmae") [chars! "name", chars! "mae"] = some (chars! "mae") ∧
    suggestSimilar id (chars! "nmae") [chars! "port"] = none := by decide +kernel

/-! ## C50 -/

/-- **C50** is false of the code: the same enum, listed in the two possible orders, accepts a value in
one and rejects it in the other. -/
theorem C50_false (E : Env F) :
    let long : List Char × Schema F := (chars! "long", .string (some ⟨some 5, none, none⟩))
    let count : List Char × Schema F := (chars! "count", .int none)
    let v := scalarV (chars! "42")
    SameSchema (.enum [long, count]) (.enum [count, long]) ∧
    (∃ r, validate E [] 2 v (.enum [long, count]) [] = some r ∧ r.isValid = false) ∧
    ∃ r, validate E [] 2 v (.enum [count, long]) [] = some r ∧ r.isValid = true := by
  refine ⟨?_, ⟨_, rfl, rfl⟩, ⟨_, rfl, rfl⟩⟩
  refine .enum [(chars! "long", .string (some ⟨some 5, none, none⟩), .string (some ⟨some 5, none, none⟩)),
    (chars! "count", .int none, .int none)] ?_ (.refl _) (.swap _ _ _)
  intro q hq
  simp only [List.mem_cons, List.not_mem_nil, or_false] at hq
  rcases hq with rfl | rfl <;> exact .same _

/-- **C50** is false of the code, catch-alls: with two of them, the first in iteration order decides. -/
theorem C50_false_catchAll (E : Env F) :
    let a : ObjectKey × Schema F := (⟨none, some (chars! "string")⟩, .int none)
    let b : ObjectKey × Schema F := (⟨none, some []⟩, .any)
    let v := objV [(scalarV (chars! "k"), scalarV (chars! "x"))]
    SameSchema (.object [a, b]) (.object [b, a]) ∧
    (∃ r, validate E [] 2 v (.object [a, b]) [] = some r ∧ r.isValid = false) ∧
    ∃ r, validate E [] 2 v (.object [b, a]) [] = some r ∧ r.isValid = true := by
  refine ⟨?_, ⟨_, rfl, rfl⟩, ⟨_, rfl, rfl⟩⟩
  refine .object [(⟨none, some (chars! "string")⟩, .int none, .int none), (⟨none, some []⟩, .any, .any)]
    ?_ (.refl _) (.swap _ _ _)
  intro q hq
  simp only [List.mem_cons, List.not_mem_nil, or_false] at hq
  rcases hq with rfl | rfl <;> exact .same _

/-- **C50**, partial: for schemas of the plain fragment the outcome does not depend on the order in
which the tables of the schema file are listed.  Missing: the other schemas, for which it is false. -/
theorem C50_partial {sf' : SchemaFile F} (hsf : SameFile sf sf') (hf : PlainFile sf) (hf' : PlainFile sf')
    {s s' : Schema F} (hs : SameSchema s s') (hp : Plain sf s) (hp' : Plain sf' s') (v : Value)
    (path : List Char) (n n' : Nat) (r r' : Result) (hr : validate E sf n v s path = some r)
    (hr' : validate E sf' n' v s' path = some r') : r.isValid = r'.isValid := by
  rw [Bool.eq_iff_iff, C30_partial (M := fun _ _ => True) hf v s hp path n r hr,
    C30_partial (M := fun _ _ => True) hf' v s' hp' path n' r' hr']
  exact ⟨fun h => conforms_same hsf h _ hs, fun h => conforms_same hsf.symm h _ hs.symm⟩

end Styx.Props
