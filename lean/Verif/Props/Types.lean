import Verif.Gen.TypeRefs
import Verif.Props.Schema

/-! # Property theorems C87: schemas generated from Rust types

`Verif.Gen.TypeSpec` is the specification: `Written` says how the values of a Rust type are written
in a document. -/

namespace Styx.Props

open Styx Styx.Schema Styx.TypeGen Styx.Spec

variable {F : Type} {E : Env F}

/-- **C87** (every document is accepted), for programs whose types have distinct names, whose
flattened fields are maps (one per struct), whose opaque types are known to be text, whose map keys
are scalars, and whose enum variants carry no payload that is written as unit: the schema generated
for a struct accepts every document that is a way of writing a value of the struct. -/
theorem C87_accepts_partial {prog : Program} {root : Nat} {d : TypeDef} {kind fs}
    (hp : PlainProgram prog) (hd : DescribableProgram E prog) (hr : prog[root]? = some d)
    (hb : d.body = .struct kind fs) {doc : Value}
    (hw : Written E false prog (.shape (.user root)) doc) :
    ∃ n r, r.errors = [] ∧ ∀ m, n ≤ m →
      validateDocument E (generate (F := F) prog root) m doc = some r := by
  obtain ⟨_, hc, hk⟩ := generate_faithful (F := F) hp.types hr
  obtain ⟨hroot, _, _⟩ := generate_ok F hr
  have hdo : DataOf d.body kind fs := by rw [hb]; exact .struct ..
  have hmem := List.mem_of_getElem? hr
  cases hw with
  | struct hi hb' hw =>
    rw [hr] at hi
    cases hi
    rw [hb] at hb'
    cases hb'
    obtain ⟨n, hn⟩ := written_accepted (F := F) hp hd hc hw
      (fun j hj => hk j (by rw [hb]; exact hj))
      ⟨fun f hf => hd.shapes d hmem _ _ hdo f hf, by rintro rfl; exact hp.fields d hmem _ hdo⟩
    obtain ⟨r, hrr, hv⟩ := hn []
    refine ⟨n, r, List.isEmpty_iff.mp hv, fun m hm => ?_⟩
    rw [validateDocument, hroot, hb]
    exact validate_mono hm _ _ _ _ hrr
  | variant hi hb' => rw [hr] at hi; cases hi; rw [hb] at hb'; cases hb'
  | variantText _ hi hb' => rw [hr] at hi; cases hi; rw [hb] at hb'; cases hb'
  | other _ hi hb' => rw [hr] at hi; cases hi; rw [hb] at hb'; cases hb'

/-- **C87** (nothing else is accepted), as far as the schema language goes: a document the generated
schema accepts is a way of writing a value of the struct, but for the ranges of its integers and for
tags outside enums. -/
theorem C87_rejects_partial {prog : Program} {root : Nat} {d : TypeDef} {kind fs}
    (hp : PlainProgram prog) (hd : DescribableProgram E prog) (hr : prog[root]? = some d)
    (hb : d.body = .struct kind fs) (hu : ∀ t ∈ prog, t.name ≠ chars! "unit") {doc : Value}
    {m : Nat} {r : Result}
    (h : validateDocument E (generate (F := F) prog root) m doc = some r) (hv : r.errors = []) :
    Written E true prog (.shape (.user root)) doc := by
  obtain ⟨hf, _, _⟩ := generate_faithful (F := F) hp.types hr
  obtain ⟨hroot, _, _⟩ := generate_ok F hr
  have hdo : DataOf d.body kind fs := by rw [hb]; exact .struct ..
  have hmem := List.mem_of_getElem? hr
  rw [validateDocument, hroot, hb] at h
  refine .struct hr hb (accepted_written hp hd hu hf m (.data kind fs) doc [] r ⟨?_, ?_⟩ h
    (List.isEmpty_iff.mpr hv))
  · exact fun f hf => hd.shapes d hmem _ _ hdo f hf
  · rintro rfl
    exact hp.fields d hmem _ hdo

/-- **C87** (the file is closed), for all programs: a name a generated schema file refers to is
defined in it, unless it is the name of an opaque type or of the type `Schema` itself. -/
theorem C87_closed (prog : Program) (root : Nat) {k : Option (List Char)} {s : Schema F} {n : List Char}
    (hm : (k, s) ∈ generate (F := F) prog root) (hn : RefersTo n s) :
    (∃ s', (some n, s') ∈ generate (F := F) prog root) ∨
      (∃ d ∈ prog, ∃ b, Mentions d (.opaque b n)) ∨
      n = chars! "Schema" ∧ ∃ d ∈ prog, ∃ j d', Mentions d (.user j) ∧ prog[j]? = some d' ∧
        d'.isSchema = true := by
  cases hr : prog[root]? with
  | none => simp [generate, hr] at hm
  | some d =>
    obtain ⟨_, hk, names, h2, h3⟩ := generate_ok F hr
    obtain ⟨i, c, hc, _, _, rfl, g⟩ := h2 k s (lookup_of_mem hk hm)
    have hcm := List.mem_of_getElem? hc
    rcases body_refers hn with ⟨j, hj, he⟩ | ⟨b, hb⟩ | ⟨rfl, j, d', h1, h2'⟩
    · left
      obtain ⟨m, hm', hme⟩ := g j hj
      rw [he] at hme
      cases hme
      obtain ⟨s', hs'⟩ := h3 n hm'
      exact ⟨s', lookup_mem hs'⟩
    · exact Or.inr (Or.inl ⟨c, hcm, b, hb⟩)
    · exact Or.inr (Or.inr ⟨rfl, c, hcm, j, d', h1, h2'⟩)

/-- **C87** (only what is needed), for all programs: the generated file has one root, and every other
definition is that of a type used by the root, directly or not, under its name; no name is defined
twice. -/
theorem C87_reachable (prog : Program) {root : Nat} {d : TypeDef} (hr : prog[root]? = some d) :
    (∃ s, (none, s) ∈ generate (F := F) prog root) ∧ DistinctKeys (generate (F := F) prog root) ∧
      ∀ n s, (some n, s) ∈ generate (F := F) prog root →
        ∃ i c, Reachable prog root i ∧ prog[i]? = some c ∧ c.name = n ∧ c.isSchema = false := by
  obtain ⟨h1, hk, names, h2, h3⟩ := generate_ok F hr
  refine ⟨⟨_, lookup_mem h1⟩, hk, ?_⟩
  intro n s hm
  obtain ⟨i, c, hc, hre, hh, _, _⟩ := h2 _ _ (lookup_of_mem hk hm)
  rcases hh with ⟨h, _⟩ | ⟨h, hs⟩
  · cases h
  · exact ⟨i, c, hre, hc, (Option.some.inj h).symm, hs⟩

/-! Concrete cases. -/

theorem dataOf_struct {k kind fs gs} : DataOf (.struct k gs) kind fs ↔ k = kind ∧ gs = fs := by
  constructor
  · intro h; cases h; exact ⟨rfl, rfl⟩
  · rintro ⟨rfl, rfl⟩; exact .struct ..

theorem dataOf_enum {vs kind fs} :
    DataOf (.enum vs) kind fs ↔ ∃ w ∈ vs, w.kind = kind ∧ w.fields = fs := by
  constructor
  · intro h; cases h with | variant hw => exact ⟨_, hw, rfl, rfl⟩
  · rintro ⟨w, hw, rfl, rfl⟩; exact .variant hw

/-- `String`. -/
abbrev stringShape : Shape := .opaque true (chars! "String")

/-- The variant `Range(u8, bool)`. -/
def rangeVariant : Variant :=
  ⟨chars! "range", false, .tuple, [{ name := chars! "0", shape := .int 0 255 },
    { name := chars! "1", shape := .bool }]⟩

/-- A server: a name, a port with a default, perhaps certificates (a list linked by boxes), a mode,
and any further numbers. -/
def serverProgram : Program :=
  [{ name := chars! "Server", body := .struct .struct
      [{ name := chars! "name", shape := stringShape },
       { name := chars! "port", shape := .int 0 65535, default := some (chars! "8080") },
       { name := chars! "tls", shape := .option (.user 1) },
       { name := chars! "mode", shape := .user 2 },
       { name := chars! "limits", shape := .map stringShape (.int (-(2 ^ 63)) (2 ^ 63 - 1)),
         flatten := true }] },
   { name := chars! "Tls", body := .struct .struct
      [{ name := chars! "cert", shape := stringShape },
       { name := chars! "next", shape := .option (.pointer (.user 1)) }] },
   { name := chars! "Mode", body := .enum
      [{ name := chars! "fast", kind := .unit, fields := [] },
       { name := chars! "other", kind := .tuple, fields := [{ name := chars! "0", shape := stringShape }] },
       { name := chars! "range", kind := .tuple,
         fields := [{ name := chars! "0", shape := .int 0 255 }, { name := chars! "1", shape := .bool }] },
       { name := chars! "slow", kind := .struct,
         fields := [{ name := chars! "why", shape := .list stringShape }] }] }]

/-- `name web, tls {cert a, next {cert b}}, mode @range(7 true), cpu 4`. -/
def serverDoc : Value :=
  objV [(scalarV (chars! "name"), scalarV (chars! "web")),
    (scalarV (chars! "tls"), objV [(scalarV (chars! "cert"), scalarV (chars! "a")),
      (scalarV (chars! "next"), objV [(scalarV (chars! "cert"), scalarV (chars! "b"))])]),
    (scalarV (chars! "mode"), .mk (some ⟨chars! "range", none⟩)
      (some (.sequence [scalarV (chars! "7"), scalarV (chars! "true")] none)) none),
    (scalarV (chars! "cpu"), scalarV (chars! "4"))]

theorem serverProgram_plain : PlainProgram serverProgram := by
  refine ⟨by unfold DistinctTypes; decide, ?_, ?_⟩
  · intro d hd fs h
    simp only [serverProgram, List.mem_cons, List.not_mem_nil, or_false] at hd
    rcases hd with rfl | rfl | rfl
    · obtain ⟨_, rfl⟩ := dataOf_struct.mp h
      refine ⟨by decide, by decide, ?_, by decide⟩
      intro f hf hfl
      simp only [List.mem_cons, List.not_mem_nil, or_false] at hf
      rcases hf with rfl | rfl | rfl | rfl | rfl
      · cases hfl
      · cases hfl
      · cases hfl
      · cases hfl
      · exact ⟨_, _, .here _⟩
    · obtain ⟨_, rfl⟩ := dataOf_struct.mp h
      refine ⟨by decide, by decide, ?_, by decide⟩
      intro f hf hfl
      simp only [List.mem_cons, List.not_mem_nil, or_false] at hf
      rcases hf with rfl | rfl <;> cases hfl
    · obtain ⟨w, hw, hk, rfl⟩ := dataOf_enum.mp h
      simp only [List.mem_cons, List.not_mem_nil, or_false] at hw
      rcases hw with rfl | rfl | rfl | rfl
      · cases hk
      · cases hk
      · cases hk
      · refine ⟨by decide, by decide, ?_, by decide⟩
        intro f hf hfl
        obtain rfl := List.mem_singleton.mp hf
        cases hfl
  · intro d hd vs h
    simp only [serverProgram, List.mem_cons, List.not_mem_nil, or_false] at hd
    rcases hd with rfl | rfl | rfl
    · cases h
    · cases h
    · cases h; decide

theorem not_unit_text {v : Value} {t : List Char} (h : HasText v t) : ¬ IsUnitValue v := by
  rintro ⟨_, rfl⟩
  obtain ⟨_, _, _, _, h⟩ := h
  cases h

theorem serverProgram_describable (E : Env F) : DescribableProgram E serverProgram := by
  refine ⟨?_, ?_⟩
  · intro d hd kind fs h f hf
    simp only [serverProgram, List.mem_cons, List.not_mem_nil, or_false] at hd
    have hs : (chars! "String") ∈ textTypes := by decide
    rcases hd with rfl | rfl | rfl
    · obtain ⟨_, rfl⟩ := dataOf_struct.mp h
      simp only [List.mem_cons, List.not_mem_nil, or_false] at hf
      rcases hf with rfl | rfl | rfl | rfl | rfl
      · exact ⟨rfl, hs⟩
      · exact ⟨by decide, by decide⟩
      · exact ⟨_, rfl, rfl⟩
      · exact ⟨_, rfl, rfl⟩
      · exact ⟨.opaque .., ⟨rfl, hs⟩, by decide, by decide⟩
    · obtain ⟨_, rfl⟩ := dataOf_struct.mp h
      simp only [List.mem_cons, List.not_mem_nil, or_false] at hf
      rcases hf with rfl | rfl
      · exact ⟨rfl, hs⟩
      · exact ⟨_, rfl, rfl⟩
    · obtain ⟨w, hw, _, rfl⟩ := dataOf_enum.mp h
      simp only [List.mem_cons, List.not_mem_nil, or_false] at hw
      rcases hw with rfl | rfl | rfl | rfl
      · cases hf
      · obtain rfl := List.mem_singleton.mp hf
        exact ⟨rfl, hs⟩
      · simp only [List.mem_cons, List.not_mem_nil, or_false] at hf
        rcases hf with rfl | rfl
        · exact ⟨by decide, by decide⟩
        · trivial
      · obtain rfl := List.mem_singleton.mp hf
        exact ⟨rfl, hs⟩
  · intro d hd vs w f hb hw hk hfs v hv hwr
    simp only [serverProgram, List.mem_cons, List.not_mem_nil, or_false] at hd
    rcases hd with rfl | rfl | rfl
    · cases hb
    · cases hb
    · cases hb
      simp only [List.mem_cons, List.not_mem_nil, or_false] at hw
      rcases hw with rfl | rfl | rfl | rfl
      · cases hk
      · cases hfs
        cases hwr with | «opaque» _ h => exact not_unit_text h hv
      · cases hfs
      · cases hk

theorem hasText_scalarV (t : List Char) : HasText (scalarV t) t := ⟨_, _, _, _, rfl⟩

theorem keyIs_scalarV (t : List Char) (v : Value) : KeyIs (.mk (scalarV t) v none) t :=
  ⟨_, _, _, rfl⟩

theorem shape_string (E : Env F) (b : Bool) (prog : Program) (t : List Char) :
    Written E b prog (.shape stringShape) (scalarV t) := .opaque (Or.inr rfl) (hasText_scalarV t)

/-- The document is a way of writing a server. -/
theorem serverDoc_written (E : Env F) : Written E false serverProgram (.shape (.user 0)) serverDoc := by
  have own : ∀ {fs : List Field} {f : Field} {e : Entry}, f ∈ fs → f.flatten = false →
      KeyIs e f.name → EntryOf serverProgram fs e f.shape := fun h1 h2 h3 => .named h3 (.own h1 h2)
  have tls : ∀ (t : List Char) (es : List (Value × Value)),
      (es = [] ∨ ∃ v, es = [(scalarV (chars! "next"), v)] ∧
        Written E false serverProgram (.shape (.user 1)) v) →
      Written E false serverProgram (.shape (.user 1))
        (objV ((scalarV (chars! "cert"), scalarV t) :: es)) := by
    intro t es hes
    refine .struct (d := serverProgram[1]) rfl rfl (.fields (fun e => if e.key.asStr = some (chars! "cert")
      then stringShape else .option (.pointer (.user 1))) (Or.inr rfl) ⟨_, _, _, rfl⟩ ?_ ?_ ?_)
    · intro e he
      rcases hes with rfl | ⟨v, rfl, hv⟩
      · obtain rfl := List.mem_singleton.mp he
        exact own (f := { name := chars! "cert", shape := stringShape }) (by simp) rfl (keyIs_scalarV ..)
      · rcases List.mem_cons.mp he with rfl | he
        · exact own (f := { name := chars! "cert", shape := stringShape }) (by simp) rfl (keyIs_scalarV ..)
        · obtain rfl := List.mem_singleton.mp he
          exact own (f := { name := chars! "next", shape := .option (.pointer (.user 1)) }) (by simp) rfl
            (keyIs_scalarV ..)
    · intro e he
      rcases hes with rfl | ⟨v, rfl, hv⟩
      · obtain rfl := List.mem_singleton.mp he
        exact shape_string ..
      · rcases List.mem_cons.mp he with rfl | he
        · exact shape_string ..
        · obtain rfl := List.mem_singleton.mp he
          exact .some (.pointer hv)
    · intro f hf hno
      obtain ⟨hm, _⟩ := (fieldOf_iff (serverProgram_plain.fields serverProgram[1] (by decide) _
        (by exact .struct ..))).mp hf
      simp only [List.mem_cons, List.not_mem_nil, or_false] at hm
      rcases hm with rfl | rfl
      · exact ⟨_, List.mem_cons_self .., keyIs_scalarV ..⟩
      · exact absurd (Or.inr ⟨_, .here _⟩) hno
  refine .struct (d := serverProgram[0]) rfl rfl (.fields (fun e =>
    if e.key.asStr = some (chars! "name") then stringShape
    else if e.key.asStr = some (chars! "tls") then .option (.user 1)
    else if e.key.asStr = some (chars! "mode") then .user 2
    else .int (-(2 ^ 63)) (2 ^ 63 - 1)) (Or.inr rfl) ⟨_, _, _, rfl⟩ ?_ ?_ ?_)
  · intro e he
    simp only [List.map_cons, List.map_nil, List.mem_cons, List.not_mem_nil, or_false] at he
    rcases he with rfl | rfl | rfl | rfl
    · exact own (f := { name := chars! "name", shape := stringShape }) (by simp) rfl (keyIs_scalarV ..)
    · exact own (f := { name := chars! "tls", shape := .option (.user 1) }) (by simp) rfl
        (keyIs_scalarV ..)
    · exact own (f := { name := chars! "mode", shape := .user 2 }) (by simp) rfl (keyIs_scalarV ..)
    · refine .rest (n := chars! "cpu") (keyIs_scalarV ..) ?_
        (.own (f := { name := chars! "limits", shape := .map stringShape (.int (-(2 ^ 63)) (2 ^ 63 - 1)), flatten := true })
          (by simp) rfl (.here _))
      intro f hf
      obtain ⟨hm, hfl⟩ := (fieldOf_iff (serverProgram_plain.fields serverProgram[0] (by decide) _
        (by exact .struct ..))).mp hf
      simp only [List.mem_cons, List.not_mem_nil, or_false] at hm
      rcases hm with rfl | rfl | rfl | rfl | rfl
      · decide
      · decide
      · decide
      · decide
      · cases hfl
  · intro e he
    simp only [List.map_cons, List.map_nil, List.mem_cons, List.not_mem_nil, or_false] at he
    rcases he with rfl | rfl | rfl | rfl
    · exact shape_string ..
    · exact .some (tls _ _ (Or.inr ⟨_, rfl, tls _ [] (Or.inl rfl)⟩))
    · refine .variant (d := serverProgram[2]) rfl rfl (w := rangeVariant)
         (by simp [rangeVariant]) rfl rfl (.tuple (by decide) (Or.inr rfl) ⟨_, _, _, rfl⟩ rfl ?_)
      intro p hp
      simp only [rangeVariant, List.zip_cons_cons, List.zip_nil_right, List.mem_cons, List.not_mem_nil, or_false] at hp
      rcases hp with rfl | rfl
      · exact .int (n := 7) (Or.inr rfl) (hasText_scalarV _)
          ⟨chars! "7", by decide, by decide, Or.inl ⟨rfl, rfl⟩⟩ (by decide)
      · exact .bool (Or.inr rfl) (hasText_scalarV _) (Or.inl rfl)
    · exact .int (n := 4) (Or.inr rfl) (hasText_scalarV _)
          ⟨chars! "4", by decide, by decide, Or.inl ⟨rfl, rfl⟩⟩ (by decide)
  · intro f hf hno
    obtain ⟨hm, hfl⟩ := (fieldOf_iff (serverProgram_plain.fields serverProgram[0] (by decide) _
      (by exact .struct ..))).mp hf
    simp only [List.mem_cons, List.not_mem_nil, or_false] at hm
    rcases hm with rfl | rfl | rfl | rfl | rfl
    · exact ⟨_, List.mem_cons_self .., keyIs_scalarV ..⟩
    · exact absurd (Or.inl (by simp)) hno
    · exact absurd (Or.inr ⟨_, .here _⟩) hno
    · exact ⟨_, List.mem_cons_of_mem _ (List.mem_cons_of_mem _ (List.mem_cons_self ..)), keyIs_scalarV ..⟩
    · cases hfl

/-- The hypotheses of `C87_accepts_partial` hold of the server and its document. -/
example (E : Env F) : ∃ n r, r.errors = [] ∧ ∀ m, n ≤ m →
    validateDocument E (generate (F := F) serverProgram 0) m serverDoc = some r :=
  C87_accepts_partial serverProgram_plain (serverProgram_describable E) rfl rfl (serverDoc_written E)

/-- Those of `C87_rejects_partial` too; the schema rejects the document without its `mode`. -/
example (m : Nat) (r : Result)
    (h : validateDocument noFloats (generate serverProgram 0) m serverDoc = some r) (hv : r.errors = []) :
    Written noFloats true serverProgram (.shape (.user 0)) serverDoc :=
  C87_rejects_partial serverProgram_plain (serverProgram_describable _) rfl rfl (by decide) h hv

example : ((validateDocument noFloats (generate serverProgram 0) 9 serverDoc).map (·.errors),
      (validateDocument noFloats (generate serverProgram 0) 9
        (objV [(scalarV (chars! "name"), scalarV (chars! "web"))])).map fun r => r.errors.map (·.kind)) =
    (some [], some [.missingField (chars! "mode")]) := by decide +kernel

/-- The file for the server defines its two other types. -/
example : (generate (F := Unit) serverProgram 0).map (·.1) =
    [none, some (chars! "Mode"), some (chars! "Tls")] := by decide +kernel

/-! ## Where the property fails -/

/-- **C87** fails of flattened structs: the schema for the example of the documentation (section
"Flatten": a `User` flattened into an `Admin`) rejects the document of the example, because a struct
always becomes a reference, and a flattened reference becomes a catch-all. -/
def adminProgram : Program :=
  [{ name := chars! "Admin", body := .struct .struct
      [{ name := chars! "user", shape := .user 1, flatten := true },
       { name := chars! "perms", shape := .list stringShape }] },
   { name := chars! "User", body := .struct .struct
      [{ name := chars! "name", shape := stringShape }, { name := chars! "email", shape := stringShape }] }]

/-- `name Alice, email a, perms (read write)`. -/
def flattenedDoc : Value :=
  objV [(scalarV (chars! "name"), scalarV (chars! "Alice")),
    (scalarV (chars! "email"), scalarV (chars! "a")),
    (scalarV (chars! "perms"), seqV [scalarV (chars! "read"), scalarV (chars! "write")])]

theorem C87_flatten_false : Written noFloats false adminProgram (.shape (.user 0)) flattenedDoc ∧
    (validateDocument noFloats (generate adminProgram 0) 9 flattenedDoc).map
      (fun r => r.errors.map (·.kind)) = some [.expectedObject, .expectedObject] := by
  refine ⟨?_, by decide +kernel⟩
  have user : ∀ {n : List Char}, n = chars! "name" ∨ n = chars! "email" →
      FieldOf adminProgram _ { name := n, shape := stringShape } := fun {n} h =>
    .inline (fs := [{ name := chars! "user", shape := .user 1, flatten := true },
        { name := chars! "perms", shape := .list stringShape }])
      (f := { name := chars! "user", shape := .user 1, flatten := true }) (by simp) rfl (.here _)
      (d := adminProgram[1]) rfl rfl (.own (by rcases h with rfl | rfl <;> simp) rfl)
  refine .struct (d := adminProgram[0]) rfl rfl (.fields (fun e =>
    if e.key.asStr = some (chars! "perms") then .list stringShape else stringShape)
    (Or.inr rfl) ⟨_, _, _, rfl⟩ ?_ ?_ ?_)
  · intro e he
    simp only [List.map_cons, List.map_nil, List.mem_cons, List.not_mem_nil, or_false] at he
    rcases he with rfl | rfl | rfl
    · exact .named (keyIs_scalarV ..) (user (Or.inl rfl))
    · exact .named (keyIs_scalarV ..) (user (Or.inr rfl))
    · exact .named (f := { name := chars! "perms", shape := .list stringShape }) (keyIs_scalarV ..)
        (.own (by simp) rfl)
  · intro e he
    simp only [List.map_cons, List.map_nil, List.mem_cons, List.not_mem_nil, or_false] at he
    rcases he with rfl | rfl | rfl
    · exact shape_string ..
    · exact shape_string ..
    · refine .list (Or.inr rfl) ⟨_, _, _, rfl⟩ ?_
      intro x hx
      simp only [List.mem_cons, List.not_mem_nil, or_false] at hx
      rcases hx with rfl | rfl <;> exact shape_string ..
  · intro f hf hno
    have : f.name = chars! "name" ∨ f.name = chars! "email" ∨ f.name = chars! "perms" := by
      cases hf with
      | own hm hfl =>
        simp only [List.mem_cons, List.not_mem_nil, or_false] at hm
        rcases hm with rfl | rfl
        · cases hfl
        · simp
      | inline hm hfl hpl hi hb hg =>
        simp only [List.mem_cons, List.not_mem_nil, or_false] at hm
        rcases hm with rfl | rfl
        · cases hpl
          cases hi
          cases hb
          cases hg with
          | own hm hfl =>
            simp only [List.mem_cons, List.not_mem_nil, or_false] at hm
            rcases hm with rfl | rfl <;> simp
          | inline hm hfl =>
            simp only [List.mem_cons, List.not_mem_nil, or_false] at hm
            rcases hm with rfl | rfl <;> cases hfl
        · cases hfl
    simp only [List.map_cons, List.map_nil, List.mem_cons, List.not_mem_nil, or_false,
      exists_eq_or_imp, exists_eq_left]
    rcases this with h | h | h <;> rw [h]
    · exact Or.inl (keyIs_scalarV ..)
    · exact Or.inr (Or.inl (keyIs_scalarV ..))
    · exact Or.inr (Or.inr (keyIs_scalarV ..))

/-- A program with one struct `T`, with one field `a` of this shape, and other types. -/
def oneField (s : Shape) (others : Program := []) : Program :=
  { name := chars! "T", body := .struct .struct [{ name := chars! "a", shape := s }] } :: others

/-- A struct with one field without name. -/
def newtypeDef (name : List Char) (s : Shape) : TypeDef :=
  { name := name, body := .struct .tuple [{ name := chars! "0", shape := s }] }

/-- An enum with these variants. -/
def enumDef (name : List Char) (vs : List Variant) (isSchema : Bool := false) : TypeDef :=
  { name := name, isSchema := isSchema, body := .enum vs }

/-- The document with one entry `a`. -/
def oneEntry (v : Value) : Value := objV [(scalarV (chars! "a"), v)]

theorem oneEntry_written (E : Env F) (s : Shape) (others : Program) (v : Value)
    (h : Written E false (oneField s others) (.shape s) v) :
    Written E false (oneField s others) (.shape (.user 0)) (oneEntry v) := by
  have hpf : ∀ {f : Field}, FieldOf (oneField s others) [{ name := chars! "a", shape := s }] f →
      f = { name := chars! "a", shape := s } := by
    intro f hf
    cases hf with
    | own hm _ => exact List.mem_singleton.mp hm
    | inline hm hfl => obtain rfl := List.mem_singleton.mp hm; cases hfl
  refine .struct (d := { name := chars! "T", body := .struct .struct [{ name := chars! "a", shape := s }] })
    rfl rfl (.fields (fun _ => s) (Or.inr rfl) ⟨_, _, _, rfl⟩ ?_ ?_ ?_)
  · intro e he
    obtain rfl := List.mem_singleton.mp he
    exact .named (f := { name := chars! "a", shape := s }) (keyIs_scalarV ..) (.own (by simp) rfl)
  · intro e he
    obtain rfl := List.mem_singleton.mp he
    exact h
  · intro f hf _
    obtain rfl := hpf hf
    exact ⟨_, List.mem_singleton_self _, keyIs_scalarV ..⟩

/-- The schema generated for the one struct rejects the document. -/
def Rejected (prog : Program) (doc : Value) : Prop :=
  ∃ r, r.errors ≠ [] ∧ ∃ n, ∀ m, n ≤ m → validateDocument noFloats (generate prog 0) m doc = some r

theorem rejected_of {prog : Program} {doc : Value} {r : Result} (n : Nat)
    (h : validateDocument noFloats (generate prog 0) n doc = some r) (he : r.errors ≠ []) :
    Rejected prog doc := by
  refine ⟨r, he, n, fun m hm => ?_⟩
  rw [validateDocument] at h ⊢
  split at h
  · exact validate_mono hm _ _ _ _ h
  · exact h

/-- **C87** fails of two types with the same name, as in different modules: one definition is lost,
and values of the other type are rejected. -/
theorem C87_same_name_false :
    let prog := oneField (.list (.result (.user 1) (.user 2)))
      [{ name := chars! "Point", body := .struct .unit [] },
       newtypeDef (chars! "Point") .str]
    let v := seqV [.mk (some ⟨chars! "err", none⟩) (some (.scalar (chars! "x") .bare none)) none]
    Written noFloats false prog (.shape (.user 0)) (oneEntry v) ∧ Rejected prog (oneEntry v) := by
  refine ⟨oneEntry_written _ _ _ _ (.list (Or.inr rfl) ⟨_, _, _, rfl⟩ ?_),
    rejected_of 9 rfl (by decide)⟩
  intro x hx
  obtain rfl := List.mem_singleton.mp hx
  exact .err rfl (.struct (d := newtypeDef (chars! "Point") .str) rfl rfl
    (.newtype (.str (Or.inr rfl) ⟨_, _, _, _, rfl⟩)))

/-- **C87** fails of opaque types that are not among the known ones, such as `Ulid`: the
schema refers to a type that is not defined, and rejects every value. -/
theorem C87_opaque_false :
    let prog := oneField (.opaque true (chars! "Ulid"))
    Written noFloats false prog (.shape (.user 0)) (oneEntry (scalarV (chars! "01X"))) ∧
      Rejected prog (oneEntry (scalarV (chars! "01X"))) :=
  ⟨oneEntry_written _ _ _ _ (.opaque (Or.inr rfl) (hasText_scalarV _)), rejected_of 9 rfl (by decide)⟩

/-- **C87** fails of `u128`: 2¹²⁷ is rejected. -/
theorem C87_u128_false :
    let prog := oneField (.int 0 (2 ^ 128 - 1))
    let v := scalarV (chars! "170141183460469231731687303715884105728")
    Written noFloats false prog (.shape (.user 0)) (oneEntry v) ∧ Rejected prog (oneEntry v) := by
  refine ⟨oneEntry_written _ _ _ _ (.int (n := 2 ^ 127) (Or.inr rfl) (hasText_scalarV _)
    ⟨_, ?_, ?_, Or.inl ⟨rfl, ?_⟩⟩ (by decide)), rejected_of 9 rfl (by decide +kernel)⟩
  · decide
  · decide
  · decide +kernel

/-- **C87** fails of maps with optional keys: the key `@`, the way `None` is written, is rejected. The
type `SchemaFile` of the schema language is such a type. -/
theorem C87_key_false :
    let prog := oneField (.map (.option .str) .str)
    let v := objV [(unitV, scalarV (chars! "x"))]
    Written noFloats false prog (.shape (.user 0)) (oneEntry v) ∧ Rejected prog (oneEntry v) := by
  refine ⟨oneEntry_written _ _ _ _ (.map (Or.inr rfl) ⟨_, _, _, rfl⟩ ?_ ?_), rejected_of 9 rfl (by decide)⟩
  · intro e he
    obtain rfl := List.mem_singleton.mp he
    exact .none ⟨_, rfl⟩
  · intro e he
    obtain rfl := List.mem_singleton.mp he
    exact .str (Or.inr rfl) (hasText_scalarV _)

/-- **C87** fails of variants with an optional payload: the variant written without payload is
rejected. -/
theorem C87_payload_false :
    let prog := oneField (.user 1) [enumDef (chars! "Kind")
      [⟨chars! "text", false, .tuple, [{ name := chars! "0", shape := .option .str }]⟩]]
    Written noFloats false prog (.shape (.user 0)) (oneEntry (tagV (chars! "text"))) ∧
      Rejected prog (oneEntry (tagV (chars! "text"))) :=
  ⟨oneEntry_written _ _ _ _ (.variant rfl rfl (List.mem_singleton_self _) rfl rfl
    (.newtype (.none ⟨_, rfl⟩))), rejected_of 9 rfl (by decide)⟩

/-- **C87** fails of types that use the type `Schema`: the schema refers to `@Schema`, which the file
does not define. -/
theorem C87_schema_false :
    let prog := oneField (.user 1) [enumDef (chars! "Schema") [⟨chars! "unit", false, .unit, []⟩] true]
    Written noFloats false prog (.shape (.user 0)) (oneEntry (tagV (chars! "unit"))) ∧
      Rejected prog (oneEntry (tagV (chars! "unit"))) :=
  ⟨oneEntry_written _ _ _ _ (.variant rfl rfl (List.mem_singleton_self _) rfl rfl
    (.unit ⟨_, rfl⟩)), rejected_of 9 rfl (by decide)⟩

/-- The converse without looseness fails: a `u8` takes 300. -/
theorem C87_range_false :
    let prog := oneField (.int 0 255)
    (∃ r, r.errors = [] ∧ validateDocument noFloats (generate prog 0) 9
      (oneEntry (scalarV (chars! "300"))) = some r) ∧
    ¬ Written noFloats false prog (.shape (.user 0)) (oneEntry (scalarV (chars! "300"))) := by
  refine ⟨⟨_, by decide, rfl⟩, ?_⟩
  intro h
  cases h with
  | struct hi hb h =>
    cases hi
    cases hb
    cases h with
    | fields shapeOf _ he hent hw _ =>
      obtain ⟨_, _, _, he⟩ := he
      cases he
      have h1 := hent _ (List.mem_singleton_self _)
      have h2 := hw _ (List.mem_singleton_self _)
      have hs : shapeOf (.mk (scalarV (chars! "a")) (scalarV (chars! "300")) none) = .int 0 255 := by
        generalize shapeOf (.mk (scalarV (chars! "a")) (scalarV (chars! "300")) none) = s at h1
        cases h1 with
        | named _ hf =>
          cases hf with
          | own hm _ => obtain rfl := List.mem_singleton.mp hm; rfl
          | inline hm hfl => obtain rfl := List.mem_singleton.mp hm; cases hfl
        | rest _ _ hr =>
          cases hr with
          | own hm hfl => obtain rfl := List.mem_singleton.mp hm; cases hfl
          | inline hm hfl => obtain rfl := List.mem_singleton.mp hm; cases hfl
        | unitKey hu => obtain ⟨_, hu⟩ := hu; cases hu
      rw [hs] at h2
      cases h2 with
      | int _ ht hi hr =>
        obtain rfl := (hasText_scalarV (chars! "300")).unique ht
        have : IsInt (chars! "300") 300 := ⟨chars! "300", by decide, by decide, Or.inl ⟨rfl, rfl⟩⟩
        obtain rfl := hi.unique this
        have := hr rfl
        omega
  | variantText _ hi hb => cases hi; cases hb
  | other _ hi hb => cases hi; cases hb

/-- A type that is itself behind an `Option` makes the validator run without end: the schema for a
struct with a field of type `struct Chain(Option<Box<Chain>>)` decides no value of the field but
unit. -/
theorem C87_endless :
    let prog := oneField (.user 1) [newtypeDef (chars! "Chain") (.option (.pointer (.user 1)))]
    ∀ n v, ¬ IsUnitValue v → validateDocument noFloats (generate prog 0) n (oneEntry v) = none := by
  intro prog n v hv
  have hu : v.isUnit = false := Bool.eq_false_iff.mpr fun h => hv (isUnit_iff.mp h)
  have chain : ∀ n p, validate noFloats (generate prog 0) n v (.type (some (chars! "Chain"))) p = none := by
    intro n
    induction n using Nat.strongRecOn with
    | ind n ih =>
      intro p
      match n, ih with
      | 0, _ => rfl
      | 1, _ => rfl
      | n + 2, ih =>
        show (if v.isUnit = true then some Result.ok else _) = none
        rw [if_neg (by simp [hu])]
        exact ih n (by omega) p
  match n with
  | 0 => rfl
  | n + 1 =>
    have h := chain n (chars! "a")
    show ((validate noFloats (generate prog 0) n v
      (.type (some (chars! "Chain"))) (chars! "a")).bind _).map _ = none
    rw [h]
    rfl

end Styx.Props
