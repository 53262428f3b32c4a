import Verif.Gen.TypeModel
import Verif.Schema.Spec

/-!
# Specification: how the values of a Rust type are written

Written after docs/content/reference/bindings/rust.md and the tests of facet-styx.  Uses the data
types of the model and none of its functions.

`Written E loose prog form v` says that the value `v` of a document is a way of writing a value of the
Rust type described by `form`.  With `loose = false` it is what the serializer writes and the
deserializer reads.  With `loose = true` it is what is left of that when the schema language cannot
say more, or the validator does not look:

* an integer is any integer, a `char` is any text, and a type that cannot be described is anything;
* the tag of a value only matters to enums;
* an untagged scalar stands for a variant of an enum that holds such a scalar;
* the uninhabited type is unit.

On both sides the keys of flattened maps are any text or unit, an enum with a `#[facet(other)]` variant is
anything, and the texts of opaque types such as `Uuid` are any text.  `Vec<u8>` written as
hexadecimal digits (section "Bytes (hex)") is left out.
-/

namespace Styx.Spec

open Styx.TypeGen (Shape Field StructKind Variant Body TypeDef Program)
open Styx.Schema (Env Schema SchemaFile HasText HasItems HasEntries IsUnitValue KeyIs IsInt)

/-- The opaque types whose values are written as text. -/
def textTypes : List (List Char) :=
  [chars! "String", chars! "str", chars! "Cow", chars! "PathBuf", chars! "Path", chars! "OsString",
    chars! "OsStr", chars! "Url", chars! "Uri", chars! "Uuid", chars! "Duration",
    chars! "SystemTime", chars! "Instant", chars! "IpAddr", chars! "Ipv4Addr", chars! "Ipv6Addr",
    chars! "SocketAddr", chars! "SocketAddrV4", chars! "SocketAddrV6"]

/-- A shape behind pointers and documentation is the shape itself. -/
inductive Plainly : Shape → Shape → Prop where
  | here (s) : Plainly s s
  | pointer {s t} : Plainly s t → Plainly (.pointer s) t
  | documented {s t} : Plainly s t → Plainly (.documented s) t

/-- The named fields of a struct, those of flattened structs included (section "Flatten"). -/
inductive FieldOf (prog : Program) : List Field → Field → Prop where
  | own {fs f} : f ∈ fs → f.flatten = false → FieldOf prog fs f
  | inline {fs f i d inner g} : f ∈ fs → f.flatten = true → Plainly f.shape (.user i) →
      prog[i]? = some d → d.body = .struct .struct inner → FieldOf prog inner g → FieldOf prog fs g

/-- A flattened map of the struct with values of this shape: it takes the fields with other names. -/
inductive RestOf (prog : Program) : List Field → Shape → Prop where
  | own {fs f k v} : f ∈ fs → f.flatten = true → Plainly f.shape (.map k v) → RestOf prog fs v
  | inline {fs f i d inner v} : f ∈ fs → f.flatten = true → Plainly f.shape (.user i) →
      prog[i]? = some d → d.body = .struct .struct inner → RestOf prog inner v → RestOf prog fs v

/-- The value of an entry of a struct has this shape. -/
inductive EntryOf (prog : Program) (fs : List Field) (e : Entry) : Shape → Prop where
  | named {f} : KeyIs e f.name → FieldOf prog fs f → EntryOf prog fs e f.shape
  | rest {n v} : KeyIs e n → (∀ f, FieldOf prog fs f → f.name ≠ n) → RestOf prog fs v →
      EntryOf prog fs e v
  | unitKey {v} : IsUnitValue e.key → RestOf prog fs v → EntryOf prog fs e v

/-- The field need not be written: it has a default, or its type is an `Option`. -/
def MayOmit (f : Field) : Prop := f.default ≠ none ∨ ∃ t, Plainly f.shape (.option t)

/-- What is written: a value of a shape, or the data of a struct or a variant. -/
inductive Form where
  | shape (s : Shape)
  | data (kind : StructKind) (fields : List Field)

/-- The value carries no tag, where that matters. -/
def TagOk (loose : Bool) (v : Value) : Prop := loose = true ∨ v.tag = none

/-- The value `v` is a way of writing a value of the type `form`. -/
inductive Written {F : Type} (E : Env F) (loose : Bool) (prog : Program) : Form → Value → Prop where
  | bool {v t} : TagOk loose v → HasText v t → (t = chars! "true" ∨ t = chars! "false") →
      Written E loose prog (.shape .bool) v
  | int {lo hi v t n} : TagOk loose v → HasText v t → IsInt t n →
      (loose = false → lo ≤ n ∧ n ≤ hi) → Written E loose prog (.shape (.int lo hi)) v
  | float {v t x} : TagOk loose v → HasText v t → E.parseF t = some x →
      Written E loose prog (.shape .float) v
  | char {v t} : TagOk loose v → HasText v t → (loose = false → ∃ c, t = [c]) →
      Written E loose prog (.shape .char) v
  | str {v t} : TagOk loose v → HasText v t → Written E loose prog (.shape .str) v
  | never {v} : loose = true → IsUnitValue v → Written E loose prog (.shape .never) v
  | opaque {scalar name v t} : TagOk loose v → HasText v t →
      Written E loose prog (.shape (.opaque scalar name)) v
  | undescribed (v) : loose = true → Written E loose prog (.shape .undescribed) v
  | none {t v} : IsUnitValue v → Written E loose prog (.shape (.option t)) v
  | some {t v} : Written E loose prog (.shape t) v → Written E loose prog (.shape (.option t)) v
  | list {t v items} : TagOk loose v → HasItems v items →
      (∀ x ∈ items, Written E loose prog (.shape t) x) → Written E loose prog (.shape (.list t)) v
  | map {k w v es} : TagOk loose v → HasEntries v es →
      (∀ e ∈ es, Written E loose prog (.shape k) e.key) →
      (∀ e ∈ es, Written E loose prog (.shape w) e.value) →
      Written E loose prog (.shape (.map k w)) v
  | pointer {t v} : Written E loose prog (.shape t) v → Written E loose prog (.shape (.pointer t)) v
  | documented {t v} : Written E loose prog (.shape t) v →
      Written E loose prog (.shape (.documented t)) v
  /-- `@ok` and the value of an `Ok`. -/
  | ok {t e p sp tag} : tag.name = chars! "ok" → Written E loose prog (.shape t) (.mk none p none) →
      Written E loose prog (.shape (.result t e)) (.mk (some tag) p sp)
  | err {t e p sp tag} : tag.name = chars! "err" →
      Written E loose prog (.shape e) (.mk none p none) →
      Written E loose prog (.shape (.result t e)) (.mk (some tag) p sp)
  | okText {t e v text} : loose = true → HasText v text → Written E loose prog (.shape t) v →
      Written E loose prog (.shape (.result t e)) v
  | errText {t e v text} : loose = true → HasText v text → Written E loose prog (.shape e) v →
      Written E loose prog (.shape (.result t e)) v
  /-- A struct is its data. -/
  | struct {i d kind fs v} : prog[i]? = some d → d.body = .struct kind fs →
      Written E loose prog (.data kind fs) v → Written E loose prog (.shape (.user i)) v
  /-- A variant is its name as a tag, and its data. -/
  | variant {i d vs w p sp tag} : prog[i]? = some d → d.body = .enum vs → w ∈ vs →
      w.other = false → tag.name = w.name →
      Written E loose prog (.data w.kind w.fields) (.mk none p none) →
      Written E loose prog (.shape (.user i)) (.mk (some tag) p sp)
  | variantText {i d vs w v text} : loose = true → prog[i]? = some d → d.body = .enum vs → w ∈ vs →
      HasText v text → Written E loose prog (.data w.kind w.fields) v →
      Written E loose prog (.shape (.user i)) v
  | other {i d vs w} (v) : prog[i]? = some d → d.body = .enum vs → w ∈ vs → w.other = true →
      Written E loose prog (.shape (.user i)) v
  /-- A struct without fields is unit. -/
  | unit {fs v} : IsUnitValue v → Written E loose prog (.data .unit fs) v
  /-- A tuple struct with one field is written as its field. -/
  | newtype {f v} : Written E loose prog (.shape f.shape) v →
      Written E loose prog (.data .tuple [f]) v
  | tuple {fs v items} : fs.length ≠ 1 → TagOk loose v → HasItems v items →
      items.length = fs.length →
      (∀ p ∈ items.zip fs, Written E loose prog (.shape p.2.shape) p.1) →
      Written E loose prog (.data .tuple fs) v
  /-- The entries are those of the fields; a field that may not be omitted is there. -/
  | fields {fs v es} (shapeOf : Entry → Shape) : TagOk loose v → HasEntries v es →
      (∀ e ∈ es, EntryOf prog fs e (shapeOf e)) →
      (∀ e ∈ es, Written E loose prog (.shape (shapeOf e)) e.value) →
      (∀ f, FieldOf prog fs f → ¬ MayOmit f → ∃ e ∈ es, KeyIs e f.name) →
      Written E loose prog (.data .struct fs) v

/-! The programs for which the generated schemas fit. -/

/-- Values of this shape are written as untagged scalars. -/
inductive ScalarShape : Shape → Prop where
  | bool : ScalarShape .bool
  | int (lo hi) : ScalarShape (.int lo hi)
  | float : ScalarShape .float
  | char : ScalarShape .char
  | str : ScalarShape .str
  | opaque (s n) : ScalarShape (.opaque s n)
  | pointer {t} : ScalarShape t → ScalarShape (.pointer t)
  | documented {t} : ScalarShape t → ScalarShape (.documented t)

/-- The shape can be described by a schema: its opaque types are known to be text, its integers have
128 bits with a sign or fewer, the keys of its maps are scalars, the payloads of its results are
never written as unit, and it does not use the type `Schema` itself. -/
def Describable {F : Type} (E : Env F) (prog : Program) : Shape → Prop
  | .int lo hi => -(2 ^ 127) ≤ lo ∧ hi ≤ 2 ^ 127 - 1
  | .opaque scalar name => scalar = true ∧ name ∈ textTypes
  | .option t => Describable E prog t
  | .list t => Describable E prog t
  | .map k v => ScalarShape k ∧ Describable E prog k ∧ Describable E prog v
  | .result t e => Describable E prog t ∧ Describable E prog e ∧
      ∀ v, IsUnitValue v → ¬ Written E false prog (.shape t) v ∧ ¬ Written E false prog (.shape e) v
  | .pointer t => Describable E prog t
  | .documented t => Describable E prog t
  | .user i => ∃ d, prog[i]? = some d ∧ d.isSchema = false
  | _ => True

/-- The fields of a struct or a variant: named by distinct, nonempty names; at most one is flattened,
and it is a map. -/
structure PlainFields (fs : List Field) : Prop where
  named : ∀ f ∈ fs, f.flatten = false → f.name ≠ []
  distinct : ((fs.filter fun f => !f.flatten).map (·.name)).Nodup
  flattened : ∀ f ∈ fs, f.flatten = true → ∃ k v, Plainly f.shape (.map k v)
  once : (fs.filter (·.flatten)).length ≤ 1

/-- The data of the structs and variants of a definition. -/
inductive DataOf : Body → StructKind → List Field → Prop where
  | struct (kind fs) : DataOf (.struct kind fs) kind fs
  | variant {vs w} : w ∈ vs → DataOf (.enum vs) w.kind w.fields

/-- No two types of the program have the same name. -/
def DistinctTypes (prog : Program) : Prop := (prog.map (·.name)).Nodup

/-- The fields of all structs and variants of the program are plain, and the variants of an enum have
distinct names. -/
structure PlainProgram (prog : Program) : Prop where
  types : DistinctTypes prog
  fields : ∀ d ∈ prog, ∀ fs, DataOf d.body .struct fs → PlainFields fs
  variants : ∀ d ∈ prog, ∀ vs, d.body = .enum vs → (vs.map (·.name)).Nodup

/-- All types can be described, and the payload of a variant is never written as unit. -/
structure DescribableProgram {F : Type} (E : Env F) (prog : Program) : Prop where
  shapes : ∀ d ∈ prog, ∀ kind fs, DataOf d.body kind fs → ∀ f ∈ fs, Describable E prog f.shape
  payloads : ∀ d ∈ prog, ∀ vs w f, d.body = .enum vs → w ∈ vs → w.kind = .tuple → w.fields = [f] →
    ∀ v, IsUnitValue v → ¬ Written E false prog (.shape f.shape) v

/-- A schema refers to the type `n`, somewhere inside. -/
inductive RefersTo {F : Type} (n : List Char) : Schema F → Prop where
  | here : RefersTo n (.type (some n))
  | object {fs key s} : (key, s) ∈ fs → RefersTo n s → RefersTo n (.object fs)
  | seq {i} : RefersTo n i → RefersTo n (.seq i)
  | tuple {is i} : i ∈ is → RefersTo n i → RefersTo n (.tuple is)
  | map {is i} : i ∈ is → RefersTo n i → RefersTo n (.map is)
  | union {is i} : i ∈ is → RefersTo n i → RefersTo n (.union is)
  | optional {i} : RefersTo n i → RefersTo n (.optional i)
  | enum {vs key s} : (key, s) ∈ vs → RefersTo n s → RefersTo n (.enum vs)
  | oneOf {i a} : RefersTo n i → RefersTo n (.oneOf i a)
  | flatten {i} : RefersTo n i → RefersTo n (.flatten i)
  | default {t i} : RefersTo n i → RefersTo n (.default t i)
  | deprecated {r i} : RefersTo n i → RefersTo n (.deprecated r i)

/-- A shape contains a shape. -/
inductive Contains (t : Shape) : Shape → Prop where
  | here : Contains t t
  | option {s} : Contains t s → Contains t (.option s)
  | list {s} : Contains t s → Contains t (.list s)
  | key {k v} : Contains t k → Contains t (.map k v)
  | value {k v} : Contains t v → Contains t (.map k v)
  | ok {s e} : Contains t s → Contains t (.result s e)
  | err {s e} : Contains t e → Contains t (.result s e)
  | pointer {s} : Contains t s → Contains t (.pointer s)
  | documented {s} : Contains t s → Contains t (.documented s)

/-- The definition mentions a shape in one of its fields. -/
def Mentions (d : TypeDef) (t : Shape) : Prop :=
  ∃ kind fs f, DataOf d.body kind fs ∧ kind ≠ .unit ∧ f ∈ fs ∧ Contains t f.shape

/-- The types of the program that occur in the type with position `root`, in the types of its fields,
and so on. -/
inductive Reachable (prog : Program) (root : Nat) : Nat → Prop where
  | root : Reachable prog root root
  | field {i j d} : Reachable prog root i → prog[i]? = some d → Mentions d (.user j) →
      Reachable prog root j

end Styx.Spec
