import Verif.Impl.TypedLemmas
import Verif.Props.Implementations
import Verif.Format.SameValue

/-!
# Property theorems C109–C111: reading with a schema in JavaScript

A run with fuel `n` has at most `n` nested calls; `none` is a run that needs more.
-/

namespace Styx.Props

open Styx Styx.Spec Styx.Impl

/-- Reading this document with this schema ends with `r`: a value, or an exception. -/
def ReadsTyped (source schema : List Char) (r : Except Unit Js) : Prop := ∃ n, ∀ m, n ≤ m → parseTyped m source schema = some r

/-- It never ends; in JavaScript, until the stack is full. -/
def NeverReads (source schema : List Char) : Prop := ∀ n, parseTyped n source schema = none

theorem reads_of {source schema : List Char} {sdoc doc : List Entry} {s : JsSchema} {j : Js}
    (hs : Answers .javascript schema (.ok sdoc)) (hp : parseSchema sdoc = some s)
    (hd : Answers .javascript source (.ok doc)) (hj : Eventually (fun n => toTyped s.types n (rootValue doc) s.root) j) :
    ReadsTyped source schema (.ok j) := by
  obtain ⟨n1, h1⟩ := hs
  obtain ⟨n2, h2⟩ := hd
  obtain ⟨n3, h3⟩ := hj
  refine ⟨max n1 (max n2 n3), fun m hm => ?_⟩
  have h3 := h3 m (by omega)
  simp only [] at h3
  simp only [parseTyped, h1 m (by omega), hp, h2 m (by omega), h3, Option.map]

theorem neverReads_of {source schema : List Char} {sdoc : List Entry} {s : JsSchema} {n : Nat}
    (hs : parse .javascript n schema = some (.ok sdoc)) (hp : parseSchema sdoc = some s)
    {doc : List Entry} {n' : Nat} (hd : parse .javascript n' source = some (.ok doc))
    (hj : ∀ n, toTyped s.types n (rootValue doc) s.root = none) : NeverReads source schema := by
  intro m
  rw [parseTyped]
  cases h : parse .javascript m schema with
  | none => rfl
  | some r =>
    have h1 := parse_mono .javascript (Nat.le_max_left m n) _ h
    rw [parse_mono .javascript (Nat.le_max_right m n) _ hs] at h1
    cases h1
    simp only [hp]
    cases h' : parse .javascript m source with
    | none => rfl
    | some r =>
      have h1 := parse_mono .javascript (Nat.le_max_left m n') _ h'
      rw [parse_mono .javascript (Nat.le_max_right m n') _ hd] at h1
      cases h1
      simp only [hj m, Option.map]

/-- Does the parser give these entries, with this fuel? -/
def jsGives (n : Nat) (source : List Char) (doc : List Entry) : Bool :=
  match parse .javascript n source with
  | some (.ok doc') => sameEntries doc' doc
  | _ => false

theorem parse_of_gives {n : Nat} {source : List Char} {doc : List Entry} (h : jsGives n source doc = true) :
    parse .javascript n source = some (.ok doc) := by
  rw [jsGives] at h
  split at h
  · next doc' hd => rw [hd, eq_of_sameEntries _ _ h]
  · cases h

/-! ## C109: reading with a schema ends -/

/-- **C109** (partial).  If the parser ends on the schema and on the document, and no type of the schema is defined by itself
or by a default of its own type, then reading the document with the schema ends.  What is missing: other schemas. -/
theorem C109_partial {source schema : List Char} {rs rd : Except Impl.Err (List Entry)} (hs : Answers .javascript schema rs)
    (hd : Answers .javascript source rd)
    (hg : ∀ sdoc s, rs = .ok sdoc → parseSchema sdoc = some s → Grounded s.types) : ∃ r, ReadsTyped source schema r := by
  cases rs with
  | error e =>
    obtain ⟨n, hs⟩ := hs
    exact ⟨.error (), n, fun m hm => by simp only [parseTyped, hs m hm]⟩
  | ok sdoc =>
    cases hp : parseSchema sdoc with
    | none =>
      obtain ⟨n, hs⟩ := hs
      exact ⟨.error (), n, fun m hm => by simp only [parseTyped, hs m hm, hp]⟩
    | some s =>
      cases rd with
      | error e =>
        obtain ⟨n, hs⟩ := hs
        obtain ⟨n', hd⟩ := hd
        exact ⟨.error (), max n n', fun m hm => by
          simp only [parseTyped, hs m (by omega), hp, hd m (by omega)]⟩
      | ok doc =>
        obtain ⟨d, h, ground⟩ := hg sdoc s rfl hp
        obtain ⟨j, hj⟩ := toTyped_settles ground (rootValue doc) s.root
        exact ⟨.ok j, reads_of hs hp hd hj⟩

/-- A tag without payload. -/
def tagOnly (name : List Char) : Value := .mk (some ⟨name, none⟩) none none

/-- A tag with a sequence. -/
def tagSeq (name : List Char) (items : List Value) : Value := .mk (some ⟨name, none⟩) (some (.sequence items none)) none

/-- An object of entries with bare keys. -/
def bareEntries (es : List (List Char × Value)) : List Entry := es.map fun e => .mk (scalarValue e.1 .bare) e.2 none

/-- A schema document with this root and these types. -/
def schemaOf (root : Value) (types : List (List Char × Value)) : List Entry :=
  bareEntries [(chars! "schema", .mk none (some (.object (.mk (.mk none none none) root none :: bareEntries types) none)) none)]

/-- A tag with an object. -/
def tagObj (name : List Char) (es : List (List Char × Value)) : Value :=
  .mk (some ⟨name, none⟩) (some (.object (bareEntries es) none)) none

/-- Types may be recursive and have defaults. -/
example : ∃ s, parse .javascript 40 (chars! "schema {@ @Node, Node @object{size @default(1 @int), next @optional(@Node)}}") =
      some (.ok (schemaOf (tagOnly (chars! "Node")) [(chars! "Node", tagObj (chars! "object")
        [(chars! "size", tagSeq (chars! "default") [scalarValue ['1'] .bare, tagOnly (chars! "int")]),
         (chars! "next", tagSeq (chars! "optional") [tagOnly (chars! "Node")])])])) ∧
    parseSchema (schemaOf (tagOnly (chars! "Node")) [(chars! "Node", tagObj (chars! "object")
        [(chars! "size", tagSeq (chars! "default") [scalarValue ['1'] .bare, tagOnly (chars! "int")]),
         (chars! "next", tagSeq (chars! "optional") [tagOnly (chars! "Node")])])]) = some s ∧
    s.types.length = 1 ∧ Grounded s.types := by
  refine ⟨⟨.ref (chars! "Node"), [(chars! "Node", .object [(chars! "size", .default (scalarValue ['1'] .bare) .int),
    (chars! "next", .optional (.ref (chars! "Node")))])]⟩, parse_of_gives (by decide +kernel), by rfl, rfl, fun _ => 1, fun _ => 1, fun p hp => ?_⟩
  rcases List.mem_cons.1 hp with h | h
  · rw [h]; exact ⟨by decide +kernel, by decide +kernel⟩
  · cases h

theorem ref_self {types : List (List Char × JsType)} {name : List Char} (h : getOwn name types = some (.ref name)) (v : Value) :
    ∀ n, toTyped types n v (.ref name) = none
  | 0 => by simp only [toTyped]
  | n + 1 => by simp only [toTyped, h, ref_self h v n]

/-- **C109** is false in general: a type that is defined by its own name. -/
theorem C109_false : NeverReads [] (chars! "schema {@ @A, A @A}") :=
  neverReads_of (n := 40) (n' := 40) (doc := []) (sdoc := schemaOf (tagOnly ['A']) [(['A'], tagOnly ['A'])])
    (s := ⟨.ref ['A'], [(['A'], .ref ['A'])]⟩) (parse_of_gives (by decide +kernel)) (by rfl) (parse_of_gives (by decide +kernel)) (ref_self (by rfl) _)

theorem default_self {types : List (List Char × JsType)} {name x : List Char} {v : Value} (hv : v.asObject = some [])
    (h : getOwn name types = some (.object [(x, .default v (.ref name))])) (w : Value) (hw : w.asObject = some []) :
    ∀ n, toTyped types n w (.ref name) = none ∧ toTyped types n w (.object [(x, .default v (.ref name))]) = none ∧
      getDefault types n (.default v (.ref name)) = none := by
  intro n
  induction n generalizing w with
  | zero => simp only [toTyped, getDefault, and_self]
  | succ n ih =>
    have h1 := ih w hw
    have h2 := ih v hv
    refine ⟨by simp only [toTyped, h, h1.2.1], ?_, by simp only [getDefault, h2.1]⟩
    have hm : missingFields [(x, JsType.default v (.ref name))] [] = [(x, .default v (.ref name))] := rfl
    simp only [toTyped, hw, hm, allDone, h1.2.2, Option.map]
    split
    · next h => simp at h
    · rfl

/-- And so is a type with a field whose default is of this same type, although no schema names itself. -/
theorem C109_false_default : NeverReads [] (chars! "schema {@ @A, A @object{x @default({} @A)}}") := by
  refine neverReads_of (n := 40) (n' := 40) (doc := []) (sdoc := schemaOf (tagOnly ['A']) [(['A'], tagObj (chars! "object")
      [(['x'], tagSeq (chars! "default") [.mk none (some (.object [] none)) none, tagOnly ['A']])])])
    (s := ⟨.ref ['A'], [(['A'], .object [(['x'], .default (.mk none (some (.object [] none)) none) (.ref ['A']))])]⟩)
    (parse_of_gives (by decide +kernel)) (by rfl) (parse_of_gives (by decide +kernel)) fun n => ?_
  exact (default_self (x := ['x']) (v := .mk none (some (.object [] none)) none) (by rfl) (by rfl) _ (by rfl) n).1

/-! ## C110: the result is what the document means, and of the declared type -/

/-- **C110** (partial).  If the schema document declares the root and the types, and the document fits them and means `j`, the
result is `j`, which is of the declared type.  What is missing: unions and the types this reader does not know, and documents
that do not fit, which should be refused. -/
theorem C110_partial {source schema : List Char} {sdoc doc : List Entry} {root : JsType} {types : List (List Char × JsType)}
    {j : Js} (hs : Answers .javascript schema (.ok sdoc)) (hd : Answers .javascript source (.ok doc))
    (hschema : SchemaDoc sdoc root types) (hj : JsMeans types (.mk none (some (.object doc none)) none) root j) :
    ReadsTyped source schema (.ok j) ∧ HasType types j root :=
  ⟨reads_of hs (parseSchema_doc hschema) hd (toTyped_means hj), means_hasType hj⟩

/-- The schema of the example. -/
def serverSchema : List Entry := schemaOf (tagOnly (chars! "Server")) [(chars! "Server", tagObj (chars! "object")
  [(chars! "port", tagOnly (chars! "int")),
   (chars! "host", tagSeq (chars! "default") [scalarValue (chars! "localhost") .bare, tagOnly (chars! "string")]),
   (chars! "next", tagSeq (chars! "optional") [tagOnly (chars! "Server")])])]

/-- Its types. -/
def serverTypes : List (List Char × JsType) := [(chars! "Server", .object [(chars! "port", .int),
  (chars! "host", .default (scalarValue (chars! "localhost") .bare) .string),
  (chars! "next", .optional (.ref (chars! "Server")))])]

/-- The hypotheses are met: a server with a default host, and another one next to it. -/
example : ReadsTyped (chars! "port 80\nnext {host b, port -1}")
    (chars! "schema {@ @Server, Server @object{port @int, host @default(localhost @string), next @optional(@Server)}}")
    (.ok (.obj [(chars! "port", .int (some 80)),
      (chars! "next", .obj [(chars! "host", .str ['b']), (chars! "port", .int (some (-1)))] none),
      (chars! "host", .str (chars! "localhost"))] none)) := by
  have hs : parse .javascript 40
      (chars! "schema {@ @Server, Server @object{port @int, host @default(localhost @string), next @optional(@Server)}}") =
      some (.ok serverSchema) := parse_of_gives (by decide +kernel)
  have hd : parse .javascript 40 (chars! "port 80\nnext {host b, port -1}") = some (.ok (bareEntries
      [(chars! "port", scalarValue (chars! "80") .bare), (chars! "next", .mk none (some (.object (bareEntries
        [(chars! "host", scalarValue ['b'] .bare), (chars! "port", scalarValue (chars! "-1") .bare)]) none)) none)])) :=
    parse_of_gives (by decide +kernel)
  have first : DefinedAs serverTypes (chars! "Server") (.object _) := ⟨[], [], rfl, (nofun)⟩
  refine (C110_partial ⟨40, fun m hm => parse_mono _ hm _ hs⟩ ⟨40, fun m hm => parse_mono _ hm _ hd⟩
    (root := .ref (chars! "Server")) (types := serverTypes) ?_ ?_).1
  · refine ⟨[], _, _, _, [], rfl, (nofun), rfl, _, _, rfl, _, _, _, _, rfl, rfl, rfl,
      .named ⟨⟨_, rfl, rfl⟩, rfl⟩ (nofun) (by decide), ?_, by decide, by decide⟩
    refine .cons rfl (nofun) (by decide) (.object ⟨⟨_, rfl, rfl⟩, rfl⟩ ?_ (by decide)) .nil
    exact .cons rfl (nofun) (by decide) (.int ⟨⟨_, rfl, rfl⟩, rfl⟩)
      (.cons rfl (nofun) (by decide) (.default ⟨⟨_, rfl, rfl⟩, rfl⟩ (.string ⟨⟨_, rfl, rfl⟩, rfl⟩))
        (.cons rfl (nofun) (by decide) (.optional ⟨⟨_, rfl, rfl⟩, rfl⟩
          (.named ⟨⟨_, rfl, rfl⟩, rfl⟩ (nofun) (by decide))) .nil))
  · refine .ref first (.object (ps := [_, _]) (ds := [_]) (by decide) rfl (.field rfl ⟨[], _, rfl, (nofun)⟩
        (.int rfl (.plain (nofun) (by decide))) (.field rfl ⟨[_, _], [], rfl, by decide⟩ (.optional (.ref first
          (.object (ps := [_, _]) (ds := []) (by decide) rfl (.field rfl ⟨[_], _, rfl, by decide⟩ (.default (.string rfl))
              (.field rfl ⟨[], _, rfl, (nofun)⟩ (.int rfl (.minus (nofun) (by decide))) .nil)) ?_ ?_))) .nil)) ?_ ?_)
    · exact .there (by decide) (.there (by decide) (.omitted (by decide) .optional .nil))
    · exact ⟨by decide, by decide⟩
    · exact .there (by decide) (.default (by decide) (.default (.string rfl)) (.there (by decide) .nil))
    · exact ⟨by decide, by decide⟩

theorem reads_now {source schema : List Char} {n : Nat} (sdoc doc : List Entry) (s : JsSchema) {j : Js}
    (hs : parse .javascript n schema = some (.ok sdoc)) (hp : parseSchema sdoc = some s)
    (hd : parse .javascript n source = some (.ok doc)) (hj : toTyped s.types n (rootValue doc) s.root = some j) :
    ReadsTyped source schema (.ok j) :=
  reads_of ⟨n, fun _ hm => parse_mono _ hm _ hs⟩ hp ⟨n, fun _ hm => parse_mono _ hm _ hd⟩ (toTyped_eventually hj)

/-- **C110** is false in general: a text that is no number is read as NaN, without an error. -/
theorem C110_false_number : ReadsTyped (chars! "n abc") (chars! "schema {@ @object{n @int}}") (.ok (.obj [(['n'], .int none)] none)) ∧
    ¬ HasType [] (.obj [(['n'], .int none)] none) (.object [(['n'], .int)]) := by
  refine ⟨reads_now (n := 40) (schemaOf (tagObj (chars! "object") [(['n'], tagOnly (chars! "int"))]) [])
    (bareEntries [(['n'], scalarValue (chars! "abc") .bare)]) ⟨.object [(['n'], .int)], []⟩
      (parse_of_gives (by decide +kernel)) (by rfl) (parse_of_gives (by decide +kernel)) (by rfl), ?_⟩
  intro h
  cases h with
  | object h1 _ =>
    have := h1 ['n'] .int (.int none) ⟨[], [], rfl, (nofun)⟩ (List.mem_cons_self ..)
    cases this

/-- So is a document without a required field. -/
theorem C110_false_missing : ReadsTyped [] (chars! "schema {@ @object{n @int}}") (.ok (.obj [] none)) ∧
    ¬ HasType [] (.obj [] none) (.object [(['n'], .int)]) := by
  refine ⟨reads_now (n := 40) (schemaOf (tagObj (chars! "object") [(['n'], tagOnly (chars! "int"))]) [])
    [] ⟨.object [(['n'], .int)], []⟩
      (parse_of_gives (by decide +kernel)) (by rfl) (parse_of_gives (by decide +kernel)) (by rfl), ?_⟩
  intro h
  cases h with
  | object _ h2 =>
    rcases h2 ['n'] .int ⟨[], [], rfl, (nofun)⟩ with ⟨j, h⟩ | h
    · cases h
    · cases h

/-- An integer of a union is read as a text. -/
theorem C110_false_union : ReadsTyped (chars! "n 1") (chars! "schema {@ @object{n @union(@int)}}")
    (.ok (.obj [(['n'], .str ['1'])] none)) :=
  reads_now (n := 40) (schemaOf (tagObj (chars! "object") [(['n'], tagSeq (chars! "union") [tagOnly (chars! "int")])]) [])
    (bareEntries [(['n'], scalarValue ['1'] .bare)]) ⟨.object [(['n'], .union [.int])], []⟩
      (parse_of_gives (by decide +kernel)) (by rfl) (parse_of_gives (by decide +kernel)) (by rfl)

/-- And an entry `__proto__` of a document becomes the prototype of the result, which has no such property. -/
theorem C110_false_proto : ReadsTyped (chars! "__proto__ {admin true}") (chars! "schema {@ @map(@string @object{admin @bool})}")
    (.ok (.obj [] (some (.obj [(chars! "admin", .bool true)] none)))) :=
  reads_now (n := 40) (schemaOf (tagSeq (chars! "map") [tagOnly (chars! "string"), tagObj (chars! "object")
      [(chars! "admin", tagOnly (chars! "bool"))]]) [])
    (bareEntries [(chars! "__proto__", .mk none (some (.object (bareEntries [(chars! "admin", scalarValue (chars! "true") .bare)]) none)) none)])
    ⟨.map (.object [(chars! "admin", .bool)]), []⟩
      (parse_of_gives (by decide +kernel)) (by rfl) (parse_of_gives (by decide +kernel)) (by rfl)

/-! ## C111: without a schema -/

/-- Reading this document without a schema ends with `r`. -/
def ReadsUntyped (source : List Char) (r : Except Unit Js) : Prop := ∃ n, ∀ m, n ≤ m → parseUntyped m source = some r

/-- **C111** (partial).  Without a schema, reading gives the texts, lists and objects of the document, with `null` for nothing,
whenever the keys of its objects are different texts, not empty and not `__proto__`.  What is missing: other keys, and tags. -/
theorem C111_partial {source : List Char} {doc : List Entry} {j : Js} (hd : Answers .javascript source (.ok doc))
    (hj : Untyped (.mk none (some (.object doc none)) none) j) : ReadsUntyped source (.ok j) := by
  obtain ⟨n, hd⟩ := hd
  refine ⟨n, fun m hm => ?_⟩
  have : toAny (rootValue doc) = j := toAny_untyped hj
  simp only [parseUntyped, hd m hm, this]

/-- It ends whenever the parser does. -/
theorem C111_ends {source : List Char} {r : Except Impl.Err (List Entry)} (hd : Answers .javascript source r) :
    ∃ r', ReadsUntyped source r' ∧ ((∃ j, r' = .ok j) ↔ ∃ doc, r = .ok doc) := by
  obtain ⟨n, hd⟩ := hd
  cases r with
  | error e => exact ⟨.error (), ⟨n, fun m hm => by simp only [parseUntyped, hd m hm]⟩, by simp⟩
  | ok doc => exact ⟨.ok (toAny (rootValue doc)), ⟨n, fun m hm => by simp only [parseUntyped, hd m hm]⟩, by simp⟩

/-- The hypotheses are met. -/
example : ReadsUntyped (chars! "a {b (1 @x)}") (.ok (.obj [(['a'], .obj [(['b'], .arr [.str ['1'], .null])] none)] none)) := by
  have hd : parse .javascript 40 (chars! "a {b (1 @x)}") = some (.ok (bareEntries [(['a'], .mk none (some (.object (bareEntries
    [(['b'], .mk none (some (.sequence [scalarValue ['1'] .bare, tagOnly ['x']] none)) none)]) none)) none)])) :=
    parse_of_gives (by decide +kernel)
  refine C111_partial ⟨40, fun m hm => parse_mono _ hm _ hd⟩ (.object (.cons rfl (.object (.cons rfl
    (.list (.cons .text (.cons .null .nil))) .nil) ⟨by decide, by decide⟩) .nil) ⟨by decide, by decide⟩)

theorem readsUntyped_now {source : List Char} {n : Nat} (doc : List Entry) {j : Js}
    (hd : parse .javascript n source = some (.ok doc)) (hj : toAny (rootValue doc) = j) : ReadsUntyped source (.ok j) :=
  ⟨n, fun m hm => by simp only [parseUntyped, parse_mono _ hm _ hd, hj]⟩

/-- **C111** is false in general: the value of a key that is no text is lost, as are tags and a text for `__proto__`. -/
theorem C111_false : ReadsUntyped (chars! "@ 1") (.ok (.obj [] none)) ∧ ReadsUntyped (chars! "__proto__ 1") (.ok (.obj [] none)) ∧
    ReadsUntyped (chars! "a @b") (.ok (.obj [(['a'], .null)] none)) ∧ ReadsUntyped (chars! "a @c") (.ok (.obj [(['a'], .null)] none)) :=
  ⟨readsUntyped_now (n := 40) [.mk (.mk none none none) (scalarValue ['1'] .bare) none] (parse_of_gives (by decide +kernel)) (by rfl),
    readsUntyped_now (n := 40) (bareEntries [(chars! "__proto__", scalarValue ['1'] .bare)]) (parse_of_gives (by decide +kernel)) (by rfl),
    readsUntyped_now (n := 40) (bareEntries [(['a'], tagOnly ['b'])]) (parse_of_gives (by decide +kernel)) (by rfl),
    readsUntyped_now (n := 40) (bareEntries [(['a'], tagOnly ['c'])]) (parse_of_gives (by decide +kernel)) (by rfl)⟩

end Styx.Props
