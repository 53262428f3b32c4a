import Verif.Tree.Value

/-!
# Model of the schema tools of the command line

Source: crates/styx-cli/src/main.rs.

Simplifications: a `HashMap` is the list of its entries in the order of insertion; the order in which its
entries are visited is a parameter `ord`, any function that permutes lists.  The messages of changes are
constructors of a type.
-/

namespace Styx.Cli

open Styx

/-- crates/styx-tree/src/value.rs:188-190 `is_schema_tag`. -/
def isSchemaTag (v : Value) : Bool := v.tagName == some (chars! "schema")

/-- crates/styx-cli/src/main.rs:805-824 `strip_schema_declaration`; the same code is
crates/styx-lsp/src/schema_validation.rs:197-217. -/
def stripSchemaDeclaration : Value → Value
  | .mk tag (some (.object es sp)) span =>
    .mk tag (some (.object (es.filter fun e => !isSchemaTag e.key) sp)) span
  | v => v

/-- The changes, crates/styx-cli/src/main.rs:1810-1968; a type is named by its key, `none` is the root. -/
inductive Change where
  /-- main.rs:1819 -/
  | removedType (name : Option (List Char))
  /-- main.rs:1826 -/
  | addedType (name : Option (List Char))
  /-- main.rs:1873-1877 -/
  | changedTag (type : Option (List Char)) (old new : Option (List Char))
  /-- main.rs:1901-1903 -/
  | removedField (type : Option (List Char)) (field : List Char)
  /-- main.rs:1911-1913 -/
  | addedOptional (type : Option (List Char)) (field : List Char)
  /-- main.rs:1915-1917 -/
  | addedRequired (type : Option (List Char)) (field : List Char)
  /-- main.rs:1956-1958 -/
  | removedVariant (type : Option (List Char)) (variant : List Char)
  /-- main.rs:1964-1966 -/
  | addedVariant (type : Option (List Char)) (variant : List Char)
  deriving DecidableEq, Repr

/-- crates/styx-cli/src/main.rs:1803-1808 `SchemaChanges`. -/
structure Changes where
  breaking : List Change := []
  additive : List Change := []
  patch : List Change := []
  deriving DecidableEq, Repr

/-- `HashMap::insert`: a value for a key that is there is replaced. -/
def mapInsert {κ α : Type} [DecidableEq κ] (m : List (κ × α)) (k : κ) (a : α) : List (κ × α) :=
  match m with
  | [] => [(k, a)]
  | (k', a') :: m => if k' = k then (k, a) :: m else (k', a') :: mapInsert m k a

/-- `HashMap::get`. -/
def mapGet {κ α : Type} [DecidableEq κ] (m : List (κ × α)) (k : κ) : Option α :=
  (m.find? fun p => p.1 = k).map (·.2)

/-- `HashMap::contains_key`. -/
def mapHas {κ α : Type} [DecidableEq κ] (m : List (κ × α)) (k : κ) : Bool := (mapGet m k).isSome

/-- The orders in which the entries of hash maps are visited. -/
structure Order where
  ord : {α : Type} → List α → List α
  perm : ∀ {α : Type} (l : List α), (ord l).Perm l

/-- crates/styx-cli/src/main.rs:1849-1853: the key of a type, `None` for the unit key and for every key that is
no plain scalar. -/
def typeKey (k : Value) : Option (List Char) := if k.isUnit then none else k.asStr

/-- crates/styx-cli/src/main.rs:1840-1861 `extract_schema_map`. -/
def extractSchemaMap (v : Value) : List (Option (List Char) × Value) :=
  match v.payload with
  | some (.object es _) =>
    es.foldl (fun m e =>
      if e.key.asStr = some (chars! "schema") then
        match e.value.payload with
        | some (.object ses _) => ses.foldl (fun m se => mapInsert m (typeKey se.key) se.value) m
        | _ => m
      else m) []
  | _ => []

/-- crates/styx-cli/src/main.rs:1923-1935 `extract_object_fields`. -/
def extractObjectFields (v : Value) : List (List Char × Value) :=
  match v.payload with
  | some (.object es _) =>
    es.foldl (fun m e =>
      match e.key.asStr with
      | some name => mapInsert m name e.value
      | none => m) []
  | _ => []

/-- crates/styx-cli/src/main.rs:1937-1943 `is_optional_field`. -/
def isOptionalField (v : Value) : Bool :=
  match v.tagName with
  | some n => n == chars! "optional" || n == chars! "default"
  | none => false

/-- crates/styx-cli/src/main.rs:1971-1983 `extract_enum_variants`. -/
def extractEnumVariants (v : Value) : List (List Char) :=
  match v.payload with
  | some (.object es _) => es.filterMap fun e => e.key.asStr
  | _ => []

/-- crates/styx-cli/src/main.rs:1890-1921 `compare_object_fields`. -/
def compareObjectFields (o : Order) (type : Option (List Char)) (baseline localV : Value) (c : Changes) :
    Changes :=
  let bf := extractObjectFields baseline
  let lf := extractObjectFields localV
  let removed := ((o.ord bf).filter fun p => !mapHas lf p.1).map fun p => Change.removedField type p.1
  let added := (o.ord lf).filter fun p => !mapHas bf p.1
  let optional := (added.filter fun p => isOptionalField p.2).map fun p => Change.addedOptional type p.1
  let required := (added.filter fun p => !isOptionalField p.2).map fun p => Change.addedRequired type p.1
  { c with breaking := c.breaking ++ removed ++ required, additive := c.additive ++ optional }

/-- crates/styx-cli/src/main.rs:1945-1969 `compare_enum_variants`. -/
def compareEnumVariants (type : Option (List Char)) (baseline localV : Value) (c : Changes) : Changes :=
  let bv := extractEnumVariants baseline
  let lv := extractEnumVariants localV
  { c with
    breaking := c.breaking ++ (bv.filter fun v => !lv.contains v).map (Change.removedVariant type)
    additive := c.additive ++ (lv.filter fun v => !bv.contains v).map (Change.addedVariant type) }

/-- crates/styx-cli/src/main.rs:1863-1888 `compare_type_definitions`. -/
def compareTypeDefinitions (o : Order) (type : Option (List Char)) (baseline localV : Value) (c : Changes) :
    Changes :=
  if baseline.tagName ≠ localV.tagName then
    { c with breaking := c.breaking ++ [.changedTag type baseline.tagName localV.tagName] }
  else
    let c := if baseline.tagName = some (chars! "object") then compareObjectFields o type baseline localV c else c
    if baseline.tagName = some (chars! "enum") then compareEnumVariants type baseline localV c else c

/-- crates/styx-cli/src/main.rs:1830-1835: the body of the last loop of `compare_schemas`. -/
def compareStep (o : Order) (ls : List (Option (List Char) × Value)) (c : Changes)
    (p : Option (List Char) × Value) : Changes :=
  match mapGet ls p.1 with
  | some lt => compareTypeDefinitions o p.1 p.2 lt c
  | none => c

/-- crates/styx-cli/src/main.rs:1810-1838 `compare_schemas`. -/
def compareSchemas (o : Order) (baseline localV : Value) : Changes :=
  let bs := extractSchemaMap baseline
  let ls := extractSchemaMap localV
  let c : Changes := {
    breaking := ((o.ord bs).filter fun p => !mapHas ls p.1).map fun p => .removedType p.1
    additive := ((o.ord ls).filter fun p => !mapHas bs p.1).map fun p => .addedType p.1 }
  (o.ord bs).foldl (compareStep o ls) c

/-- `str::split('.')` (crates/styx-cli/src/main.rs:1651). -/
def splitDots : List Char → List (List Char)
  | [] => [[]]
  | c :: cs =>
    if c = '.' then [] :: splitDots cs
    else match splitDots cs with
      | [] => [[c]]
      | s :: ss => (c :: s) :: ss

/-- `{}` of an unsigned number. -/
def showLoop : Nat → Nat → List Char
  | 0, _ => []
  | f + 1, n => if n < 10 then [Char.ofNat (48 + n)] else showLoop f (n / 10) ++ [Char.ofNat (48 + n % 10)]

/-- `{}` of an unsigned number. -/
def showNat (n : Nat) : List Char := showLoop (n + 1) n

/-- How computing the next version can end. -/
inductive Next where
  | ok (version : List Char)
  /-- `CliError::Parse` -/
  | error
  /-- arithmetic overflow (a panic when overflow checks are on, a wrapped number otherwise) -/
  | overflow
  deriving DecidableEq, Repr

/-- `n + 1` of a `u64`. -/
def incr (n : Nat) : Option Nat := if n < usizeMax then some (n + 1) else none

/-- crates/styx-cli/src/main.rs:1678 `format!`. -/
def showVersion (a b c : Nat) : List Char := showNat a ++ '.' :: showNat b ++ '.' :: showNat c

/-- crates/styx-cli/src/main.rs:1650-1679 `calculate_next_version`.  `u64` is parsed like `usize`
(`parseUsize`). -/
def calculateNextVersion (current : List Char) (changes : Changes) : Next :=
  match splitDots current with
  | [pa, pb, pc] =>
    match parseUsize pa, parseUsize pb, parseUsize pc with
    | some major, some minor, some patch =>
      let next : Option (List Char) :=
        if changes.breaking ≠ [] then
          if major = 0 then (incr minor).map fun m => showVersion 0 m 0
          else (incr major).map fun m => showVersion m 0 0
        else if changes.additive ≠ [] then (incr minor).map fun m => showVersion major m 0
        else (incr patch).map fun p => showVersion major minor p
      match next with
      | some v => .ok v
      | none => .overflow
    | _, _, _ => .error
  | _ => .error

end Styx.Cli
