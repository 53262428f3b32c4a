import Verif.Json.Lemmas
import Verif.Props.Format
import Verif.Props.Tree

/-! # Property theorems C63 to C66: JSON

`Verif.Json.Spec` is the specification. -/

namespace Styx.Props

open Styx Styx.Spec Styx.Json

/-! ## C63 -/

theorem diagnosticsOf_nil (evs : List Event) : diagnosticsOf evs = [] ↔ ∀ e ∈ evs, ∀ k, e.kind ≠ .error k := by
  induction evs with
  | nil => simp [diagnosticsOf]
  | cons e es ih =>
    cases hk : e.kind <;> simp [diagnosticsOf, hk, ih]

theorem validateLoop_true (evs : List Event) : validateLoop evs = some true ↔ NoError evs := by
  induction evs with
  | nil => simp [validateLoop, NoError]
  | cons e es ih =>
    have hc : NoError (e :: es) ↔ ((∀ k, e.kind ≠ .error k) ∧ e.kind ≠ .panic) ∧ NoError es := by
      simp [NoError]
    rw [hc, ← ih]
    cases hk : e.kind <;> simp [validateLoop, hk]

/-- **C63**, `validate` and `parse`: for every source, `validate` returns true exactly when `parse` returns
success, which it does exactly when it has no diagnostics; and its diagnostics are the errors of the parser,
in order. -/
theorem C63_validate (source : List Char) :
    (wasmValidate source = some true ↔ ∃ r, wasmParse source = some r ∧ r.success = true) ∧
    (∀ r, wasmParse source = some r → (r.success = true ↔ r.diagnostics = []) ∧
      ∃ evs, parseEvents source = some evs ∧
        r.diagnostics = evs.filterMap fun e => match e.kind with | .error k => some (k, e.span) | _ => none) := by
  obtain ⟨evs, hp, -⟩ := parseEvents_run source
  have hd : ∀ evs : List Event, diagnosticsOf evs =
      evs.filterMap fun e => match e.kind with | .error k => some (k, e.span) | _ => none := by
    intro evs
    induction evs with
    | nil => rfl
    | cons e es ih =>
      rw [diagnosticsOf, List.filterMap_cons]
      cases hk : e.kind <;> simp [ih]
  refine ⟨?_, ?_⟩
  · rw [wasmValidate, hp, Option.bind_some, validateLoop_true, wasmParse, hp]
    simp only
    constructor
    · intro hn
      have h1 : evs.any (fun e => e.kind == .panic) = false := by
        rw [List.any_eq_false]
        intro e he
        simpa using (hn e he).2
      rw [h1]
      refine ⟨_, rfl, ?_⟩
      rw [(diagnosticsOf_nil evs).2 fun e he => (hn e he).1]
      rfl
    · rintro ⟨r, hr, hs⟩
      split at hr
      · cases hr
      · rename_i h1
        simp only [Bool.not_eq_true] at h1
        rw [List.any_eq_false] at h1
        cases hr
        have h2 : diagnosticsOf evs = [] := by simpa using hs
        rw [diagnosticsOf_nil] at h2
        intro e he
        exact ⟨h2 e he, by simpa using h1 e he⟩
  · intro r hr
    rw [wasmParse, hp] at hr
    simp only at hr
    split at hr
    · cases hr
    · cases hr
      exact ⟨by simp, evs, hp, hd evs⟩

/-- **C63**, `to_json`.  Full statement: `to_json` succeeds exactly on the sources that `validate` accepts.  This is
false (`C63_false`).  Proved: `to_json` succeeds exactly on the accepted sources whose events are balanced, and for
the other accepted ones reports an unclosed structure. -/
theorem C63_json_partial (L : Lib) (source : List Char) :
    ((∃ j, toJson L source = some (.ok j)) ↔
      wasmValidate source = some true ∧ ∀ evs, parseEvents source = some evs → nest [] evs = some []) ∧
    (wasmValidate source = some true →
      (∃ j, toJson L source = some (.ok j)) ∨ toJson L source = some (.error .unclosedStructure)) := by
  obtain ⟨evs, hp, -⟩ := parseEvents_run source
  have hv : wasmValidate source = some true ↔ NoError evs := by
    rw [wasmValidate, hp, Option.bind_some, validateLoop_true]
  have key : NoError evs → (nest [] evs = some [] ∧ ∃ v, parseTree source = some (.ok v)) ∨
      (nest [] evs = some [.object] ∧ parseTree source = some (.error .unclosedStructure)) := by
    intro hn
    rcases C12_nested_partial source evs hp with h1 | ⟨h1, -⟩
    · left
      obtain ⟨v, hv⟩ := (C21_unclosed_partial evs _ h1 fun e he => (hn e he).1).2 rfl
      exact ⟨h1, v, by rw [parseTree_ok hp hn, hv]⟩
    · right
      have := (C21_unclosed_partial evs _ h1 fun e he => (hn e he).1).1 ⟨.object, by simp, by simp⟩
      exact ⟨h1, by rw [parseTree_ok hp hn, this]⟩
  refine ⟨?_, ?_⟩
  · rw [hv]
    constructor
    · rintro ⟨j, hj⟩
      rw [toJson] at hj
      cases ht : parseTree source with
      | none => rw [ht] at hj; cases hj
      | some r =>
        rw [ht] at hj
        cases r with
        | error e => cases hj
        | ok v =>
          have hn := C20_parse source evs hp v ht
          refine ⟨hn, ?_⟩
          intro evs' he
          rw [hp] at he
          cases he
          rcases key hn with h | ⟨-, h⟩
          · exact h.1
          · rw [ht] at h; cases h
    · rintro ⟨hn, hb⟩
      rcases key hn with ⟨-, v, h⟩ | ⟨h, -⟩
      · exact ⟨valueJson L v, by rw [toJson, h]; rfl⟩
      · rw [hb evs hp] at h; cases h
  · intro h
    rcases key (hv.1 h) with ⟨-, v, h⟩ | ⟨-, h⟩
    · exact .inl ⟨valueJson L v, by rw [toJson, h]; rfl⟩
    · exact .inr (by rw [toJson, h]; rfl)

/-- A library for examples: no number is finite, and there are none. -/
def noNumbers : Lib where
  F := Empty
  parse _ := none
  finite x := nomatch x
  text x := nomatch x
  debug _ := []

/-- **C63** is false: a braced object after a root entry is accepted by `validate` and `parse`, but `to_json`
reports an error. -/
theorem C63_false (L : Lib) : wasmValidate (chars! "a 1\n{b 2}") = some true ∧
    wasmParse (chars! "a 1\n{b 2}") = some ⟨true, []⟩ ∧
    toJson L (chars! "a 1\n{b 2}") = some (.error .unclosedStructure) := by
  refine ⟨by decide +kernel, by decide +kernel, ?_⟩
  have : parseTree (chars! "a 1\n{b 2}") = some (.error .unclosedStructure) := rfl
  rw [toJson, this]
  rfl

/-- Sources that are accepted and that are not. -/
example : wasmValidate (chars! "a {b (1 @c), d \"x\"}") = some true ∧ wasmValidate (chars! "a {b (1") = some false ∧
    (wasmParse (chars! "a {b 1\na {c 2}\na.d 3")).map (·.diagnostics.length) = some 1 := by
  decide +kernel

/-! ## C64 -/

/-- **C64**.  Full statement: for every JSON object, `to_json` of the text of `from_json` gives the object back.  This
is false (`C64_false_*`).  Proved for the objects that `Stable` describes, with names without `.` and `>`. -/
theorem C64_roundtrip_partial {L : Lib} (hl : Lawful L) {ms : List (Member L.F)} (h : StableMembers L ms)
    (hd : (ms.map Member.name).Pairwise (· ≠ ·)) (hdot : ∀ m ∈ ms, '.' ∉ m.name)
    (ht : ∀ s, Member.mk (chars! "$tag") (.str s) ∉ ms) :
    ∃ text, fromJson L (.obj ms) = some text ∧ toJson L text = some (.ok (.obj ms)) := by
  have hroot : PrintableRoot {} (jsonEntries L ms) := by
    refine ⟨?_, members_printable hl h true true, ?_, ?_⟩
    · intro c hc
      have : c = ' ' := by
        simp only [List.mem_cons, List.not_mem_nil, or_false] at hc
        rcases hc with h | h | h | h <;> exact h
      subst this
      exact .inl rfl
    · rw [entries_keys keyName]
      exact hd
    · intro s k sp sp' v d hm hb
      have : ∀ ms : List (Member L.F), Entry.mk (.mk none (some (.scalar s k sp)) sp') v d ∈ jsonEntries L ms →
          ∃ m ∈ ms, m.name = s := by
        intro ms
        induction ms with
        | nil => intro h; rw [jsonEntries] at h; cases h
        | cons m ms ih =>
          obtain ⟨n, j⟩ := m
          intro h
          rw [jsonEntries] at h
          rcases List.mem_cons.1 h with h | h
          · simp only [strValue, Entry.mk.injEq, Value.mk.injEq, Option.some.injEq, Payload.scalar.injEq] at h
            exact ⟨_, List.mem_cons_self, h.1.2.1.1.symm⟩
          · obtain ⟨m, hm, e⟩ := ih h
            exact ⟨m, by simp [hm], e⟩
      obtain ⟨m, hm', rfl⟩ := this ms hm
      exact hdot m hm'
  have hv := jsonValue_obj ht
  obtain ⟨text, t, h1, h2, h3⟩ := C24_document_partial hroot none none
  refine ⟨text, by rw [fromJson, hv]; exact h1, ?_⟩
  rw [toJson, h2]
  simp only [Option.map_some, Except.map]
  rw [json_eq h3 (by rw [← hv]; exact jsonValue_keys _), ← hv, value_back hl (.obj h hd ht)]

/-- **C64** is false: a string that looks like an integer comes back as a number, one that says `true` as a boolean
and one that says `null` as null. -/
theorem C64_false_text {L : Lib} (hl : Lawful L) (hn : L.parse (chars! "null") = none) :
    (∃ text, fromJson L (.obj [.mk ['k'] (.str (chars! "007"))]) = some text ∧
      toJson L text = some (.ok (.obj [.mk ['k'] (.int 7)]))) ∧
    (∃ text, fromJson L (.obj [.mk ['k'] (.str (chars! "true"))]) = some text ∧
      toJson L text = some (.ok (.obj [.mk ['k'] (.bool true)]))) ∧
    (∃ text, fromJson L (.obj [.mk ['k'] (.str (chars! "null"))]) = some text ∧
      toJson L text = some (.ok (.obj [.mk ['k'] .null]))) := by
  refine ⟨⟨chars! "k 007\n", rfl, ?_⟩, ⟨chars! "k true\n", rfl, ?_⟩, ⟨chars! "k null\n", rfl, ?_⟩⟩
  · rfl
  · have e : toJson L (chars! "k true\n") = some (.ok (.obj [.mk ['k'] (scalarJson L (chars! "true"))])) := rfl
    rw [e]
    have := scalarJson_bool hl true
    rw [if_pos rfl] at this
    rw [this]
  · have e : toJson L (chars! "k null\n") = some (.ok (.obj [.mk ['k'] (scalarJson L (chars! "null"))])) := rfl
    rw [e]
    have hp : Schema.parseI64 (chars! "null") = none := by decide +kernel
    rw [scalarJson, hp, hn]
    rfl

/-- **C64** is false: null in an array is lost, joined to the item before it. -/
theorem C64_false_null : ∃ text, fromJson noNumbers (.obj [.mk ['k'] (.arr [.str ['a'], .null])]) = some text ∧
    toJson noNumbers text = some (.ok (.obj [.mk ['k'] (.arr [.str ['a', '@']])])) :=
  ⟨chars! "k (a@)\n", rfl, rfl⟩

/-- **C64** is false: a string with `>` comes back as an object. -/
theorem C64_false_gt : ∃ text, fromJson noNumbers (.obj [.mk ['k'] (.str ['a', '>', 'b'])]) = some text ∧
    toJson noNumbers text = some (.ok (.obj [.mk ['k'] (.obj [.mk ['a'] (.str ['b'])])])) :=
  ⟨chars! "k a>b\n", rfl, rfl⟩

/-- **C64** is false: a name with a dot comes back as nested objects. -/
theorem C64_false_dot : ∃ text, fromJson noNumbers (.obj [.mk ['a', '.', 'b'] .null]) = some text ∧
    toJson noNumbers text = some (.ok (.obj [.mk ['a'] (.obj [.mk ['b'] .null])])) :=
  ⟨chars! "a.b @\n", rfl, rfl⟩

/-- **C64** is false: a tagged string comes back as a tagged array. -/
theorem C64_false_tagged :
    ∃ text, fromJson noNumbers (.obj [.mk ['k'] (.obj [.mk (chars! "$tag") (.str ['t']), .mk (chars! "$value") (.str ['x'])])])
        = some text ∧
      toJson noNumbers text =
        some (.ok (.obj [.mk ['k'] (.obj [.mk (chars! "$tag") (.str ['t']), .mk (chars! "$value") (.arr [.str ['x']])])])) :=
  ⟨chars! "k @t(x)\n", rfl, rfl⟩

/-- **C64** is false: what is at the root next to a tag is lost, and a root that is no object is not kept. -/
theorem C64_false_root :
    (∃ text, fromJson noNumbers (.obj [.mk (chars! "$tag") (.str ['t']), .mk ['k'] .null]) = some text ∧
      toJson noNumbers text = some (.ok (.obj [.mk ['@', 't'] .null]))) ∧
    (∃ text, fromJson noNumbers (.str ['x']) = some text ∧
      toJson noNumbers text = some (.ok (.obj [.mk ['x'] .null]))) :=
  ⟨⟨chars! "@t\n", rfl, rfl⟩, ⟨chars! "x\n", rfl, rfl⟩⟩

/-- A library with one finite number, printed `0.5`. -/
def oneNumber : Lib where
  F := Unit
  parse s := if s = chars! "0.5" then some () else none
  finite _ := true
  text _ := chars! "0.5"
  debug _ := []

theorem oneNumber_lawful : Lawful oneNumber where
  nonempty _ _ := by simp [oneNumber]
  chars _ _ := by simp only [oneNumber]; decide
  notInt _ _ n h := by
    exfalso
    obtain ⟨ds, -, h2, h3⟩ := h
    have : '.' ∈ ds := by
      rcases h3 with ⟨h, -⟩ | ⟨h, -⟩ | ⟨h, -⟩
      · rw [← h]; simp [oneNumber]
      · simp [oneNumber] at h
      · simp [oneNumber] at h
    have := h2 _ this
    revert this
    decide
  reads _ _ := rfl
  noTrue := rfl
  noFalse := rfl

/-- An object of all kinds of values that is not changed. -/
example : StableMembers oneNumber [.mk ['a'] (.int (-5)), .mk ['b', ' '] (.arr [.float (), .bool true, .obj []]),
    .mk ['c'] (.obj [.mk (chars! "$tag") (.str ['t']), .mk (chars! "$value") (.obj [.mk ['x'] .null])])] := by
  refine .cons (by decide) (.int (by decide) (by decide)) (.cons (by decide) (.arr (.cons (.float rfl) nofun nofun
    (.cons (.bool true) nofun nofun (.cons (.obj .nil .nil nofun) nofun nofun .nil))))
    (.cons (by decide) (.tagObj ⟨'t', [], rfl, .inl rfl, nofun⟩ (.cons (by decide) .null .nil) (by simp) (by simp)) .nil))

/-! ## C65 -/

theorem parseTree_keys {source : List Char} {v : Value} (h : parseTree source = some (.ok v)) : KeysExpressible v := by
  obtain ⟨evs, hp, -⟩ := parseEvents_run source
  have hn := C20_parse source evs hp v h
  rcases C19_parse source evs hp hn with ⟨cs, ks, es, -, he, -, ht⟩ | ⟨cs, -, -, ht⟩ | ⟨-, ht⟩
  · rw [h] at ht; cases ht
    rw [KeysExpressible, ← keys_eraseEntries]
    exact entriesOf_keys he
  · rw [h] at ht; cases ht
    rw [KeysExpressible, EntriesExpressible]; trivial
  · rw [h] at ht; cases ht

/-- **C65**.  Full statement: everything in the tree of a document is found in its JSON, under the same path.  Where
keys have the same name it is false (`C65_false`).  Proved: for every document, `to_json` succeeds when there is a
tree, and whatever steps lead from the root to, they lead in the JSON value to what it looks like; an entry is
hidden only by a later entry with the same name. -/
theorem C65_paths_partial (L : Lib) (source : List Char) (v : Value) (h : parseTree source = some (.ok v)) :
    ∃ j, toJson L source = some (.ok j) ∧ ∀ p w, Reaches (chars! "$value") keyName v p w →
      ∃ jw, follow p j = some jw ∧ Looks (chars! "$value") keyName (ScalarShows L) w jw := by
  refine ⟨valueJson L v, by rw [toJson, h]; rfl, ?_⟩
  intro p w hr
  obtain ⟨h1, h2⟩ := reaches_follow (L := L) hr (parseTree_keys h)
  exact ⟨_, h1, looks_value w h2⟩

/-- **C65**: the order of the entries is kept when their names differ. -/
theorem C65_order {L : Lib} {es : List Entry} (hk : EntriesExpressible es)
    (hd : (es.map fun e => keyName (entryKey e)).Nodup) (sp sp' : Option Span) :
    ∃ ms, valueJson L (.mk none (some (.object es sp)) sp') = .obj ms ∧
      ms.map Member.name = es.map fun e => keyName (entryKey e) := by
  refine ⟨_, by rw [valueJson, payloadJson], ?_⟩
  have : ∀ (es : List Entry) (acc : List (Member L.F)), EntriesExpressible es →
      (acc.map Member.name ++ es.map fun e => keyName (entryKey e)).Nodup →
      (entriesJson L acc es).map Member.name = acc.map Member.name ++ es.map fun e => keyName (entryKey e) := by
    intro es
    induction es with
    | nil => intro acc _ _; rw [entriesJson]; simp
    | cons e es ih =>
      obtain ⟨k, v, d⟩ := e
      intro acc hk hd
      rw [EntriesExpressible] at hk
      rw [entriesJson, wasmKey_name hk.1, insert_new]
      · rw [ih _ hk.2.2 (by simpa [Member.name, entryKey] using hd)]
        simp [Member.name, entryKey]
      · intro hm
        rw [List.nodup_append] at hd
        exact hd.2.2 _ hm _ List.mem_cons_self rfl
  simpa using this es [] hk (by simpa using hd)

/-- **C65** is false: the unit key and the key `"@"` have the same name, as have a tag and the quoted text of it, and
all keys with the same tag; the entry that comes first is lost. -/
theorem C65_false :
    toJson noNumbers (chars! "o {\"@\" a, @ b}") = some (.ok (.obj [.mk ['o'] (.obj [.mk ['@'] (.str ['b'])])])) ∧
    toJson noNumbers (chars! "o {\"@t\" a, @t b}") = some (.ok (.obj [.mk ['o'] (.obj [.mk ['@', 't'] (.str ['b'])])])) ∧
    toJson noNumbers (chars! "o {@t\"x y\" a, @t\"z\" b}") =
      some (.ok (.obj [.mk ['o'] (.obj [.mk ['@', 't'] (.str ['b'])])])) :=
  ⟨rfl, rfl, rfl⟩

/-- **C65**, consequences for scalars that may surprise: leading zeros are lost, also in quoted text, and text that
reads as an infinite number becomes null. -/
theorem C65_scalars (L : Lib) (x : L.F) (hx : L.parse (chars! "inf") = some x) (hf : L.finite x = false) :
    toJson L (chars! "zip \"01234\"") = some (.ok (.obj [.mk (chars! "zip") (.int 1234)])) ∧
    toJson L (chars! "k inf") = some (.ok (.obj [.mk ['k'] .null])) := by
  refine ⟨rfl, ?_⟩
  have e : toJson L (chars! "k inf") = some (.ok (.obj [.mk ['k'] (scalarJson L (chars! "inf"))])) := rfl
  have hp : Schema.parseI64 (chars! "inf") = none := by decide +kernel
  rw [e, scalarJson, hp]
  simp only [hx, hf]
  rfl

/-- A document with a tree and a path of four steps in it. -/
example : ∃ v, parseTree (chars! "a {b (1 @t{c x})}") = some (.ok v) ∧
    ∃ w, Reaches (chars! "$value") keyName v
      [.name ['a'], .name ['b'], .index 1, .name (chars! "$value"), .name ['c']] w ∧ w.asStr = some ['x'] := by
  refine ⟨_, rfl, _, .entry (pre := []) (post := []) nofun (.entry (pre := []) (post := []) nofun
    (.item (i := 1) rfl (.payload (sp' := none) (.entry (pre := []) (post := []) nofun (.here _))))), rfl⟩

/-! ## C66 -/

/-- **C66**.  Full statement: everything in the tree of a document is found in the JSON the command line writes, under
the same path, scalars with exactly their text.  Where keys have the same name it is false (`C66_false`).  Proved:
whatever steps lead from the root to, they lead in the JSON value to what it looks like; an entry is hidden only by
a later entry with the same name. -/
theorem C66_paths_partial (L : Lib) (source : List Char) (v : Value) (h : parseTree source = some (.ok v))
    (p : List Json.Step) (w : Value) (hr : Reaches (chars! "$payload") (cliName L) v p w) :
    ∃ jw, follow p (cliJson L v) = some jw ∧
      Looks (chars! "$payload") (cliName L) (fun s j => j = .str s) w jw := by
  obtain ⟨h1, h2⟩ := reaches_cli hr (parseTree_keys h)
  exact ⟨_, h1, looks_cli w h2⟩

/-- **C66** is false: of the unit key and the key `"@"` only the later one is written. -/
theorem C66_false (L : Lib) : ∃ v, parseTree (chars! "o {\"@\" a, @ b}") = some (.ok v) ∧
    cliJson L v = .obj [.mk ['o'] (.obj [.mk ['@'] (.str ['b'])])] :=
  ⟨_, rfl, rfl⟩

/-- **C66**, order: the members of an object are written sorted by name, whatever the order of the entries. -/
theorem C66_sorted (L : Lib) (es : List Entry) (sp sp' : Option Span) :
    ∃ ms, cliJson L (.mk none (some (.object es sp)) sp') = .obj ms ∧
      (ms.map Member.name).Pairwise fun a b => a.map Char.toNat < b.map Char.toNat := by
  refine ⟨_, by rw [cliJson, cliPayload], (cliEntries_sorted es (by simp)).imp ?_⟩
  have : ∀ a b : List Char, before a b = true → a.map Char.toNat < b.map Char.toNat := by
    intro a
    induction a with
    | nil => intro b h; cases b with
      | nil => simp [before] at h
      | cons => exact .nil
    | cons x a ih =>
      intro b h
      cases b with
      | nil => simp [before] at h
      | cons y b =>
        rw [before] at h
        split at h
        · rename_i e; subst e
          exact .cons (ih b h)
        · exact .rel (by simpa using h)
  exact fun a b h => this a b h

end Styx.Props
