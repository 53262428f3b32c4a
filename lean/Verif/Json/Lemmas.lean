import Verif.Json.Spec
import Verif.Serde.Read
import Verif.Format.PrintSpec

/-! # Lemmas about the JSON conversions -/

namespace Styx.Json

open Styx Styx.Spec
open Styx.Serde (intText)

variable {L : Lib}

/-! ## Scalars -/

theorem parseI64_none {s : List Char} (h : ∀ n, Schema.IsInt s n → n < -(2 ^ 63) ∨ 2 ^ 63 ≤ n) :
    Schema.parseI64 s = none := by
  cases e : Schema.parseI64 s with
  | none => rfl
  | some n =>
    rw [Schema.parseI64, Schema.parseInt_iff] at e
    have := h n e.1
    omega

theorem parseI64_int {n : Int} (h1 : -(2 ^ 63) ≤ n) (h2 : n < 2 ^ 63) : Schema.parseI64 (intText n) = some n := by
  rw [Schema.parseI64, Schema.parseInt, Serde.parseSigned_intText]
  simp only [Option.bind_some]
  rw [if_pos]
  omega

theorem scalarJson_int {n : Int} (h1 : -(2 ^ 63) ≤ n) (h2 : n < 2 ^ 63) : scalarJson L (intText n) = .int n := by
  rw [scalarJson, parseI64_int h1 h2]

theorem scalarJson_float (hl : Lawful L) {x : L.F} (h : L.finite x = true) : scalarJson L (L.text x) = .float x := by
  rw [scalarJson, parseI64_none (hl.notInt x h), hl.reads x h]
  simp [h]

theorem scalarJson_str {s : List Char} (h : OnlyText L s) : scalarJson L s = .str s := by
  rw [scalarJson, parseI64_none h.1, h.2.1]
  simp [h.2.2]

theorem scalarJson_bool (hl : Lawful L) (b : Bool) :
    scalarJson L (if b then chars! "true" else chars! "false") = .bool b := by
  have h1 : Schema.parseI64 (chars! "true") = none := by decide +kernel
  have h2 : Schema.parseI64 (chars! "false") = none := by decide +kernel
  cases b
  · simp only [Bool.false_eq_true, if_false, scalarJson, h2, hl.noFalse]
    rw [if_neg (by decide)]; rfl
  · simp only [if_true, scalarJson, h1, hl.noTrue]

/-! ## JSON to value to JSON -/

theorem insert_new {F : Type} {n : List Char} {v : Json F} {ms : List (Member F)} (h : n ∉ ms.map Member.name) :
    insert n v ms = ms ++ [.mk n v] := by
  induction ms with
  | nil => rfl
  | cons m ms ih =>
    obtain ⟨n', w⟩ := m
    simp only [List.map_cons, List.mem_cons, not_or, Member.name] at h
    rw [insert, if_neg (Ne.symm h.1), ih h.2]
    rfl

theorem wasmKey_str (s : List Char) : wasmKey L (strValue s) = s := rfl

theorem get_none_tag {ms : List (Member L.F)} (h : ∀ s, Member.mk (chars! "$tag") (.str s) ∉ ms) :
    ∀ s, get (chars! "$tag") ms ≠ some (.str s) := by
  induction ms with
  | nil => intro s hs; cases hs
  | cons m ms ih =>
    obtain ⟨n, v⟩ := m
    intro s hs
    rw [get] at hs
    split at hs
    · rename_i hn
      cases hs; subst hn
      exact h s (List.mem_cons_self)
    · exact ih (fun s hm => h s (List.mem_cons_of_mem _ hm)) s hs

theorem jsonValue_obj {ms : List (Member L.F)} (h : ∀ s, Member.mk (chars! "$tag") (.str s) ∉ ms) :
    jsonValue L (.obj ms) = .mk none (some (.object (jsonEntries L ms) none)) none := by
  rw [jsonValue]
  have := get_none_tag h
  split
  · rename_i t ht; exact absurd ht (this t)
  · rfl

theorem jsonValue_tag (t : List Char) :
    jsonValue L (.obj [.mk (chars! "$tag") (.str t)]) = .mk (some ⟨t, none⟩) none none := by
  have e : get (F := L.F) (chars! "$tag") [.mk (chars! "$tag") (.str t)] = some (.str t) := rfl
  have e2 : jsonPayload L (chars! "$value") [.mk (chars! "$tag") (.str t)] = none := by
    rw [jsonPayload, if_neg (by decide), jsonPayload]
  rw [jsonValue, e]
  simp only [e2]

theorem jsonValue_tagged (t : List Char) (j : Json L.F) :
    jsonValue L (.obj [.mk (chars! "$tag") (.str t), .mk (chars! "$value") j]) =
      .mk (some ⟨t, none⟩) (jsonValue L j).payload none := by
  have e : get (F := L.F) (chars! "$tag") [.mk (chars! "$tag") (.str t), .mk (chars! "$value") j] = some (.str t) := rfl
  have e2 : jsonPayload L (chars! "$value") [.mk (chars! "$tag") (.str t), .mk (chars! "$value") j] =
      (jsonValue L j).payload := by
    rw [jsonPayload, if_neg (by decide), jsonPayload, if_pos rfl]
  rw [jsonValue, e]
  simp only [e2]

mutual

theorem value_back (hl : Lawful L) : ∀ {j : Json L.F}, Stable L j → valueJson L (jsonValue L j) = j
  | _, .null => by rw [jsonValue, valueJson]
  | _, .bool b => by rw [jsonValue, bareValue, valueJson, payloadJson, scalarJson_bool hl]
  | _, .int h1 h2 => by rw [jsonValue, bareValue, valueJson, payloadJson, scalarJson_int h1 h2]
  | _, .float h => by rw [jsonValue, bareValue, valueJson, payloadJson, scalarJson_float hl h]
  | _, .str h => by rw [jsonValue, strValue, valueJson, payloadJson, scalarJson_str h.1]
  | _, .arr h => by rw [jsonValue, valueJson, payloadJson, items_back hl h]
  | _, .obj h hd ht => by
    rw [jsonValue_obj ht, valueJson, payloadJson, members_back hl h [] (by simpa using hd)]
    rfl
  | _, .tag ht => by rw [jsonValue_tag, valueJson]
  | _, .tagArr ht h => by rw [jsonValue_tagged, jsonValue, Value.payload, valueJson, payloadJson, items_back hl h]
  | _, .tagObj ht h hd hn => by
    rw [jsonValue_tagged, jsonValue_obj hn, Value.payload, valueJson, payloadJson,
      members_back hl h [] (by simpa using hd)]
    rfl

theorem items_back (hl : Lawful L) : ∀ {js : List (Json L.F)}, StableItems L js → itemsJson L (jsonItems L js) = js
  | _, .nil => by rw [jsonItems, itemsJson]
  | _, .cons h _ _ hs => by rw [jsonItems, itemsJson, value_back hl h, items_back hl hs]

theorem members_back (hl : Lawful L) : ∀ {ms : List (Member L.F)}, StableMembers L ms → ∀ acc : List (Member L.F),
    ((acc ++ ms).map Member.name).Pairwise (· ≠ ·) → entriesJson L acc (jsonEntries L ms) = acc ++ ms
  | _, .nil, acc, _ => by rw [jsonEntries, entriesJson]; simp
  | _, .cons (n := n) (v := v) (ms := ms) _ h hs, acc, hd => by
    have hnew : n ∉ acc.map Member.name := by
      intro hm
      rw [List.map_append, List.pairwise_append] at hd
      exact hd.2.2 n hm n (by simp [Member.name]) rfl
    rw [jsonEntries, entriesJson, wasmKey_str, value_back hl h, insert_new hnew,
      members_back hl hs (acc ++ [Member.mk n v]) (by simpa using hd)]
    simp

end

/-! ## The value is written faithfully -/

theorem plainString {s : List Char} {line : Bool} (h1 : '>' ∉ s) (h2 : s.count '\n' < 2) : PlainString {} line s :=
  ⟨fun _ => h1, .inl h2⟩

theorem number_plain {s : List Char} {line : Bool} (h : ∀ c ∈ s, c.isDigit = true ∨ c = '-' ∨ c = '+' ∨ c = '.' ∨ c = 'e') :
    PlainString {} line s := by
  have hc : ∀ c, c.isDigit = false → c ≠ '-' → c ≠ '+' → c ≠ '.' → c ≠ 'e' → c ∉ s := by
    intro c h1 h2 h3 h4 h5 hm
    rcases h c hm with h | h | h | h | h
    · rw [h1] at h; cases h
    · exact h2 h
    · exact h3 h
    · exact h4 h
    · exact h5 h
  refine plainString (hc _ (by decide) (by decide) (by decide) (by decide) (by decide)) ?_
  rw [List.count_eq_zero_of_not_mem (hc _ (by decide) (by decide) (by decide) (by decide) (by decide))]
  decide

theorem intText_plain (n : Int) {line : Bool} : PlainString {} line (intText n) := by
  apply number_plain
  intro c hc
  cases n with
  | ofNat n => exact .inl (decimal_digits (n := n) c (by rw [← Cli.showNat_decimal]; exact hc))
  | negSucc n =>
    rcases List.mem_cons.1 hc with rfl | hc
    · exact .inr (.inl rfl)
    · exact .inl (decimal_digits (n := n + 1) c (by rw [← Cli.showNat_decimal]; exact hc))

theorem bool_plain (b : Bool) {line : Bool} : PlainString {} line (if b then chars! "true" else chars! "false") := by
  cases b
  · exact plainString (by decide) (by decide)
  · exact plainString (by decide) (by decide)

theorem stable_payload {j : Json L.F} (h : Stable L j) (hn : j ≠ .null) :
    ((jsonValue L j).tag = none → (jsonValue L j).payload ≠ none) ∧
    ((∀ t, j ≠ .obj [.mk (chars! "$tag") (.str t)]) → (jsonValue L j).payload ≠ none) := by
  cases h with
  | null => exact absurd rfl hn
  | bool b => rw [jsonValue]; exact ⟨fun _ => nofun, fun _ => nofun⟩
  | int => rw [jsonValue]; exact ⟨fun _ => nofun, fun _ => nofun⟩
  | float => rw [jsonValue]; exact ⟨fun _ => nofun, fun _ => nofun⟩
  | str => rw [jsonValue]; exact ⟨fun _ => nofun, fun _ => nofun⟩
  | arr => rw [jsonValue]; exact ⟨fun _ => nofun, fun _ => nofun⟩
  | obj h hd ht => rw [jsonValue_obj ht]; exact ⟨fun _ => nofun, fun _ => nofun⟩
  | tag => rw [jsonValue_tag]; exact ⟨nofun, fun h => absurd rfl (h _)⟩
  | tagArr => rw [jsonValue_tagged, jsonValue]; exact ⟨nofun, fun _ => nofun⟩
  | tagObj h hs hd ht => rw [jsonValue_tagged, jsonValue_obj ht]; exact ⟨nofun, fun _ => nofun⟩

theorem entries_keys (f : Value → α) (ms : List (Member L.F)) :
    (jsonEntries L ms).map (fun e => f (entryKey e)) = ms.map fun m => f (strValue m.name) := by
  induction ms with
  | nil => rw [jsonEntries]; rfl
  | cons m ms ih =>
    obtain ⟨n, v⟩ := m
    rw [jsonEntries, List.map_cons, ih]
    rfl

theorem entries_distinct {ms : List (Member L.F)} (h : (ms.map Member.name).Pairwise (· ≠ ·)) :
    DistinctKeys (jsonEntries L ms) := by
  rw [DistinctKeys, entries_keys keyId, List.pairwise_map]
  rw [List.pairwise_map] at h
  refine h.imp ?_
  intro a b hab he
  apply hab
  simpa [keyId, strValue] using he

mutual

theorem value_printable (hl : Lawful L) : ∀ {j : Json L.F}, Stable L j → ∀ line, Printable {} line (jsonValue L j)
  | _, .null, line => by rw [jsonValue, Printable]; trivial
  | _, .bool b, line => by rw [jsonValue, bareValue, Printable]; exact bool_plain b
  | _, .int h1 h2, line => by rw [jsonValue, bareValue, Printable]; exact intText_plain _
  | _, .float h, line => by rw [jsonValue, bareValue, Printable]; exact number_plain (hl.chars _ h)
  | _, .str h, line => by rw [jsonValue, strValue, Printable]; exact plainString h.2.1 h.2.2
  | _, .arr h, line => by
    rw [jsonValue, Printable]
    exact ⟨nofun, items_printable hl h⟩
  | _, .obj h hd ht, line => by
    rw [jsonValue_obj ht, Printable]
    exact ⟨nofun, entries_distinct hd, members_printable hl h _ _⟩
  | _, .tag ht, line => by rw [jsonValue_tag, Printable]; exact ht
  | _, .tagArr ht h, line => by
    rw [jsonValue_tagged, jsonValue, Value.payload, Printable]
    exact ⟨fun t' e => by cases e; exact ht, items_printable hl h⟩
  | _, .tagObj ht h hd hn, line => by
    rw [jsonValue_tagged, jsonValue_obj hn, Value.payload, Printable]
    exact ⟨fun t' e => by cases e; exact ht, entries_distinct hd, members_printable hl h _ _⟩

theorem items_printable (hl : Lawful L) : ∀ {js : List (Json L.F)}, StableItems L js →
    PrintableItems {} (jsonItems L js)
  | _, .nil => by rw [jsonItems, PrintableItems]; trivial
  | _, .cons h hn ht hs => by
    rw [jsonItems, PrintableItems]
    have := stable_payload h hn
    refine ⟨value_printable hl h false, this.1, ?_, items_printable hl hs⟩
    intro hne
    apply this.2 (ht _)
    rintro rfl
    rw [jsonItems] at hne
    exact hne rfl

theorem members_printable (hl : Lawful L) : ∀ {ms : List (Member L.F)}, StableMembers L ms → ∀ root line,
    PrintableEntries {} root line (jsonEntries L ms)
  | _, .nil, root, line => by rw [jsonEntries, PrintableEntries]; trivial
  | _, .cons hn h hs, root, line => by
    rw [jsonEntries, PrintableEntries]
    refine ⟨?_, value_printable hl h line, nofun, members_printable hl hs root line⟩
    rw [strValue, PrintableKey]
    exact fun _ => hn

end

/-! ## Spans, forms and doc comments do not matter -/

theorem forget_shape (k : Value) :
    (forget k).isUnit = k.isUnit ∧ (forget k).asStr = k.asStr ∧ (forget k).tagName = k.tagName := by
  match k with
  | .mk t none _ => cases t <;> exact ⟨rfl, rfl, rfl⟩
  | .mk t (some (.scalar ..)) _ => cases t <;> exact ⟨rfl, rfl, rfl⟩
  | .mk t (some (.sequence ..)) _ =>
    rw [forget]; cases t <;> exact ⟨rfl, rfl, rfl⟩
  | .mk t (some (.object ..)) _ =>
    rw [forget]; cases t <;> exact ⟨rfl, rfl, rfl⟩

theorem keyForm_cases {k : Value} (h : KeyForm k) :
    k.isUnit = true ∨ k.asStr.isSome = true ∨ k.tagName.isSome = true := by
  match k, h with
  | .mk none none _, _ => exact .inl rfl
  | .mk (some t) none _, _ => exact .inr (.inr rfl)
  | .mk none (some (.scalar ..)) _, _ => exact .inr (.inl rfl)
  | .mk (some t) (some (.scalar ..)) _, _ => exact .inr (.inr rfl)

theorem keyForm_forget (k : Value) : KeyForm (forget k) ↔ KeyForm k := by
  match k with
  | .mk t none _ => simp [forget, KeyForm]
  | .mk t (some (.scalar ..)) _ => simp [forget, KeyForm]
  | .mk t (some (.sequence ..)) _ => simp [forget, KeyForm]
  | .mk t (some (.object ..)) _ => simp [forget, KeyForm]

theorem wasmKey_forget {k : Value} (hk : KeyForm k) : wasmKey L (forget k) = wasmKey L k := by
  have h := keyForm_cases hk
  obtain ⟨h1, h2, h3⟩ := forget_shape k
  unfold wasmKey
  rw [h1, h2, h3]
  split
  · rfl
  · split
    · rfl
    · rename_i hu _ hs
      rw [hs] at h
      cases ht : k.tagName with
      | some t => rfl
      | none => rw [ht] at h; simp [hu] at h

mutual

theorem forget_json : ∀ v : Value, KeysExpressible v → valueJson L (forget v) = valueJson L v
  | .mk none none _, _ => by rw [forget]; rfl
  | .mk (some t) none _, _ => by rw [forget]; rfl
  | .mk none (some (.scalar ..)) _, _ => by rw [forget]; rfl
  | .mk (some t) (some (.scalar ..)) _, _ => by rw [forget]; rfl
  | .mk none (some (.sequence items _)) _, h => by
    rw [KeysExpressible] at h
    simp only [forget, Option.map, valueJson, payloadJson, forget_items items h]
  | .mk (some t) (some (.sequence items _)) _, h => by
    rw [KeysExpressible] at h
    simp only [forget, Option.map, valueJson, payloadJson, forget_items items h]
  | .mk none (some (.object es _)) _, h => by
    rw [KeysExpressible] at h
    simp only [forget, Option.map, valueJson, payloadJson, forget_entries es h]
  | .mk (some t) (some (.object es _)) _, h => by
    rw [KeysExpressible] at h
    simp only [forget, Option.map, valueJson, payloadJson, forget_entries es h]

theorem forget_items : ∀ vs : List Value, AllExpressible vs → itemsJson L (forgetAll vs) = itemsJson L vs
  | [], _ => by rw [forgetAll]
  | v :: vs, h => by
    rw [AllExpressible] at h
    rw [forgetAll, itemsJson, itemsJson, forget_json v h.1, forget_items vs h.2]

theorem forget_entries : ∀ es : List Entry, EntriesExpressible es → ∀ acc, entriesJson L acc (forgetEntries es) = entriesJson L acc es
  | [], _, acc => by rw [forgetEntries]
  | .mk k v d :: es, h, acc => by
    rw [EntriesExpressible] at h
    rw [forgetEntries, entriesJson, entriesJson, wasmKey_forget h.1, forget_json v h.2.1, forget_entries es h.2.2]

end

mutual

theorem keysOk_forget : ∀ v : Value, KeysExpressible (forget v) ↔ KeysExpressible v
  | .mk t none _ => by simp [forget, KeysExpressible]
  | .mk t (some (.scalar ..)) _ => by simp [forget, KeysExpressible]
  | .mk t (some (.sequence items _)) _ => by rw [forget, KeysExpressible, KeysExpressible, keysOk_all items]
  | .mk t (some (.object es _)) _ => by rw [forget, KeysExpressible, KeysExpressible, keysOk_entries es]

theorem keysOk_all : ∀ vs : List Value, AllExpressible (forgetAll vs) ↔ AllExpressible vs
  | [] => by rw [forgetAll]
  | v :: vs => by rw [forgetAll, AllExpressible, AllExpressible, keysOk_forget v, keysOk_all vs]

theorem keysOk_entries : ∀ es : List Entry, EntriesExpressible (forgetEntries es) ↔ EntriesExpressible es
  | [] => by rw [forgetEntries]
  | .mk k v d :: es => by
    rw [forgetEntries, EntriesExpressible, EntriesExpressible, keysOk_forget v, keysOk_entries es, keyForm_forget]

end

theorem json_eq {v v' : Value} (h : forget v = forget v') (hk : KeysExpressible v') : valueJson L v = valueJson L v' := by
  have hk' : KeysExpressible v := by rw [← keysOk_forget, h, keysOk_forget]; exact hk
  rw [← forget_json v hk', ← forget_json v' hk, h]

mutual

theorem jsonValue_keys : ∀ j : Json L.F, KeysExpressible (jsonValue L j)
  | .null => by rw [jsonValue, KeysExpressible]; trivial; all_goals simp
  | .bool b => by rw [jsonValue, bareValue, KeysExpressible]; trivial; all_goals simp
  | .int n => by rw [jsonValue, bareValue, KeysExpressible]; trivial; all_goals simp
  | .float x => by rw [jsonValue, bareValue, KeysExpressible]; trivial; all_goals simp
  | .str s => by rw [jsonValue, strValue, KeysExpressible]; trivial; all_goals simp
  | .arr js => by rw [jsonValue, KeysExpressible]; exact jsonItems_keys js
  | .obj ms => by
    rw [jsonValue]
    split
    · have := jsonPayload_keys (chars! "$value") ms
      generalize jsonPayload L (chars! "$value") ms = q at this
      match q, this with
      | none, _ => rw [KeysExpressible]; trivial; all_goals simp
      | some (.scalar ..), _ => rw [KeysExpressible]; trivial; all_goals simp
      | some (.sequence ..), h => rw [KeysExpressible]; rw [KeysExpressible] at h; exact h
      | some (.object ..), h => rw [KeysExpressible]; rw [KeysExpressible] at h; exact h
    · rw [KeysExpressible]; exact jsonEntries_keys ms

theorem jsonItems_keys : ∀ js : List (Json L.F), AllExpressible (jsonItems L js)
  | [] => by rw [jsonItems, AllExpressible]; trivial
  | j :: js => by rw [jsonItems, AllExpressible]; exact ⟨jsonValue_keys j, jsonItems_keys js⟩

theorem jsonPayload_keys (n : List Char) : ∀ ms : List (Member L.F), KeysExpressible (.mk none (jsonPayload L n ms) none)
  | [] => by rw [jsonPayload, KeysExpressible]; trivial; all_goals simp
  | .mk m v :: ms => by
    rw [jsonPayload]
    split
    · have := jsonValue_keys v
      generalize jsonValue L v = q at this
      match q, this with
      | .mk t none _, _ => rw [Value.payload, KeysExpressible]; trivial; all_goals simp
      | .mk t (some (.scalar ..)) _, _ => rw [Value.payload, KeysExpressible]; trivial; all_goals simp
      | .mk t (some (.sequence ..)) _, h => rw [Value.payload, KeysExpressible]; rw [KeysExpressible] at h; exact h
      | .mk t (some (.object ..)) _, h => rw [Value.payload, KeysExpressible]; rw [KeysExpressible] at h; exact h
    · exact jsonPayload_keys n ms

theorem jsonEntries_keys : ∀ ms : List (Member L.F), EntriesExpressible (jsonEntries L ms)
  | [] => by rw [jsonEntries, EntriesExpressible]; trivial
  | .mk n v :: ms => by
    rw [jsonEntries, EntriesExpressible]
    exact ⟨trivial, jsonValue_keys v, jsonEntries_keys ms⟩

end

/-! ## Keys of parsed trees -/

mutual

theorem valueOf_keys : ∀ {ks : List EventKind} {v : Value}, ValueOf ks v → KeysExpressible v
  | _, _, .scalar .. => by rw [KeysExpressible]; trivial; all_goals simp
  | _, _, .unit => by rw [KeysExpressible]; trivial; all_goals simp
  | _, _, .bareTag _ => by rw [KeysExpressible]; trivial; all_goals simp
  | _, _, .tag (v := .mk t none _) _ h => by rw [Value.payload, KeysExpressible]; trivial; all_goals simp
  | _, _, .tag (v := .mk t (some (.scalar ..)) _) _ h => by
    rw [Value.payload, KeysExpressible]; trivial; all_goals simp
  | _, _, .tag (v := .mk t (some (.sequence ..)) _) _ h => by
    have := valueOf_keys h
    rw [KeysExpressible] at this
    rw [Value.payload, KeysExpressible]; exact this
  | _, _, .tag (v := .mk t (some (.object ..)) _) _ h => by
    have := valueOf_keys h
    rw [KeysExpressible] at this
    rw [Value.payload, KeysExpressible]; exact this
  | _, _, .sequence h => by rw [KeysExpressible]; exact valuesOf_keys h
  | _, _, .object h => by rw [KeysExpressible]; exact entriesOf_keys h

theorem valuesOf_keys : ∀ {ks : List EventKind} {vs : List Value}, ValuesOf ks vs → AllExpressible vs
  | _, _, .nil => by rw [AllExpressible]; trivial
  | _, _, .cons h hs => by rw [AllExpressible]; exact ⟨valueOf_keys h, valuesOf_keys hs⟩

theorem entriesOf_keys : ∀ {d : Option (List Char)} {ks : List EventKind} {es : List Entry}, EntriesOf d ks es →
    EntriesExpressible es
  | _, _, _, .nil _ => by rw [EntriesExpressible]; trivial
  | _, _, _, .comment _ h => entriesOf_keys h
  | _, _, _, .doc _ h => entriesOf_keys h
  | _, _, _, .entry t p k h hs => by
    rw [EntriesExpressible]
    refine ⟨?_, valueOf_keys h, entriesOf_keys hs⟩
    cases p <;> trivial

end

theorem keyForm_erase (k : Value) : KeyForm (erase k) ↔ KeyForm k := by
  match k with
  | .mk t none _ => simp [erase, erasePayload, KeyForm]
  | .mk t (some (.scalar ..)) _ => simp [erase, erasePayload, KeyForm]
  | .mk t (some (.sequence ..)) _ => simp [erase, erasePayload, KeyForm]
  | .mk t (some (.object ..)) _ => simp [erase, erasePayload, KeyForm]

mutual

theorem keys_erase : ∀ v : Value, KeysExpressible (erase v) ↔ KeysExpressible v
  | .mk t none _ => by simp [erase, erasePayload, KeysExpressible]
  | .mk t (some (.scalar ..)) _ => by simp [erase, erasePayload, KeysExpressible]
  | .mk t (some (.sequence items _)) _ => by
    rw [erase, erasePayload, KeysExpressible, KeysExpressible, keys_eraseAll items]
  | .mk t (some (.object es _)) _ => by
    rw [erase, erasePayload, KeysExpressible, KeysExpressible, keys_eraseEntries es]

theorem keys_eraseAll : ∀ vs : List Value, AllExpressible (eraseAll vs) ↔ AllExpressible vs
  | [] => by rw [eraseAll]
  | v :: vs => by rw [eraseAll, AllExpressible, AllExpressible, keys_erase v, keys_eraseAll vs]

theorem keys_eraseEntries : ∀ es : List Entry, EntriesExpressible (eraseEntries es) ↔ EntriesExpressible es
  | [] => by rw [eraseEntries]
  | .mk k v d :: es => by
    rw [eraseEntries, EntriesExpressible, EntriesExpressible, keys_erase v, keys_eraseEntries es, keyForm_erase]

end

/-! ## Maps -/

theorem get_insert {F : Type} (n m : List Char) (v : Json F) (ms : List (Member F)) :
    get m (insert n v ms) = if n = m then some v else get m ms := by
  induction ms with
  | nil => rfl
  | cons x ms ih =>
    obtain ⟨n', w⟩ := x
    rw [insert]
    split
    · rename_i h; subst h
      rw [get, get]
      split <;> rfl
    · rename_i h
      rw [get, get, ih]
      split
      · rename_i h'; subst h'
        rw [if_neg (fun e => h e.symm)]
      · rfl

theorem get_insertSorted {F : Type} (n m : List Char) (v : Json F) (ms : List (Member F)) :
    get m (insertSorted n v ms) = if n = m then some v else get m ms := by
  induction ms with
  | nil => rfl
  | cons x ms ih =>
    obtain ⟨n', w⟩ := x
    rw [insertSorted]
    split
    · rename_i h; subst h
      rw [get, get]
      split <;> rfl
    · rename_i h
      split
      · rw [get]
      · rw [get, get, ih]
        split
        · rename_i h'; subst h'
          rw [if_neg (fun e => h e.symm)]
        · rfl

theorem names_insert {F : Type} (n m : List Char) (v : Json F) (ms : List (Member F)) :
    m ∈ (insert n v ms).map Member.name ↔ m = n ∨ m ∈ ms.map Member.name := by
  induction ms with
  | nil => simp [insert, Member.name]
  | cons x ms ih =>
    obtain ⟨n', w⟩ := x
    rw [insert]
    split
    · rename_i h; subst h; simp [Member.name]
    · simp only [List.map_cons, List.mem_cons, ih, Member.name]
      grind

theorem names_insertSorted {F : Type} (n m : List Char) (v : Json F) (ms : List (Member F)) :
    m ∈ (insertSorted n v ms).map Member.name ↔ m = n ∨ m ∈ ms.map Member.name := by
  induction ms with
  | nil => simp [insertSorted, Member.name]
  | cons x ms ih =>
    obtain ⟨n', w⟩ := x
    rw [insertSorted]
    split
    · rename_i h; subst h; simp [Member.name]
    · split
      · simp [Member.name]
      · simp only [List.map_cons, List.mem_cons, ih, Member.name]
        grind

theorem nodup_insert {F : Type} (n : List Char) (v : Json F) {ms : List (Member F)} (h : (ms.map Member.name).Nodup) :
    ((insert n v ms).map Member.name).Nodup := by
  induction ms with
  | nil => simp [insert]
  | cons x ms ih =>
    obtain ⟨n', w⟩ := x
    rw [List.map_cons, List.nodup_cons] at h
    rw [insert]
    split
    · rw [List.map_cons, List.nodup_cons]; exact h
    · rename_i hn
      rw [List.map_cons, List.nodup_cons]
      refine ⟨?_, ih h.2⟩
      rw [names_insert]
      rintro (e | e)
      · exact hn e
      · exact h.1 e

theorem before_irrefl (a : List Char) : before a a = false := by
  induction a with
  | nil => rfl
  | cons c a ih => simp [before, ih]

theorem before_trans : ∀ {a b c : List Char}, before a b = true → before b c = true → before a c = true
  | _, [], _, h, _ => by simp [before] at h
  | _, _ :: _, [], _, h => by simp [before] at h
  | [], _ :: _, _ :: _, _, _ => rfl
  | x :: a, y :: b, z :: c, h1, h2 => by
    rw [before] at h1 h2 ⊢
    by_cases hxy : x = y
    · subst hxy
      rw [if_pos rfl] at h1
      split
      · rename_i h; subst h
        rw [if_pos rfl] at h2
        exact before_trans h1 h2
      · rename_i h; rw [if_neg h] at h2; exact h2
    · rw [if_neg hxy] at h1
      by_cases hyz : y = z
      · subst hyz
        rw [if_neg hxy]; exact h1
      · rw [if_neg hyz] at h2
        simp only [decide_eq_true_eq] at h1 h2
        have : x ≠ z := by rintro rfl; omega
        rw [if_neg this]
        simp only [decide_eq_true_eq]
        omega

theorem before_total : ∀ {a b : List Char}, a ≠ b → before a b = false → before b a = true
  | [], [], h, _ => absurd rfl h
  | [], _ :: _, _, h => by simp [before] at h
  | _ :: _, [], _, _ => rfl
  | x :: a, y :: b, hne, h => by
    rw [before] at h ⊢
    by_cases hxy : x = y
    · subst hxy
      rw [if_pos rfl] at h ⊢
      exact before_total (fun e => hne (by rw [e])) h
    · rw [if_neg hxy] at h
      rw [if_neg (fun e => hxy e.symm)]
      simp only [decide_eq_false_iff_not, Nat.not_lt, decide_eq_true_eq] at h ⊢
      have : x.toNat ≠ y.toNat := fun e => hxy (Char.ext (UInt32.toNat_inj.1 e))
      omega

theorem sorted_insert {F : Type} (n : List Char) (v : Json F) {ms : List (Member F)}
    (h : (ms.map Member.name).Pairwise fun a b => before a b = true) :
    ((insertSorted n v ms).map Member.name).Pairwise fun a b => before a b = true := by
  induction ms with
  | nil => simp [insertSorted]
  | cons x ms ih =>
    obtain ⟨n', w⟩ := x
    rw [List.map_cons, List.pairwise_cons] at h
    rw [insertSorted]
    split
    · rw [List.map_cons, List.pairwise_cons]; exact h
    · rename_i hn
      split
      · rename_i hb
        rw [List.map_cons, List.pairwise_cons, List.map_cons, List.pairwise_cons]
        refine ⟨?_, h⟩
        intro m hm
        rcases List.mem_cons.1 hm with rfl | hm
        · exact hb
        · exact before_trans hb (h.1 m hm)
      · rename_i hb
        rw [List.map_cons, List.pairwise_cons]
        refine ⟨?_, ih h.2⟩
        intro m hm
        rw [names_insertSorted] at hm
        rcases hm with rfl | hm
        · exact before_total (fun e => hn e.symm) (by simpa [Member.name] using hb)
        · exact h.1 m hm

/-! ## Entries -/

theorem entriesJson_append (acc : List (Member L.F)) (a b : List Entry) :
    entriesJson L acc (a ++ b) = entriesJson L (entriesJson L acc a) b := by
  induction a generalizing acc with
  | nil => rw [List.nil_append, entriesJson]
  | cons e a ih =>
    obtain ⟨k, v, d⟩ := e
    rw [List.cons_append, entriesJson, entriesJson, ih]

theorem entriesJson_other {n : List Char} {es : List Entry} (h : ∀ e ∈ es, wasmKey L (entryKey e) ≠ n)
    (acc : List (Member L.F)) : get n (entriesJson L acc es) = get n acc := by
  induction es generalizing acc with
  | nil => rw [entriesJson]
  | cons e es ih =>
    obtain ⟨k, v, d⟩ := e
    rw [entriesJson, ih (fun e he => h e (by simp [he])), get_insert, if_neg (show wasmKey L k ≠ n from h (.mk k v d) (by simp))]

theorem entriesJson_names (n : List Char) (es : List Entry) (acc : List (Member L.F)) :
    n ∈ (entriesJson L acc es).map Member.name ↔
      n ∈ acc.map Member.name ∨ ∃ e ∈ es, wasmKey L (entryKey e) = n := by
  induction es generalizing acc with
  | nil => rw [entriesJson]; simp
  | cons e es ih =>
    obtain ⟨k, v, d⟩ := e
    rw [entriesJson, ih, names_insert]
    simp only [List.mem_cons, exists_eq_or_imp, entryKey]
    grind

theorem entriesJson_nodup (es : List Entry) {acc : List (Member L.F)} (h : (acc.map Member.name).Nodup) :
    ((entriesJson L acc es).map Member.name).Nodup := by
  induction es generalizing acc with
  | nil => rw [entriesJson]; exact h
  | cons e es ih =>
    obtain ⟨k, v, d⟩ := e
    rw [entriesJson]
    exact ih (nodup_insert _ _ h)

theorem cliEntries_append (acc : List (Member L.F)) (a b : List Entry) :
    cliEntries L acc (a ++ b) = cliEntries L (cliEntries L acc a) b := by
  induction a generalizing acc with
  | nil => rw [List.nil_append, cliEntries]
  | cons e a ih =>
    obtain ⟨k, v, d⟩ := e
    rw [List.cons_append, cliEntries, cliEntries, ih]

theorem cliEntries_other {n : List Char} {es : List Entry} (h : ∀ e ∈ es, cliKey L (entryKey e) ≠ n)
    (acc : List (Member L.F)) : get n (cliEntries L acc es) = get n acc := by
  induction es generalizing acc with
  | nil => rw [cliEntries]
  | cons e es ih =>
    obtain ⟨k, v, d⟩ := e
    rw [cliEntries, ih (fun e he => h e (by simp [he])), get_insertSorted, if_neg (show cliKey L k ≠ n from h (.mk k v d) (by simp))]

theorem cliEntries_names (n : List Char) (es : List Entry) (acc : List (Member L.F)) :
    n ∈ (cliEntries L acc es).map Member.name ↔
      n ∈ acc.map Member.name ∨ ∃ e ∈ es, cliKey L (entryKey e) = n := by
  induction es generalizing acc with
  | nil => rw [cliEntries]; simp
  | cons e es ih =>
    obtain ⟨k, v, d⟩ := e
    rw [cliEntries, ih, names_insertSorted]
    simp only [List.mem_cons, exists_eq_or_imp, entryKey]
    grind

theorem cliEntries_sorted (es : List Entry) {acc : List (Member L.F)}
    (h : (acc.map Member.name).Pairwise fun a b => before a b = true) :
    ((cliEntries L acc es).map Member.name).Pairwise fun a b => before a b = true := by
  induction es generalizing acc with
  | nil => rw [cliEntries]; exact h
  | cons e es ih =>
    obtain ⟨k, v, d⟩ := e
    rw [cliEntries]
    exact ih (sorted_insert _ _ h)

theorem itemsJson_get (items : List Value) (i : Nat) : (itemsJson L items)[i]? = (items[i]?).map (valueJson L) := by
  induction items generalizing i with
  | nil => rw [itemsJson]; simp
  | cons v vs ih =>
    rw [itemsJson]
    cases i with
    | zero => rfl
    | succ i => simpa using ih i

theorem cliItems_get (items : List Value) (i : Nat) : (cliItems L items)[i]? = (items[i]?).map (cliJson L) := by
  induction items generalizing i with
  | nil => rw [cliItems]; simp
  | cons v vs ih =>
    rw [cliItems]
    cases i with
    | zero => rfl
    | succ i => simpa using ih i

theorem itemsJson_length (items : List Value) : (itemsJson L items).length = items.length := by
  induction items with
  | nil => rw [itemsJson]; rfl
  | cons v vs ih => rw [itemsJson, List.length_cons, ih, List.length_cons]

theorem cliItems_length (items : List Value) : (cliItems L items).length = items.length := by
  induction items with
  | nil => rw [cliItems]; rfl
  | cons v vs ih => rw [cliItems, List.length_cons, ih, List.length_cons]

/-! ## Paths -/

theorem wasmKey_name {k : Value} (h : KeyForm k) : wasmKey L k = keyName k := by
  match k, h with
  | .mk none none _, _ => rfl
  | .mk (some t) none _, _ => rfl
  | .mk none (some (.scalar ..)) _, _ => rfl
  | .mk (some t) (some (.scalar ..)) _, _ => rfl

theorem cliKey_name {k : Value} (h : KeyForm k) : cliKey L k = cliName L k := by
  match k, h with
  | .mk none none _, _ => rfl
  | .mk (some t) none _, _ => rfl
  | .mk none (some (.scalar ..)) _, _ => rfl
  | .mk (some t) (some (.scalar ..)) _, _ => rfl

theorem entries_append (a b : List Entry) : EntriesExpressible (a ++ b) ↔ EntriesExpressible a ∧ EntriesExpressible b := by
  induction a with
  | nil => simp [EntriesExpressible]
  | cons e a ih =>
    obtain ⟨k, v, d⟩ := e
    rw [List.cons_append, EntriesExpressible, EntriesExpressible, ih]
    simp [and_assoc]

theorem entries_mem {es : List Entry} (h : EntriesExpressible es) {e : Entry} (he : e ∈ es) : KeyForm (entryKey e) := by
  induction es with
  | nil => cases he
  | cons x es ih =>
    obtain ⟨k, v, d⟩ := x
    rw [EntriesExpressible] at h
    rcases List.mem_cons.1 he with rfl | he
    · exact h.1
    · exact ih h.2.2 he

theorem all_get {vs : List Value} (h : AllExpressible vs) {i : Nat} {v : Value} (hv : vs[i]? = some v) : KeysExpressible v := by
  induction vs generalizing i with
  | nil => simp at hv
  | cons x vs ih =>
    rw [AllExpressible] at h
    cases i with
    | zero => simp at hv; subst hv; exact h.1
    | succ i => exact ih h.2 (by simpa using hv)

theorem payload_keys {t : Option Tag} {q : Payload} {sp sp' : Option Span} (h : KeysExpressible (.mk t (some q) sp)) :
    KeysExpressible (.mk none (some q) sp') := by
  match q, h with
  | .scalar .., _ => rw [KeysExpressible]; trivial; all_goals simp
  | .sequence .., h => rw [KeysExpressible] at h ⊢; exact h
  | .object .., h => rw [KeysExpressible] at h ⊢; exact h

theorem reaches_follow {v w : Value} {p : List Step} (h : Reaches (chars! "$value") keyName v p w)
    (hk : KeysExpressible v) : follow p (valueJson L v) = some (valueJson L w) ∧ KeysExpressible w := by
  induction h with
  | here v => exact ⟨by rw [follow], hk⟩
  | item hi _ ih =>
    rw [KeysExpressible] at hk
    have := ih (all_get hk hi)
    refine ⟨?_, this.2⟩
    rw [valueJson, payloadJson, follow, itemsJson_get, hi]
    exact this.1
  | @entry pre post k v w d sp sp' p hpost _ ih =>
    rw [KeysExpressible, entries_append, EntriesExpressible] at hk
    have := ih hk.2.2.1
    refine ⟨?_, this.2⟩
    rw [valueJson, payloadJson, follow, entriesJson_append, entriesJson, entriesJson_other, get_insert, wasmKey_name hk.2.1,
      if_pos rfl]
    · exact this.1
    · intro e he
      rw [wasmKey_name (entries_mem hk.2.2.2 he)]
      exact hpost e he
  | @payload t q sp sp' w p _ ih =>
    have := ih (payload_keys hk)
    refine ⟨?_, this.2⟩
    rw [valueJson, follow, get, if_neg (by decide), get, if_pos rfl]
    rw [valueJson] at this
    exact this.1

theorem reaches_cli {v w : Value} {p : List Step} (h : Reaches (chars! "$payload") (cliName L) v p w)
    (hk : KeysExpressible v) : follow p (cliJson L v) = some (cliJson L w) ∧ KeysExpressible w := by
  induction h with
  | here v => exact ⟨by rw [follow], hk⟩
  | item hi _ ih =>
    rw [KeysExpressible] at hk
    have := ih (all_get hk hi)
    refine ⟨?_, this.2⟩
    rw [cliJson, cliPayload, follow, cliItems_get, hi]
    exact this.1
  | @entry pre post k v w d sp sp' p hpost _ ih =>
    rw [KeysExpressible, entries_append, EntriesExpressible] at hk
    have := ih hk.2.2.1
    refine ⟨?_, this.2⟩
    rw [cliJson, cliPayload, follow, cliEntries_append, cliEntries, cliEntries_other, get_insertSorted, cliKey_name hk.2.1,
      if_pos rfl]
    · exact this.1
    · intro e he
      rw [cliKey_name (entries_mem hk.2.2.2 he)]
      exact hpost e he
  | @payload t q sp sp' w p _ ih =>
    have := ih (payload_keys hk)
    refine ⟨?_, this.2⟩
    rw [cliJson, follow, get_insertSorted, if_pos rfl]
    rw [cliJson] at this
    exact this.1

theorem looks_value (v : Value) (hk : KeysExpressible v) :
    Looks (chars! "$value") keyName (ScalarShows L) v (valueJson L v) := by
  match v, hk with
  | .mk none none _, _ => rfl
  | .mk none (some (.scalar s k sp)) _, _ =>
    rw [Looks, valueJson, payloadJson]
    unfold scalarJson
    split
    · rename_i n hn
      rw [Schema.parseI64, Schema.parseInt_iff] at hn
      exact .int hn.1 hn.2.1 (by omega)
    · rename_i hn
      have hni : ∀ n, Schema.IsInt s n → n < -(2 ^ 63) ∨ 2 ^ 63 ≤ n := by
        intro n h
        rw [Option.eq_none_iff_forall_not_mem] at hn
        have := hn n
        rw [Option.mem_def, Schema.parseI64, Schema.parseInt_iff] at this
        by_cases h1 : -(2 ^ 63) ≤ n
        · by_cases h2 : n ≤ 2 ^ 63 - 1
          · exact absurd ⟨h, h1, h2⟩ this
          · right; omega
        · left; omega
      split
      · rename_i x hx
        split
        · rename_i hf; exact .float hni hx hf
        · rename_i hf; exact .infinite hni hx (by simpa using hf)
      · rename_i hx
        split
        · rename_i h; subst h; exact .true_ hx rfl
        · split
          · rename_i h; subst h; exact .false_ hx rfl
          · split
            · rename_i h; subst h; exact .null hx rfl
            · rename_i h1 h2 h3; exact .str ⟨hni, hx, h1, h2, h3⟩
  | .mk none (some (.sequence items _)) _, _ => exact ⟨_, by rw [valueJson, payloadJson], itemsJson_length items⟩
  | .mk none (some (.object es _)) _, hk =>
    rw [KeysExpressible] at hk
    refine ⟨_, by rw [valueJson, payloadJson], entriesJson_nodup es (by simp), ?_⟩
    intro n
    rw [entriesJson_names]
    simp only [List.map_nil, List.not_mem_nil, false_or]
    constructor
    · rintro ⟨e, he, h⟩; exact ⟨e, he, by rw [← wasmKey_name (L := L) (entries_mem hk he)]; exact h⟩
    · rintro ⟨e, he, h⟩; exact ⟨e, he, by rw [wasmKey_name (L := L) (entries_mem hk he)]; exact h⟩
  | .mk (some t) none _, _ =>
    exact ⟨_, by rw [valueJson], rfl, by rw [get, if_neg (by decide)]; rfl⟩
  | .mk (some t) (some q) _, _ =>
    exact ⟨_, by rw [valueJson], rfl, by rw [get, if_neg (by decide), get, if_pos rfl]; rfl⟩

theorem looks_cli (v : Value) (hk : KeysExpressible v) :
    Looks (chars! "$payload") (cliName L) (fun s j => j = .str s) v (cliJson L v) := by
  match v, hk with
  | .mk none none _, _ => rfl
  | .mk none (some (.scalar s k sp)) _, _ => rw [Looks, cliJson, cliPayload]
  | .mk none (some (.sequence items _)) _, _ => exact ⟨_, by rw [cliJson, cliPayload], cliItems_length items⟩
  | .mk none (some (.object es _)) _, hk =>
    rw [KeysExpressible] at hk
    refine ⟨_, by rw [cliJson, cliPayload], ?_, ?_⟩
    · have := cliEntries_sorted (L := L) es (acc := []) (by simp)
      refine this.imp ?_
      rintro a b hb rfl
      rw [before_irrefl] at hb
      cases hb
    intro n
    rw [cliEntries_names]
    simp only [List.map_nil, List.not_mem_nil, false_or]
    constructor
    · rintro ⟨e, he, h⟩; exact ⟨e, he, by rw [← cliKey_name (L := L) (entries_mem hk he)]; exact h⟩
    · rintro ⟨e, he, h⟩; exact ⟨e, he, by rw [cliKey_name (L := L) (entries_mem hk he)]; exact h⟩
  | .mk (some t) none _, _ =>
    exact ⟨_, by rw [cliJson], rfl, by rw [insertSorted, get, if_neg (by decide)]; rfl⟩
  | .mk (some t) (some q) _, _ =>
    refine ⟨_, by rw [cliJson], ?_, ?_⟩
    · rw [get_insertSorted, if_neg (by decide)]; rfl
    · rw [get_insertSorted, if_pos rfl]; rfl

end Styx.Json
