import Verif.Gen.GoText

/-!
# Generated Go code uses only types it declares
-/

namespace Styx.Go
open Styx.Schema Styx.Spec

variable {F : Type} {upper : Char → List Char}

/-- The names that are declared in the end, as far as the table is filled. -/
def Known (sf : SchemaFile F) (ts : Types F) (n : List Char) : Prop :=
  n ∈ keys ts ∨ ∃ s, (some n, s) ∈ sf

/-- A type that is written, and whose fields use known names. -/
def Fine (K : List Char → Prop) : GoType F → Prop
  | .struct gs => ∀ g ∈ gs, GoTypeText K g.typeName
  | .enum _ => True
  | .primitive _ => False

theorem Fine.mono {P Q : List Char → Prop} (h : ∀ n, P n → Q n) {t : GoType F} (ht : Fine P t) :
    Fine Q t := by
  cases t with
  | struct gs => exact fun g hg => GoTypeText.mono h (ht g hg)
  | enum => trivial
  | primitive => exact ht

/-- A table whose types are written and use known names, larger than another. -/
structure Written (sf : SchemaFile F) (ts ts' : Types F) : Prop where
  fine : ∀ {m t}, (m, t) ∈ ts' → Fine (Known sf ts') t
  more : ∀ {k}, k ∈ keys ts → k ∈ keys ts'

theorem Written.known {sf : SchemaFile F} {ts ts' : Types F} (h : Written sf ts ts') {n : List Char} :
    Known sf ts n → Known sf ts' n := fun h' => h'.imp h.more id

theorem Written.insert {sf : SchemaFile F} {ts ts' : Types F} (h : Written sf ts ts') {k : List Char}
    {t : GoType F} (ht : Fine (Known sf ts') t) : Written sf ts (insert k t ts') := by
  have up : ∀ n, Known sf ts' n → Known sf (Go.insert k t ts') n :=
    fun n hn => hn.imp (fun h => insert_keys.2 (Or.inr h)) id
  refine ⟨fun hm => ?_, fun hk => insert_keys.2 (Or.inr (h.more hk))⟩
  rcases insert_mem hm with hm | hm
  · cases hm; exact ht.mono up
  · exact (h.fine hm).mono up

theorem optionalType_text {P : List Char → Prop} {t : List Char} (h : GoTypeText P t) (o : Bool) :
    GoTypeText P (optionalType o t) := by
  rw [optionalType]
  split
  · exact .pointer h
  · exact h

theorem mapField_plain {sf : SchemaFile F} (s : Schema F)
    (ts : Types F) (parent name : List Char) (o : Bool) (hi : ∀ {m t}, (m, t) ∈ ts → Fine (Known sf ts) t)
    (hn : ∀ n, Inside (.type (some n)) s → (∃ s, (some n, s) ∈ sf) ∧ PascalCase upper n)
    (h1 : ∀ v i, s ≠ .default v i) (h2 : ∀ i, s ≠ .optional i) (h3 : ∀ fs, s ≠ .object fs) :
    Written sf ts (mapField upper ts parent name o s).2 ∧
      GoTypeText (Known sf (mapField upper ts parent name o s).2)
        (mapField upper ts parent name o s).1.typeName := by
  have he : mapField upper ts parent name o s =
      (fieldOf upper name o (typeName upper s) (extractConstraints s), ts) := by
    cases s <;> first | rfl | (exfalso; simp_all)
  rw [he]
  refine ⟨⟨hi, id⟩, optionalType_text (typeName_text s fun n h => ?_) o⟩
  exact ⟨Or.inr (hn n h).1, (hn n h).2⟩

mutual
theorem mapField_written {sf : SchemaFile F} : ∀ (s : Schema F)
    (ts : Types F) (parent name : List Char) (o : Bool), (∀ {m t}, (m, t) ∈ ts → Fine (Known sf ts) t) →
    (∀ n, Inside (.type (some n)) s → (∃ s, (some n, s) ∈ sf) ∧ PascalCase upper n) →
    Written sf ts (mapField upper ts parent name o s).2 ∧
      GoTypeText (Known sf (mapField upper ts parent name o s).2)
        (mapField upper ts parent name o s).1.typeName
  | .default v inner, ts, parent, name, o, hi, hn => by
    rw [mapField]
    exact mapField_written inner ts parent name o hi (fun n h => hn n (.default h))
  | .optional inner, ts, parent, name, o, hi, hn => by
    rw [mapField]
    exact mapField_written inner ts parent name true hi (fun n h => hn n (.optional h))
  | .object fields, ts, parent, name, o, hi, hn => by
    rw [mapField]
    by_cases hk : (ts.any (·.1 = parent ++ pascal upper name)) = true
    · simp only [hk, if_true]
      exact ⟨⟨hi, id⟩, optionalType_text (.declared (Or.inl (any_keys.1 hk))) o⟩
    · simp only [hk]
      have ih := mapFields_written fields ts (parent ++ pascal upper name) hi
        (fun e he n h => hn n (.object (key := e.1) he h))
      exact ⟨ih.1.insert ih.2,
        optionalType_text (.declared (Or.inl (insert_keys.2 (Or.inl rfl)))) o⟩
  | .string c, ts, parent, name, o, hi, hn => mapField_plain (.string c) ts parent name o hi hn (by simp) (by simp) (by simp)
  | .int c, ts, parent, name, o, hi, hn => mapField_plain (.int c) ts parent name o hi hn (by simp) (by simp) (by simp)
  | .float c, ts, parent, name, o, hi, hn => mapField_plain (.float c) ts parent name o hi hn (by simp) (by simp) (by simp)
  | .bool, ts, parent, name, o, hi, hn => mapField_plain .bool ts parent name o hi hn (by simp) (by simp) (by simp)
  | .unit, ts, parent, name, o, hi, hn => mapField_plain .unit ts parent name o hi hn (by simp) (by simp) (by simp)
  | .any, ts, parent, name, o, hi, hn => mapField_plain .any ts parent name o hi hn (by simp) (by simp) (by simp)
  | .seq i, ts, parent, name, o, hi, hn => mapField_plain (.seq i) ts parent name o hi hn (by simp) (by simp) (by simp)
  | .tuple i, ts, parent, name, o, hi, hn => mapField_plain (.tuple i) ts parent name o hi hn (by simp) (by simp) (by simp)
  | .map i, ts, parent, name, o, hi, hn => mapField_plain (.map i) ts parent name o hi hn (by simp) (by simp) (by simp)
  | .union i, ts, parent, name, o, hi, hn => mapField_plain (.union i) ts parent name o hi hn (by simp) (by simp) (by simp)
  | .enum i, ts, parent, name, o, hi, hn => mapField_plain (.enum i) ts parent name o hi hn (by simp) (by simp) (by simp)
  | .oneOf i a, ts, parent, name, o, hi, hn => mapField_plain (.oneOf i a) ts parent name o hi hn (by simp) (by simp) (by simp)
  | .flatten i, ts, parent, name, o, hi, hn => mapField_plain (.flatten i) ts parent name o hi hn (by simp) (by simp) (by simp)
  | .deprecated r i, ts, parent, name, o, hi, hn => mapField_plain (.deprecated r i) ts parent name o hi hn (by simp) (by simp) (by simp)
  | .literal i, ts, parent, name, o, hi, hn => mapField_plain (.literal i) ts parent name o hi hn (by simp) (by simp) (by simp)
  | .type i, ts, parent, name, o, hi, hn => mapField_plain (.type i) ts parent name o hi hn (by simp) (by simp) (by simp)
theorem mapEntry_written {sf : SchemaFile F} :
    ∀ (e : ObjectKey × Schema F) (ts : Types F) (parent : List Char),
    (∀ {m t}, (m, t) ∈ ts → Fine (Known sf ts) t) →
    (∀ n, Inside (.type (some n)) e.2 → (∃ s, (some n, s) ∈ sf) ∧ PascalCase upper n) →
    Written sf ts (mapEntry upper ts parent e).2 ∧
      ∀ g ∈ (mapEntry upper ts parent e).1,
        GoTypeText (Known sf (mapEntry upper ts parent e).2) g.typeName
  | (key, s), ts, parent, hi, hn => by
    rw [mapEntry]
    cases hv : key.value with
    | none => exact ⟨⟨hi, id⟩, fun g h => by simp at h⟩
    | some n =>
      have := mapField_written s ts parent n false hi hn
      refine ⟨this.1, fun g hg => ?_⟩
      cases hg
      exact this.2
theorem mapFields_written {sf : SchemaFile F} :
    ∀ (es : List (ObjectKey × Schema F)) (ts : Types F) (parent : List Char),
    (∀ {m t}, (m, t) ∈ ts → Fine (Known sf ts) t) →
    (∀ e ∈ es, ∀ n, Inside (.type (some n)) e.2 → (∃ s, (some n, s) ∈ sf) ∧ PascalCase upper n) →
    Written sf ts (mapFields upper ts parent es).2 ∧
      ∀ g ∈ (mapFields upper ts parent es).1,
        GoTypeText (Known sf (mapFields upper ts parent es).2) g.typeName
  | [], ts, parent, hi, hn => ⟨⟨hi, id⟩, fun _ h => nomatch h⟩
  | e :: rest, ts, parent, hi, hn => by
    rw [mapFields]
    have h1 := mapEntry_written e ts parent hi (hn _ (List.mem_cons_self ..))
    have h2 := mapFields_written rest (mapEntry upper ts parent e).2 parent h1.1.fine
      (fun x hx => hn x (List.mem_cons_of_mem _ hx))
    refine ⟨⟨h2.1.fine, fun hk => h2.1.more (h1.1.more hk)⟩, fun g hg => ?_⟩
    rcases List.mem_append.1 hg with hg | hg
    · exact GoTypeText.mono (fun n => h2.1.known) (h1.2 g (by simpa using hg))
    · exact h2.2 g hg
end

theorem mapType_enum {s : Schema F} {vs : List (List Char)} (h : DefinesEnum s vs) :
    ∀ (ts : Types F) (parent : List Char), mapType upper ts parent s = (.enum vs, ts) := by
  induction h with
  | enum vs => intro ts parent; rw [mapType]
  | default _ ih => intro ts parent; rw [mapType]; exact ih ts parent
  | flatten _ ih => intro ts parent; rw [mapType]; exact ih ts parent
  | deprecated _ ih => intro ts parent; rw [mapType]; exact ih ts parent

theorem inside_object {s t : Schema F} {fs : List (ObjectKey × Schema F)} (h : DefinesObject s fs)
    {e : ObjectKey × Schema F} (he : e ∈ fs) (hi : Inside t e.2) : Inside t s := by
  induction h with
  | object fs => exact .object (key := e.1) he hi
  | default _ ih => exact .default (ih he)
  | flatten _ ih => exact .flatten (ih he)
  | deprecated _ ih => exact .deprecated (ih he)

theorem generate_written {sf : SchemaFile F}
    (hd : ∀ k s, (k, s) ∈ sf → (∃ fs, DefinesObject s fs) ∨ ∃ vs, DefinesEnum s vs)
    (hr : ∀ k s n, (k, s) ∈ sf → Inside (.type (some n)) s →
      (∃ s', (some n, s') ∈ sf) ∧ PascalCase upper n) :
    (∀ {m t}, (m, t) ∈ generate upper sf → Fine (Known sf (generate upper sf)) t) ∧
      ∀ k s, (k, s) ∈ sf → nameOf k ∈ keys (generate upper sf) := by
  have key : ∀ (l : SchemaFile F) (ts : Types F), (∀ e ∈ l, e ∈ sf) →
      (∀ {m t}, (m, t) ∈ ts → Fine (Known sf ts) t) →
      Written sf ts (l.foldl (fun types e => registerType upper types (nameOf e.1) e.2) ts) ∧
      ∀ k s, (k, s) ∈ l →
        nameOf k ∈ keys (l.foldl (fun types e => registerType upper types (nameOf e.1) e.2) ts) := by
    intro l
    induction l with
    | nil => intro ts _ hi; exact ⟨⟨hi, id⟩, fun _ _ h => nomatch h⟩
    | cons e rest ih =>
      intro ts hl hi
      have hmem := hl e (List.mem_cons_self ..)
      have h1 : Written sf ts (registerType upper ts (nameOf e.1) e.2) ∧
          nameOf e.1 ∈ keys (registerType upper ts (nameOf e.1) e.2) := by
        rw [registerType]
        rcases hd e.1 e.2 hmem with ⟨fs, h⟩ | ⟨vs, h⟩
        · have hf := mapFields_written fs ts (nameOf e.1) hi
            (fun x hx n hn => hr e.1 e.2 n hmem (inside_object h hx hn))
          rw [mapFields_fst] at hf
          rw [mapType_object h]
          exact ⟨hf.1.insert hf.2, insert_keys.2 (Or.inl rfl)⟩
        · rw [mapType_enum h]
          exact ⟨Written.insert ⟨hi, id⟩ trivial, insert_keys.2 (Or.inl rfl)⟩
      have h2 := ih (registerType upper ts (nameOf e.1) e.2)
        (fun x hx => hl x (List.mem_cons_of_mem _ hx)) h1.1.fine
      refine ⟨⟨h2.1.fine, fun hk => h2.1.more (h1.1.more hk)⟩, fun k s hm => ?_⟩
      rcases List.mem_cons.1 hm with hm | hm
      · subst hm
        exact h2.1.more h1.2
      · exact h2.2 k s hm
  have := key sf [] (fun e he => he) (fun h => nomatch h)
  exact ⟨this.1.fine, this.2⟩

/-- The text of a type that is written is in the file of types. -/
theorem definition_in_file {ts : Types F} {m : List Char} {t : GoType F} (h : (m, t) ∈ ts) :
    typeDefinition upper m t <:+: typesFile upper ts := by
  obtain ⟨a, b, rfl⟩ := List.append_of_mem h
  refine ⟨(a.map fun e => typeDefinition upper e.1 e.2 ++ chars! "\n").flatten,
    chars! "\n" ++ (b.map fun e => typeDefinition upper e.1 e.2 ++ chars! "\n").flatten, ?_⟩
  simp [typesFile]

theorem definition_starts {m : List Char} {t : GoType F} {K : List Char → Prop} (h : Fine K t) :
    (chars! "type " ++ m ++ chars! " ") <+: typeDefinition upper m t := by
  cases t with
  | struct gs =>
    exact ⟨chars! "struct {\n" ++ (gs.map fieldLine).flatten ++ chars! "}\n", by
      simp [typeDefinition]⟩
  | enum vs =>
    exact ⟨chars! "string\n\nconst (\n" ++
      (vs.map fun v => chars! "\t" ++ m ++ pascal upper v ++ chars! " " ++ m ++
        chars! " = \"" ++ v ++ chars! "\"\n").flatten ++ chars! ")\n", by
      simp [typeDefinition]⟩
  | primitive => exact h.elim

end Styx.Go
