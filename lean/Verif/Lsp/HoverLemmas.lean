import Verif.Lsp.Hover
import Verif.Lsp.HoverSpec
import Verif.Props.Navigate

/-!
# Lemmas: hover
-/

namespace Styx.Lsp

open Styx Styx.Spec Styx.Props

/-! ### First names -/

theorem find_firstNamed {es : List Entry} {name : List Char} {e : Entry}
    (h : es.find? (fun e => e.key.asStr == some name) = some e) : FirstNamed es name e := by
  obtain ⟨h1, a, b, rfl, h2⟩ := List.find?_eq_some_iff_append.mp h
  exact ⟨a, b, rfl, by simpa using h1, fun x hx => by simpa using h2 x hx⟩

theorem firstNamed_find {es : List Entry} {name : List Char} {e : Entry} (h : FirstNamed es name e) :
    es.find? (fun e => e.key.asStr == some name) = some e := by
  obtain ⟨a, b, rfl, h1, h2⟩ := h
  exact List.find?_eq_some_iff_append.mpr ⟨by simpa using h1, a, b, rfl, fun x hx => by simpa using h2 x hx⟩

theorem firstNamed_get {es : List Entry} {name : List Char} {e : Entry} (h : FirstNamed es name e) :
    objGet es name = some e.value := by simp [objGet, firstNamed_find h]

theorem firstNamed_unique {es : List Entry} {name : List Char} {e e' : Entry} (h : FirstNamed es name e)
    (h' : FirstNamed es name e') : e = e' := by
  have := (firstNamed_find h).symm.trans (firstNamed_find h')
  simpa using this

theorem objGet_firstNamed {es : List Entry} {name : List Char} {v : Value} (h : objGet es name = some v) :
    ∃ e, FirstNamed es name e ∧ v = e.value := by
  simp only [objGet, Option.map_eq_some_iff] at h
  obtain ⟨e, h, rfl⟩ := h
  exact ⟨e, find_firstNamed h, rfl⟩

theorem firstNamed_mem {es : List Entry} {name : List Char} {e : Entry} (h : FirstNamed es name e) : e ∈ es := by
  obtain ⟨a, b, rfl, _⟩ := h; simp

/-! ### References -/

theorem isTypeRef_payload {v : Value} (h : isTypeRef v = true) :
    v.payload = none ∨ ∃ k sp, v.payload = some (.scalar [] k sp) := by
  obtain ⟨t, p, sp⟩ := v
  rcases p with _ | ⟨text, k, s⟩ | _ | _
  · exact .inl rfl
  · simp only [isTypeRef, Value.payload, Bool.and_eq_true, List.isEmpty_iff] at h
    exact .inr ⟨k, s, by rw [h.2]; rfl⟩
  · simp [isTypeRef, Value.payload] at h
  · simp [isTypeRef, Value.payload] at h

theorem resolveRef_cases (defs : List Entry) (v : Value) :
    resolveRef defs v = v ∨ ∃ n e, LeadsToName n v ∧ FirstNamed defs n e ∧ resolveRef defs v = e.value := by
  simp only [resolveRef]
  split
  · rename_i name hn
    split
    · rename_i hr
      cases h : objGet defs name with
      | none => exact .inl rfl
      | some w =>
        obtain ⟨e, h1, rfl⟩ := objGet_firstNamed h
        exact .inr ⟨name, e, .ref hn (isTypeRef_payload hr), h1, rfl⟩
    · exact .inl rfl
  · exact .inl rfl

theorem resolveRef_ref {defs : List Entry} {v : Value} {e : Entry} (h : RefTo defs v e) : resolveRef defs v = e.value := by
  obtain ⟨name, h1, h2, h3⟩ := h
  have h4 : isTypeRef v = true := by
    simp only [Value.tagName, Option.map_eq_some_iff] at h1
    obtain ⟨t, h1, _⟩ := h1
    simp [isTypeRef, h1, h2]
  simp [resolveRef, h1, h4, firstNamed_get h3]

theorem resolveRef_object {defs : List Entry} {v : Value} {es : List Entry} (h : v.asObject = some es) :
    resolveRef defs v = v := by
  obtain ⟨t, p, sp⟩ := v
  rcases p with _ | _ | _ | _ <;> simp [Value.asObject] at h
  simp only [resolveRef, isTypeRef, Value.payload]
  split <;> simp

theorem resolveRef_sequence {defs : List Entry} {v : Value} {es : List Value} (h : v.asSequence = some es) :
    resolveRef defs v = v := by
  obtain ⟨t, p, sp⟩ := v
  rcases p with _ | _ | _ | _ <;> simp [Value.asSequence] at h
  simp only [resolveRef, isTypeRef, Value.payload]
  split <;> simp

theorem resolveRef_untagged {defs : List Entry} {v : Value} (h : v.tag = none) : resolveRef defs v = v := by
  simp [resolveRef, Value.tagName, h]

theorem entry_smaller {v : Value} {es : List Entry} {e : Entry} (h : v.asObject = some es) (he : e ∈ es) :
    sizeOf e.value < sizeOf v := by
  obtain ⟨t, p, sp⟩ := v
  rcases p with _ | _ | _ | ⟨es', o⟩ <;> simp [Value.asObject] at h
  subst h
  have := List.sizeOf_lt_of_mem he
  obtain ⟨k, w, d⟩ := e
  simp [Entry.value] at *
  omega

theorem item_smaller {v x : Value} {items : List Value} (h : v.asSequence = some items) (hx : x ∈ items) :
    sizeOf x < sizeOf v := by
  obtain ⟨t, p, sp⟩ := v
  rcases p with _ | _ | ⟨es', o⟩ | _ <;> simp [Value.asSequence] at h
  subst h
  have := List.sizeOf_lt_of_mem hx
  simp at *
  omega

/-! ### Loops that settle -/

theorem settles_const {α : Type} (a : α) : Settles (fun _ => Outcome.done a) (.done a) := ⟨nofun, 0, fun _ _ => rfl⟩

theorem firstAnswer_settles {α β : Type} {Q : β → Prop} (f : Nat → α → Outcome (Option β)) :
    ∀ (xs : List α), (∀ x ∈ xs, ∃ r, Settles (fun n => f n x) (.done r) ∧ ∀ b, r = some b → Q b) →
      ∃ r, Settles (fun n => firstAnswer (f n) xs) (.done r) ∧ ∀ b, r = some b → Q b
  | [], _ => ⟨none, settles_const _, nofun⟩
  | x :: xs, h => by
    obtain ⟨r, h1, h2⟩ := h x (List.mem_cons_self ..)
    cases r with
    | some b => exact ⟨some b, settles_bind h1 (settles_const _), h2⟩
    | none =>
      obtain ⟨r', g1, g2⟩ := firstAnswer_settles f xs fun y hy => h y (List.mem_cons_of_mem _ hy)
      exact ⟨r', settles_bind h1 g1, g2⟩

theorem fieldIn_settles (d : Nat → Value → List (List Char) → Outcome (Option FieldInfo)) (name : List Char)
    (rest : List (List Char)) (hrest : ∀ v, ∃ r, Settles (fun n => d n v rest) (.done r)) :
    ∀ (es : List Entry), (∀ e ∈ es, e.key.isUnit = true → ∃ r, Settles (fun n => d n e.value (name :: rest)) (.done r)) →
      ∃ r, Settles (fun n => fieldIn (d n) name rest es) (.done r)
  | [], _ => ⟨none, settles_const _⟩
  | e :: es, h => by
    by_cases hk : e.key.asStr = some name
    · by_cases hr : rest = []
      · simp only [fieldIn, if_pos hk, if_pos hr]
        exact ⟨_, settles_const _⟩
      · simp only [fieldIn, if_pos hk, if_neg hr]
        exact hrest e.value
    · obtain ⟨r', g⟩ := fieldIn_settles d name rest hrest es fun x hx => h x (List.mem_cons_of_mem _ hx)
      by_cases hu : e.key.isUnit = true
      · simp only [fieldIn, if_neg hk, if_pos hu]
        obtain ⟨r, g1⟩ := h e (List.mem_cons_self ..) hu
        cases r with
        | some i => exact ⟨some i, settles_bind g1 (settles_const _)⟩
        | none => exact ⟨r', settles_bind g1 g⟩
      · simp only [fieldIn, if_neg hk, if_neg hu]
        exact ⟨r', g⟩

/-! ### Hover answers when no name leads back to itself -/

/-- `objectWithDefs` after the reference is resolved. -/
def openResolved (defs : List Entry) (n : Nat) (r : Value) : Outcome (Option (List Entry)) :=
  match r.asObject with
  | some es => .done (some es)
  | none =>
    if r.tag.isSome then
      match r.asSequence with
      | some items => firstAnswer (objectWithDefs defs n) items
      | none => .done none
    else .done none

theorem objectWithDefs_succ (defs : List Entry) (n : Nat) (v : Value) :
    objectWithDefs defs (n + 1) v = openResolved defs n (resolveRef defs v) := rfl

/-- Hover answers for the type and the path, and so do the searches for the object of the type. -/
def Answers (defs : List Entry) (p : List (List Char)) (v : Value) : Prop :=
  (∃ r, Settles (fun n => fieldInfo defs n v p) (.done r)) ∧
  ∃ r, Settles (fun n => openResolved defs n v) (.done r) ∧
    ∀ es, r = some es → ∀ e ∈ es, e.key.isUnit = true → ∃ r, Settles (fun n => fieldInfo defs n e.value p) (.done r)

theorem valueInfo_settles {defs : List Entry} {rest : List (List Char)}
    (hrest : ∀ v, ∃ r, Settles (fun n => fieldInfo defs n v rest) (.done r)) (t : Value) :
    ∃ r, Settles (fun n => valueInfo (fieldInfo defs n) defs t rest) (.done r) := by
  by_cases hr : rest = []
  · simp only [valueInfo, if_pos hr]
    exact ⟨_, settles_const _⟩
  · simp only [valueInfo, if_neg hr]
    exact hrest _

theorem answers_step {defs : List Entry} {name : List Char} {rest : List (List Char)}
    (hrest : ∀ v, ∃ r, Settles (fun n => fieldInfo defs n v rest) (.done r)) (v : Value)
    (h : ∀ n e, LeadsToName n v → FirstNamed defs n e → Answers defs (name :: rest) e.value) :
    Answers defs (name :: rest) v := by
  have hobj : ∀ es, v.asObject = some es → ∀ e ∈ es, (Braces v (chars! "enum") es ∨ e.key.isUnit = true) →
      Answers defs (name :: rest) e.value := by
    intro es hes e he hor
    have := entry_smaller hes he
    exact answers_step hrest e.value fun n e' hn he' =>
      h n e' (hor.elim (.variant · he hn) (.unit hes he · hn)) he'
  have hitem : ∀ items, v.asSequence = some items → ∀ x ∈ items, Answers defs (name :: rest) (resolveRef defs x) := by
    intro items hit x hx
    have := item_smaller hit hx
    rcases resolveRef_cases defs x with hr | ⟨n, e, h1, h2, hr⟩
    · rw [hr]
      exact answers_step hrest x fun n e' hn he' => h n e' (.item hit hx hn) he'
    · rw [hr]
      exact h n e (.item hit hx h1) h2
  have hopen : ∃ r, Settles (fun n => openResolved defs n v) (.done r) ∧
      ∀ es, r = some es → ∀ e ∈ es, e.key.isUnit = true →
        ∃ r, Settles (fun n => fieldInfo defs n e.value (name :: rest)) (.done r) := by
    simp only [openResolved]
    split
    · rename_i es hes
      exact ⟨_, settles_const _, fun es' h' e he hu => by
        cases h'
        exact (hobj es hes e he (.inr hu)).1⟩
    · split
      · split
        · rename_i items hit
          refine firstAnswer_settles (fun n => objectWithDefs defs n) items fun x hx => ?_
          obtain ⟨r, g1, g2⟩ := (hitem items hit x hx).2
          exact ⟨r, settles_succ (fun n => objectWithDefs_succ defs n x) g1, g2⟩
        · exact ⟨_, settles_const _, nofun⟩
      · exact ⟨_, settles_const _, nofun⟩
  refine ⟨?_, hopen⟩
  have key : ∃ r, Settles (fun n => (match (if (parseUsize name).isSome then seqElement v else none) with
    | some t => fieldInfo defs n (resolveRef defs t) rest
    | none =>
      match mapValueType v with
      | some t => valueInfo (fieldInfo defs n) defs t rest
      | none =>
        match anyKeyType v with
        | some t => valueInfo (fieldInfo defs n) defs t rest
        | none =>
          match variantsOf v with
          | some es => firstAnswer (fun e => fieldInfo defs n (resolveRef defs e.value) (name :: rest)) es
          | none => (objectWithDefs defs n v).bind fun
            | some es => fieldIn (fieldInfo defs n) name rest es
            | none => .done none)) (.done r) := by
    split
    · exact hrest _
    · split
      · exact valueInfo_settles hrest _
      · split
        · exact valueInfo_settles hrest _
        · split
          · rename_i es hv
            have hb : Braces v (chars! "enum") es := by
              simp only [variantsOf] at hv
              split at hv
              · exact ⟨by assumption, hv⟩
              · cases hv
            obtain ⟨r, g, _⟩ := firstAnswer_settles (Q := fun _ => True)
              (fun n e => fieldInfo defs n (resolveRef defs e.value) (name :: rest)) es fun e he => by
                rcases resolveRef_cases defs e.value with hr | ⟨n, e', h1, h2, hr⟩
                · rw [hr]
                  obtain ⟨r, g⟩ := (hobj es hb.2 e he (.inl hb)).1
                  exact ⟨r, g, fun _ _ => trivial⟩
                · rw [hr]
                  obtain ⟨r, g⟩ := (h n e' (.variant hb he h1) h2).1
                  exact ⟨r, g, fun _ _ => trivial⟩
            exact ⟨r, g⟩
          · have hop : ∃ r, Settles (fun n => objectWithDefs defs n v) (.done r) ∧
                ∀ es, r = some es → ∀ e ∈ es, e.key.isUnit = true →
                  ∃ r, Settles (fun n => fieldInfo defs n e.value (name :: rest)) (.done r) := by
              rcases resolveRef_cases defs v with hr | ⟨n, e', h1, h2, hr⟩
              · obtain ⟨r, g1, g2⟩ := hopen
                exact ⟨r, settles_succ (fun n => by rw [objectWithDefs_succ, hr]) g1, g2⟩
              · obtain ⟨r, g1, g2⟩ := (h n e' h1 h2).2
                exact ⟨r, settles_succ (fun n => by rw [objectWithDefs_succ, hr]) g1, g2⟩
            obtain ⟨r, g1, g2⟩ := hop
            cases r with
            | none => exact ⟨none, settles_bind g1 (settles_const _)⟩
            | some es =>
              obtain ⟨r', g3⟩ := fieldIn_settles (fun n => fieldInfo defs n) name rest hrest es (g2 es rfl)
              exact ⟨r', settles_bind g1 g3⟩
  obtain ⟨r, hr⟩ := key
  exact ⟨r, settles_succ (fun n => by rw [fieldInfo]; rfl) hr⟩
termination_by sizeOf v

theorem fieldInfo_settles {defs : List Entry} (h : NoLoops defs) :
    ∀ (p : List (List Char)) (v : Value), ∃ r, Settles (fun n => fieldInfo defs n v p) (.done r)
  | [], v => ⟨none, settles_done (fun n => by rw [fieldInfo]) (nofun)⟩
  | name :: rest, v => by
    have hrest := fieldInfo_settles h rest
    obtain ⟨rank, hrank⟩ := h
    have hdef : ∀ k m e, rank m < k → FirstNamed defs m e → Answers defs (name :: rest) e.value := by
      intro k
      induction k with
      | zero => intro m e hm; omega
      | succ k ih =>
        intro m e hm he
        exact answers_step hrest e.value fun n e' hn he' => ih n e' (by have := hrank m e he n hn; omega) he'
    exact (answers_step hrest v fun n e _ he => hdef (rank n + 1) n e (by omega) he).1

end Styx.Lsp
