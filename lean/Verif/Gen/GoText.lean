import Verif.Gen.GoLemmas

/-!
# The types and names in generated Go code
-/

namespace Styx.Go
open Styx.Schema Styx.Spec

variable {F : Type} {upper : Char → List Char}

/-! ## Names -/

theorem words_plain : ∀ {n : List Char}, '_' ∉ n → '-' ∉ n → words n = [n]
  | [], _, _ => rfl
  | c :: rest, h1, h2 => by
    simp only [List.mem_cons, not_or] at h1 h2
    rw [words, if_neg (by grind), words_plain h1.2 h2.2]

theorem pascal_id {n : List Char} (h : PascalCase upper n) : pascal upper n = n := by
  obtain ⟨c, rest, rfl, hu, h1, h2⟩ := h
  rw [pascal, words_plain h1 h2]
  simp [capitalise, hu]

def isSmall (c : Char) : Bool := decide ('a' ≤ c ∧ c ≤ 'z')

theorem words_snake : ∀ {w : List Char} {rest : List Char}, (∀ c ∈ w, 'a' ≤ c ∧ c ≤ 'z') →
    words (w ++ '_' :: rest) = w :: words rest
  | [], rest, _ => by simp [words]
  | c :: w, rest, h => by
    have hc := h c (List.mem_cons_self ..)
    have : ¬ (c = '_' ∨ c = '-') := by
      rintro (rfl | rfl)
      · exact absurd hc (by decide)
      · exact absurd hc (by decide)
    rw [List.cons_append, words, if_neg this, words_snake (fun c hc => h c (List.mem_cons_of_mem _ hc))]

theorem words_small {w : List Char} (h : ∀ c ∈ w, 'a' ≤ c ∧ c ≤ 'z') : words w = [w] := by
  refine words_plain (fun hm => ?_) (fun hm => ?_)
  · exact absurd (h _ hm) (by decide)
  · exact absurd (h _ hm) (by decide)

theorem words_intercalate : ∀ {ws : List (List Char)}, ws ≠ [] →
    (∀ w ∈ ws, w ≠ [] ∧ ∀ c ∈ w, 'a' ≤ c ∧ c ≤ 'z') → words (List.intercalate ['_'] ws) = ws
  | [], h, _ => absurd rfl h
  | [w], _, h => by
    have := words_small (h w (List.mem_cons_self ..)).2
    simpa [List.intercalate, List.intersperse] using this
  | w :: w' :: ws, _, h => by
    have ih := words_intercalate (ws := w' :: ws) (by simp) (fun x hx => h x (List.mem_cons_of_mem _ hx))
    have := words_snake (rest := List.intercalate ['_'] (w' :: ws)) (h w (List.mem_cons_self ..)).2
    rw [ih] at this
    simpa [List.intercalate, List.intersperse] using this

theorem pascal_snake {ws : List (List Char)} (hne : ws ≠ [])
    (h : ∀ w ∈ ws, w ≠ [] ∧ ∀ c ∈ w, 'a' ≤ c ∧ c ≤ 'z') :
    pascal upper (List.intercalate ['_'] ws) = (ws.map (capitalise upper)).flatten := by
  rw [pascal, words_intercalate hne h]
  congr 2
  rw [List.filter_eq_self]
  intro w hw
  have := (h w hw).1
  cases w <;> simp_all

theorem takeWhile_small {w x : List Char} (hw : ∀ c ∈ w, 'a' ≤ c ∧ c ≤ 'z')
    (hx : ∀ c ∈ x.head?, isSmall c = false) : (w ++ x).takeWhile isSmall = w := by
  rw [List.takeWhile_append_of_pos (by intro c hc; simpa [isSmall] using hw c hc)]
  cases x with
  | nil => simp
  | cons c r => simp [List.takeWhile, hx c (by simp)]

theorem toUpper_small {c : Char} (h : 'a' ≤ c ∧ c ≤ 'z') : isSmall c.toUpper = false := by
  have : ∀ n : Fin 26, isSmall (Char.ofNat (97 + n)).toUpper = false := by decide +kernel
  have h1 : 97 ≤ c.toNat ∧ c.toNat ≤ 122 := by
    have ha : ('a').toNat ≤ c.toNat := h.1
    have hz : c.toNat ≤ ('z').toNat := h.2
    exact ⟨ha, hz⟩
  have h2 := this ⟨c.toNat - 97, by omega⟩
  have h3 : 97 + (c.toNat - 97) = c.toNat := by omega
  simpa [h3] using h2

theorem toUpper_inj {c d : Char} (h : 'a' ≤ c ∧ c ≤ 'z') (h' : 'a' ≤ d ∧ d ≤ 'z')
    (he : c.toUpper = d.toUpper) : c = d := by
  have key : ∀ n m : Fin 26, (Char.ofNat (97 + n)).toUpper = (Char.ofNat (97 + m)).toUpper → n = m := by
    decide +kernel
  have b : ∀ {c : Char}, 'a' ≤ c ∧ c ≤ 'z' → 97 ≤ c.toNat ∧ c.toNat ≤ 122 := fun h => ⟨h.1, h.2⟩
  have hc := b h
  have hd := b h'
  have h3 : 97 + (c.toNat - 97) = c.toNat := by omega
  have h4 : 97 + (d.toNat - 97) = d.toNat := by omega
  have := key ⟨c.toNat - 97, by omega⟩ ⟨d.toNat - 97, by omega⟩ (by simpa [h3, h4] using he)
  have h5 : c.toNat = d.toNat := by
    have := congrArg Fin.val this
    simp at this
    omega
  exact Char.toNat_inj.1 h5

theorem capitals_inj (hu : ∀ c, 'a' ≤ c → c ≤ 'z' → upper c = [c.toUpper]) :
    ∀ {ws ws' : List (List Char)}, (∀ w ∈ ws, w ≠ [] ∧ ∀ c ∈ w, 'a' ≤ c ∧ c ≤ 'z') →
    (∀ w ∈ ws', w ≠ [] ∧ ∀ c ∈ w, 'a' ≤ c ∧ c ≤ 'z') →
    (ws.map (capitalise upper)).flatten = (ws'.map (capitalise upper)).flatten → ws = ws' := by
  have nonempty : ∀ {w : List Char} {ws : List (List Char)}, (w ≠ [] ∧ ∀ c ∈ w, 'a' ≤ c ∧ c ≤ 'z') →
      ((w :: ws).map (capitalise upper)).flatten ≠ [] := by
    intro w ws h
    match w, h with
    | c :: w, h =>
      have := h.2 c (List.mem_cons_self ..)
      simp [capitalise, hu c this.1 this.2]
  have headBig : ∀ {ws : List (List Char)}, (∀ w ∈ ws, w ≠ [] ∧ ∀ c ∈ w, 'a' ≤ c ∧ c ≤ 'z') →
      ∀ c ∈ ((ws.map (capitalise upper)).flatten).head?, isSmall c = false := by
    intro ws h
    match ws, h with
    | [], _ => simp
    | w :: ws, h =>
      have hw := h w (List.mem_cons_self ..)
      match w, hw with
      | c :: w, hw =>
        have := hw.2 c (List.mem_cons_self ..)
        simp [capitalise, hu c this.1 this.2, toUpper_small this]
  intro ws
  induction ws with
  | nil =>
    intro ws' _ h' he
    cases ws' with
    | nil => rfl
    | cons w ws' => exact absurd he.symm (nonempty (h' w (List.mem_cons_self ..)))
  | cons w ws ih =>
    intro ws' h h' he
    cases ws' with
    | nil => exact absurd he (nonempty (h w (List.mem_cons_self ..)))
    | cons w' ws' =>
      have hw := h w (List.mem_cons_self ..)
      have hw' := h' w' (List.mem_cons_self ..)
      match w, w', hw, hw' with
      | c :: w, d :: w', hw, hw' =>
        have hc := hw.2 c (List.mem_cons_self ..)
        have hd := hw'.2 d (List.mem_cons_self ..)
        have hws := fun x hx => h x (List.mem_cons_of_mem _ hx)
        have hws' := fun x hx => h' x (List.mem_cons_of_mem _ hx)
        simp only [List.map_cons, List.flatten_cons, capitalise, hu c hc.1 hc.2, hu d hd.1 hd.2,
          List.cons_append, List.nil_append, List.cons.injEq] at he
        have hcd := toUpper_inj hc hd he.1
        have h1 := takeWhile_small (fun c hc => hw.2 c (List.mem_cons_of_mem _ hc)) (headBig hws)
        have h2 := takeWhile_small (fun c hc => hw'.2 c (List.mem_cons_of_mem _ hc)) (headBig hws')
        rw [he.2] at h1
        have hww : w = w' := h1.symm.trans h2
        subst hww
        have := ih hws hws' (List.append_cancel_left he.2)
        rw [hcd, this]

/-! ## Types -/

theorem nilable_iff {t : List Char} : nilable t = true ↔ HasNil t := by
  simp [nilable, HasNil, or_assoc]

/-- The type the generator writes for a schema is the one of the specification. -/
theorem typeName_right {s : Schema F} {t : List Char} (h : GoTypeOf s t)
    (hm : ∀ v, ¬ Inside (.map [v]) s)
    (hn : ∀ n, Inside (.type (some n)) s → PascalCase upper n) : typeName upper s = t := by
  induction h with
  | string => rfl
  | int => rfl
  | float => rfl
  | bool => rfl
  | unit => rfl
  | any => rfl
  | object => rfl
  | enum => rfl
  | literal => rfl
  | union => rfl
  | oneOf => rfl
  | type n => exact pascal_id (hn n .here)
  | seq _ ih =>
    rw [typeName, ih (fun v h => hm v (.seq h)) (fun n h => hn n (.seq h))]
  | @tuple is t hne _ ih =>
    cases is with
    | nil => exact absurd rfl hne
    | cons i is =>
      have hi := List.mem_cons_self (a := i) (l := is)
      rw [typeName, ih i hi (fun v h => hm v (.tuple hi h)) (fun n h => hn n (.tuple hi h))]
  | values => exact absurd .here (hm _)
  | map _ _ ih1 ih2 =>
    rw [typeName, ih1 (fun v h => hm v (.map (by simp) h)) (fun n h => hn n (.map (by simp) h)),
      ih2 (fun v h => hm v (.map (by simp) h)) (fun n h => hn n (.map (by simp) h))]
  | pointer _ hnil ih =>
    have := ih (fun v h => hm v (.optional h)) (fun n h => hn n (.optional h))
    rw [typeName, this]
    simp only [show nilable _ = false from by
      rw [← Bool.not_eq_true, nilable_iff]; exact hnil]
    rfl
  | absent _ hnil ih =>
    have := ih (fun v h => hm v (.optional h)) (fun n h => hn n (.optional h))
    rw [typeName, this]
    simp only [nilable_iff.2 hnil, if_true]
  | default _ ih => exact ih (fun v h => hm v (.default h)) (fun n h => hn n (.default h))
  | flatten _ ih => exact ih (fun v h => hm v (.flatten h)) (fun n h => hn n (.flatten h))
  | deprecated _ ih => exact ih (fun v h => hm v (.deprecated h)) (fun n h => hn n (.deprecated h))

theorem fieldFor_core {parent name : List Char} {s c : Schema F} {o' : Bool} (h : FieldCore s o' c) :
    ∀ o, fieldFor upper parent name o s = fieldFor upper parent name (o || o') c := by
  induction h with
  | base _ _ => intro o; simp
  | default _ ih => intro o; rw [fieldFor]; exact ih o
  | optional _ ih => intro o; rw [fieldFor, ih true]; simp

theorem core_exists (s : Schema F) : ∃ o c, FieldCore s o c ∧ (∀ v i, c ≠ .default v i) ∧
    ∀ i, c ≠ .optional i := by
  induction s using Schema.rec
    (motive_2 := fun _ => True) (motive_3 := fun _ => True) (motive_4 := fun _ => True)
    (motive_5 := fun _ => True) (motive_6 := fun _ => True) <;> try trivial
  case default ih => obtain ⟨o, c, h, h'⟩ := ih; exact ⟨o, c, .default h, h'⟩
  case optional ih => obtain ⟨o, c, h, h'⟩ := ih; exact ⟨true, c, .optional h, h'⟩
  all_goals exact ⟨false, _, .base (by simp) (by simp), by simp, by simp⟩

theorem core_unique {s c c' : Schema F} {o o' : Bool} (h : FieldCore s o c) (h' : FieldCore s o' c') :
    o = o' ∧ c = c' := by
  induction h generalizing o' with
  | base h1 h2 =>
    cases h' with
    | base => exact ⟨rfl, rfl⟩
    | default => exact absurd rfl (h1 _ _)
    | optional => exact absurd rfl (h2 _)
  | default _ ih => exact ih (core_default.1 h')
  | optional _ ih =>
    obtain ⟨rfl, _, h'⟩ := core_optional.1 h'
    exact ⟨rfl, (ih h').2⟩

theorem fieldFor_base {parent name : List Char} {c : Schema F} {o : Bool}
    (h1 : ∀ v i, c ≠ .default v i) (h2 : ∀ i, c ≠ .optional i) (h3 : ∀ fs, c ≠ .object fs) :
    fieldFor upper parent name o c = fieldOf upper name o (typeName upper c) (extractConstraints c) := by
  cases c <;> first | rfl | (exfalso; simp_all)

/-- The type of a field that is not an object. -/
theorem fieldFor_type {parent name : List Char} {s : Schema F} {t : List Char} (h : GoTypeOf s t)
    (hm : ∀ v, ¬ Inside (.map [v]) s)
    (hn : ∀ n, Inside (.type (some n)) s → PascalCase upper n)
    (hobj : ∀ o fs, ¬ FieldCore s o (.object fs)) :
    ∀ o, (fieldFor upper parent name o s).typeName = optionalType o t := by
  induction h with
  | default _ ih =>
    exact ih (fun v h => hm v (.default h)) (fun n h => hn n (.default h))
      (fun o fs h => hobj o fs (.default h))
  | @pointer i t _ hnil ih =>
    intro o
    rw [fieldFor, ih (fun v h => hm v (.optional h)) (fun n h => hn n (.optional h))
      (fun o fs h => hobj true fs (.optional h))]
    have h1 : nilable t = false := by rw [← Bool.not_eq_true, nilable_iff]; exact hnil
    have h2 : nilable ('*' :: t) = true := by simp [nilable]
    simp [optionalType, h1, h2]
  | @absent i t _ hnil ih =>
    intro o
    rw [fieldFor, ih (fun v h => hm v (.optional h)) (fun n h => hn n (.optional h))
      (fun o fs h => hobj true fs (.optional h))]
    simp [optionalType, nilable_iff.2 hnil]
  | object fs => exact absurd (.base (by simp) (by simp)) (hobj false fs)
  | _ =>
    intro o
    rw [fieldFor_base (by simp) (by simp) (by simp)]
    simp only [fieldOf]
    rw [typeName_right (by constructor <;> assumption) hm hn]

/-! ## Only declared types are used -/

theorem GoTypeText.mono {P Q : List Char → Prop} (h : ∀ n, P n → Q n) {t : List Char}
    (ht : GoTypeText P t) : GoTypeText Q t := by
  induction ht with
  | builtin h => exact .builtin h
  | declared hn => exact .declared (h _ hn)
  | pointer _ ih => exact .pointer ih
  | slice _ ih => exact .slice ih
  | map _ _ ih1 ih2 => exact .map ih1 ih2

theorem typeName_text {P : List Char → Prop} (s : Schema F)
    (hr : ∀ n, Inside (.type (some n)) s → P n ∧ PascalCase upper n) :
    GoTypeText P (typeName upper s) := by
  induction s using Schema.rec
    (motive_2 := fun _ => True)
    (motive_3 := fun l => (∀ s ∈ l, ∀ n, Inside (.type (some n)) s → P n ∧ PascalCase upper n) →
      ∀ s ∈ l, GoTypeText P (typeName upper s))
    (motive_4 := fun _ => True)
    (motive_5 := fun _ => True) (motive_6 := fun _ => True) <;> try trivial
  case string => exact .builtin (by simp [typeName, goBuiltins])
  case int => exact .builtin (by simp [typeName, goBuiltins])
  case float => exact .builtin (by simp [typeName, goBuiltins])
  case bool => exact .builtin (by simp [typeName, goBuiltins])
  case unit => exact .builtin (by simp [typeName, goBuiltins])
  case any => exact .builtin (by simp [typeName, goBuiltins])
  case enum => exact .builtin (by simp [typeName, goBuiltins])
  case literal => exact .builtin (by simp [typeName, goBuiltins])
  case union => exact .builtin (by simp [typeName, goBuiltins])
  case oneOf => exact .builtin (by simp [typeName, goBuiltins])
  case object =>
    exact .map (k := chars! "string") (v := chars! "interface{}")
      (.builtin (by simp [goBuiltins])) (.builtin (by simp [goBuiltins]))
  case seq ih => exact .slice (ih fun n h => hr n (.seq h))
  case tuple items ih =>
    cases items with
    | nil => exact .slice (t := chars! "interface{}") (.builtin (by simp [goBuiltins]))
    | cons i is =>
      exact .slice (ih (fun s hs n h => hr n (.tuple hs h)) i (List.mem_cons_self ..))
  case map items ih =>
    have ih := ih (fun s hs n h => hr n (.map hs h))
    match items with
    | [] =>
      exact .map (k := chars! "string") (v := chars! "interface{}")
        (.builtin (by simp [goBuiltins])) (.builtin (by simp [goBuiltins]))
    | [k] =>
      have := GoTypeText.map (ih k (List.mem_cons_self ..))
        (.builtin (show chars! "interface{}" ∈ goBuiltins by simp [goBuiltins]))
      simpa [typeName] using this
    | k :: v :: _ => exact .map (ih k (by simp)) (ih v (by simp))
  case optional ih =>
    have ih := ih fun n h => hr n (.optional h)
    rw [typeName]
    split
    · exact ih
    · exact .pointer ih
  case flatten ih => exact ih fun n h => hr n (.flatten h)
  case default ih => exact ih fun n h => hr n (.default h)
  case deprecated ih => exact ih fun n h => hr n (.deprecated h)
  case type n =>
    cases n with
    | none => exact .builtin (by simp [typeName, goBuiltins])
    | some n =>
      have := hr n .here
      rw [typeName, pascal_id this.2]
      exact .declared this.1
  case nil => intro _ s hs; exact nomatch hs
  case cons ih1 ih2 =>
    intro h s hs
    rcases List.mem_cons.1 hs with rfl | hs
    · exact ih1 (h s (List.mem_cons_self ..))
    · exact ih2 (fun s hs => h s (List.mem_cons_of_mem _ hs)) s hs

end Styx.Go
