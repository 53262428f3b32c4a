import Verif.Gen.TypeFields

/-!
# What the schemas of types accept
-/

namespace Styx.TypeGen

open Schema
open Spec

variable {F : Type} {E : Env F} {sf : SchemaFile F} {prog : Program}

/-- The validator accepts the value at any place, once it has enough fuel. -/
def Accepts (E : Env F) (sf : SchemaFile F) (v : Value) (s : Schema F) : Prop :=
  ∃ n, ∀ p, ∃ r, validate E sf n v s p = some r ∧ r.isValid = true

theorem mergeAll_ok {α : Type} {f : α → Option Result} : ∀ {xs : List α},
    (∀ x ∈ xs, ∃ r, f x = some r ∧ r.isValid = true) → ∃ r, mergeAll f xs = some r ∧ r.isValid = true
  | [], _ => ⟨_, rfl, rfl⟩
  | x :: xs, h => by
    obtain ⟨a, ha, hav⟩ := h x (by simp)
    obtain ⟨b, hb, hbv⟩ := mergeAll_ok (fun y hy => h y (List.mem_cons_of_mem _ hy))
    exact ⟨a.merge b, by simp [mergeAll, ha, hb], by rw [isValid_merge, hav, hbv]; rfl⟩

/-- One amount of fuel for all elements of a list. -/
theorem accepts_all {α : Type} (val : α → Value) (sch : α → Schema F) : ∀ (xs : List α),
    (∀ x ∈ xs, Accepts E sf (val x) (sch x)) →
    ∃ n, ∀ x ∈ xs, ∀ p, ∃ r, validate E sf n (val x) (sch x) p = some r ∧ r.isValid = true
  | [], _ => ⟨0, by simp⟩
  | x :: xs, h => by
    obtain ⟨n, hn⟩ := h x (by simp)
    obtain ⟨m, hm⟩ := accepts_all val sch xs (fun y hy => h y (List.mem_cons_of_mem _ hy))
    refine ⟨max n m, ?_⟩
    intro y hy p
    rcases List.mem_cons.mp hy with rfl | hy
    · obtain ⟨r, hr, hv⟩ := hn p
      exact ⟨r, validate_mono (Nat.le_max_left ..) _ _ _ _ hr, hv⟩
    · obtain ⟨r, hr, hv⟩ := hm y hy p
      exact ⟨r, validate_mono (Nat.le_max_right ..) _ _ _ _ hr, hv⟩

theorem accepts_now {v : Value} {s : Schema F}
    (h : ∀ p, ∃ r, step E sf (validate E sf 0) v s p = some r ∧ r.isValid = true) :
    Accepts E sf v s := ⟨1, h⟩

theorem accepts_string {v : Value} {t} (h : HasText v t) : Accepts E sf v (.string none) :=
  accepts_now fun p => ⟨_, rfl, (validateString_iff (E := E) (M := fun _ _ => True) (sf := sf)
    (by simp)).mpr (.string h (by simp [StringOk]))⟩

theorem accepts_int {v : Value} {t n} (h : HasText v t) (hi : IsInt t n) (h1 : -(2 ^ 127) ≤ n)
    (h2 : n ≤ 2 ^ 127 - 1) : Accepts E sf v (.int none) :=
  accepts_now fun p => ⟨_, rfl, (validateInt_iff (E := E) (M := fun _ _ => True) (sf := sf)).mpr
    (.int h hi h1 h2 (by simp [IntOk]))⟩

theorem accepts_float {v : Value} {t x} (h : HasText v t) (hx : E.parseF t = some x) :
    Accepts E sf v (.float none) :=
  accepts_now fun p => ⟨_, rfl, (validateFloat_iff (E := E) (M := fun _ _ => True) (sf := sf)).mpr
    (.float h hx (by simp [FloatOk]))⟩

theorem accepts_bool {v : Value} {t} (h : HasText v t) (hb : t = chars! "true" ∨ t = chars! "false") :
    Accepts E sf v .bool :=
  accepts_now fun _ => ⟨_, rfl, (validateBool_iff (E := E) (M := fun _ _ => True) (sf := sf)).mpr
    (.bool h hb)⟩

theorem accepts_unit {v : Value} (h : IsUnitValue v) : Accepts E sf v .unit :=
  accepts_now fun _ => ⟨_, rfl, validateUnit_iff.mpr h⟩

theorem accepts_any (v : Value) : Accepts E sf v .any := accepts_now fun _ => ⟨_, rfl, rfl⟩

theorem accepts_none {v : Value} (s : Schema F) (h : IsUnitValue v) : Accepts E sf v (.optional s) :=
  accepts_now fun p => ⟨.ok, by simp [step, validateOptional, isUnit_iff.mpr h], rfl⟩

theorem accepts_some {v : Value} {s : Schema F} (h : Accepts E sf v s) :
    Accepts E sf v (.optional s) := by
  obtain ⟨n, hn⟩ := h
  refine ⟨n + 1, fun p => ?_⟩
  simp only [validate, step, validateOptional]
  split
  · exact ⟨_, rfl, rfl⟩
  · exact hn p

theorem accepts_default {v : Value} {t} {s : Schema F} (h : Accepts E sf v s) :
    Accepts E sf v (.default t s) := by
  obtain ⟨n, hn⟩ := h
  exact ⟨n + 1, fun p => hn p⟩

theorem accepts_seq {v : Value} {items} {s : Schema F} (h : HasItems v items)
    (ha : ∀ x ∈ items, Accepts E sf x s) : Accepts E sf v (.seq s) := by
  obtain ⟨n, hn⟩ := accepts_all id (fun _ => s) items ha
  refine ⟨n + 1, fun p => ?_⟩
  simp only [validate, step, validateSeq, asSequence_iff.mpr h]
  exact mergeAll_ok fun x hx => hn x.1 (List.fst_mem_of_mem_zipIdx hx) _

theorem accepts_tuple {v : Value} {items} {ss : List (Schema F)} (h : HasItems v items)
    (hl : items.length = ss.length) (ha : ∀ p ∈ items.zip ss, Accepts E sf p.1 p.2) :
    Accepts E sf v (.tuple ss) := by
  obtain ⟨n, hn⟩ := accepts_all (·.1) (·.2) (items.zip ss) ha
  refine ⟨n + 1, fun p => ?_⟩
  simp only [validate, step, validateTuple, asSequence_iff.mpr h]
  obtain ⟨r, hr, hv⟩ := mergeAll_ok (f := fun ((x, s), i) => validate E sf n x s (itemPath p i))
    (xs := (items.zip ss).zipIdx) fun x hx => hn x.1 (List.fst_mem_of_mem_zipIdx hx) _
  refine ⟨_, by rw [hr]; rfl, ?_⟩
  rw [isValid_merge, isValid_when, hv]
  simp [hl]

theorem accepts_map {v : Value} {es} {k w : Schema F} (h : HasEntries v es)
    (hn : ∀ e ∈ es, ∃ n, KeyIs e n) (hk : ∀ e ∈ es, Accepts E sf e.key k)
    (hw : ∀ e ∈ es, Accepts E sf e.value w) : Accepts E sf v (.map [k, w]) := by
  obtain ⟨n, hkn⟩ := accepts_all Entry.key (fun _ => k) es hk
  obtain ⟨m, hwm⟩ := accepts_all Entry.value (fun _ => w) es hw
  refine ⟨max n m + 1, fun p => ?_⟩
  simp only [validate, step, validateMap, asObject_iff.mpr h]
  refine mergeAll_ok fun e he => ?_
  obtain ⟨name, hname⟩ := hn e he
  obtain ⟨a, ha, hav⟩ := hkn e he p
  obtain ⟨b, hb, hbv⟩ := hwm e he (fieldPath p name)
  refine ⟨a.merge b, ?_, by rw [isValid_merge, hav, hbv]; rfl⟩
  simp only [validateMapEntry, asStr_iff.mpr hname,
    validate_mono (Nat.le_max_left n m) _ _ _ _ ha,
    validate_mono (Nat.le_max_right n m) _ _ _ _ hb, Option.bind_some, Option.map_some]

theorem accepts_type {v : Value} {n} {s : Schema F} (hl : lookup (some n) sf = some s)
    (h : Accepts E sf v s) : Accepts E sf v (.type (some n)) := by
  obtain ⟨m, hm⟩ := h
  refine ⟨m + 1, fun p => ?_⟩
  simp only [validate, step, validateTypeRef, hl]
  exact hm p

theorem accepts_enum {tag : Tag} {p sp} {vs : List (List Char × Schema F)} {s}
    (hl : lookup tag.name vs = some s) (hu : p = none → unitVariant s = true)
    (h : p ≠ none → Accepts E sf (.mk none p none) s) :
    Accepts E sf (.mk (some tag) p sp) (.enum vs) := by
  cases p with
  | none =>
    refine ⟨1, fun p => ⟨.ok, ?_, rfl⟩⟩
    simp [validate, step, validateEnum, Value.tag, Value.payload, hl, hu rfl]
  | some p =>
    obtain ⟨m, hm⟩ := h (by simp)
    refine ⟨m + 1, fun q => ?_⟩
    simp only [validate, step, validateEnum, Value.tag, Value.payload, hl]
    exact hm _

theorem accepts_object {v : Value} {es} {fields : List (ObjectKey × Schema F)} (h : HasEntries v es)
    (sch : Entry → Schema F)
    (he : ∀ e ∈ es, ∃ k, keyOpt e = some k ∧
      (lookup (ObjectKey.named (k.getD [])) fields = some (sch e) ∨
        lookup (ObjectKey.named (k.getD [])) fields = none ∧ catchAll fields = some (sch e)))
    (ha : ∀ e ∈ es, Accepts E sf e.value (sch e))
    (hr : ∀ f ∈ fields, ∀ name, f.1.value = some name → notRequired f.2 = false →
        ∃ e ∈ es, KeyIs e name) : Accepts E sf v (.object fields) := by
  obtain ⟨n, hn⟩ := accepts_all Entry.value sch es ha
  refine ⟨n + 1, fun p => ?_⟩
  simp only [validate, step, validateObject, asObject_iff.mpr h]
  obtain ⟨r, hr', hv⟩ := mergeAll_ok (f := validateEntry E (validate E sf n) fields p) (xs := es) (by
    intro e hem
    obtain ⟨name, hname, hs⟩ := he e hem
    simp only [validateEntry, hname]
    rcases hs with hs | ⟨hs, hc⟩
    · simp only [hs]; exact hn e hem _
    · simp only [hs, hc]; exact hn e hem _)
  refine ⟨_, by rw [hr']; rfl, ?_⟩
  rw [isValid_merge, hv, missingFields_iff.mpr hr]; rfl

/-! ## Schemas of types -/

/-- The type is defined in the schema file. -/
def Known (sf : SchemaFile F) (prog : Program) (i : Nat) : Prop :=
  ∃ d, prog[i]? = some d ∧ d.isSchema = false ∧
    lookup (some d.name) sf = some (bodySchema prog d.body)

/-- With a type all types it uses are defined. -/
def Closed (sf : SchemaFile F) (prog : Program) : Prop :=
  ∀ i d, prog[i]? = some d → Known sf prog i → ∀ j ∈ bodyTypes prog d.body, Known sf prog j

/-- The types of a form. -/
def formTypes (prog : Program) : Form → List Nat
  | .shape s => shapeTypes prog s
  | .data kind fs => dataTypes prog kind fs

/-- The schema of a form. -/
def formSchema (prog : Program) : Form → Schema F
  | .shape s => shapeSchema prog s
  | .data kind fs => structSchema prog kind fs

/-- The form can be described. -/
def FormOk (E : Env F) (prog : Program) : Form → Prop
  | .shape s => Describable E prog s
  | .data kind fs => (∀ f ∈ fs, Describable E prog f.shape) ∧ (kind = .struct → PlainFields fs)

theorem scalarShape_key {s : Shape} (hs : ScalarShape s) : ∀ {e : Entry},
    Written E false prog (.shape s) e.key → ∃ n, KeyIs e n := by
  have key : ∀ {e : Entry} {t}, TagOk false e.key → HasText e.key t → ∃ n, KeyIs e n := by
    rintro e t (h | h) ⟨tag, kind, sp, sp', h'⟩
    · cases h
    · rw [h'] at h
      cases h
      exact ⟨t, kind, sp, sp', h'⟩
  induction hs with
  | pointer _ ih => intro e h; cases h with | pointer h => exact ih h
  | documented _ ih => intro e h; cases h with | documented h => exact ih h
  | bool => intro e h; cases h with | bool h1 h2 _ => exact key h1 h2
  | int => intro e h; cases h with | int h1 h2 _ _ => exact key h1 h2
  | float => intro e h; cases h with | float h1 h2 _ => exact key h1 h2
  | char => intro e h; cases h with | char h1 h2 _ => exact key h1 h2
  | str => intro e h; cases h with | str h1 h2 => exact key h1 h2
  | «opaque» => intro e h; cases h with | «opaque» h1 h2 => exact key h1 h2

theorem dataOf_types {d : TypeDef} {kind fs} (hd : DataOf d.body kind fs)
    (ho : ∀ vs, d.body = .enum vs → ∀ w ∈ vs, w.other = false) :
    ∀ j ∈ dataTypes prog kind fs, j ∈ bodyTypes prog d.body := by
  intro j hj
  generalize d.body = b at hd ho
  cases hd with
  | struct => exact hj
  | variant hw =>
    rename_i vs w
    rw [bodyTypes, if_neg]
    · exact List.mem_flatMap.mpr ⟨w, hw, hj⟩
    · rw [Bool.not_eq_true, List.any_eq_false]
      intro x hx
      simp [ho vs rfl x hx]

theorem field_types {fs : List Field} {kind f} (hk : kind ≠ StructKind.unit) (hf : f ∈ fs) {j}
    (hj : j ∈ shapeTypes prog f.shape) : j ∈ dataTypes prog kind fs := by
  cases kind with
  | unit => exact absurd rfl hk
  | _ => exact List.mem_flatMap.mpr ⟨f, hf, hj⟩

theorem textTypes_eq : textTypes = scalarTexts := rfl

theorem unitVariant_data {kind fs} (hw : ∃ v, IsUnitValue v ∧ Written E false prog (.data kind fs) v)
    (hp : ∀ f, kind = .tuple → fs = [f] → ∀ v, IsUnitValue v → ¬ Written E false prog (.shape f.shape) v) :
    unitVariant (structSchema (F := F) prog kind fs) = true := by
  obtain ⟨v, hu, hw⟩ := hw
  cases hw with
  | unit => rfl
  | newtype h => exact absurd h (hp _ rfl rfl v hu)
  | tuple _ _ h => obtain ⟨_, rfl⟩ := hu; obtain ⟨_, _, _, h⟩ := h; cases h
  | fields _ _ h => obtain ⟨_, rfl⟩ := hu; obtain ⟨_, _, _, h⟩ := h; cases h

theorem written_accepted (hp : PlainProgram prog) (hd : DescribableProgram E prog)
    (hc : Closed sf prog) {form v} (hw : Written E false prog form v) :
    (∀ i ∈ formTypes prog form, Known sf prog i) → FormOk E prog form →
      Accepts E sf v (formSchema prog form) := by
  have mem : ∀ {i : Nat} {d}, prog[i]? = some d → d ∈ prog := fun h => List.mem_of_getElem? h
  induction hw with
  | bool _ h hb => exact fun _ _ => accepts_bool h hb
  | int _ h hi hr =>
    intro _ hok
    obtain ⟨h1, h2⟩ := hr rfl
    exact accepts_int h hi (Int.le_trans hok.1 h1) (Int.le_trans h2 hok.2)
  | float _ h hx => exact fun _ _ => accepts_float h hx
  | char _ h _ => exact fun _ _ => accepts_string h
  | str _ h => exact fun _ _ => accepts_string h
  | never h => cases h
  | «opaque» _ h =>
    intro _ hok
    obtain ⟨rfl, hm⟩ := hok
    rw [textTypes_eq] at hm
    simp only [formSchema, shapeSchema, opaqueSchema, if_true, List.contains_iff_mem.mpr hm]
    exact accepts_string h
  | undescribed _ h => cases h
  | none h => exact fun _ _ => accepts_none _ h
  | some _ ih => exact fun hk hok => accepts_some (ih hk hok)
  | list _ h _ ih => exact fun hk hok => accepts_seq h fun x hx => ih x hx hk hok
  | map _ h hwk _ ih1 ih2 =>
    intro hk hok
    obtain ⟨hs, hok1, hok2⟩ := hok
    exact accepts_map h (fun e he => scalarShape_key hs (hwk e he))
      (fun e he => ih1 e he (fun i hi => hk i (List.mem_append_left _ hi)) hok1)
      (fun e he => ih2 e he (fun i hi => hk i (List.mem_append_right _ hi)) hok2)
  | pointer _ ih => exact ih
  | documented _ ih => exact ih
  | ok ht hw ih =>
    intro hk hok
    refine accepts_enum (s := shapeSchema prog _) (by rw [ht]; rfl) ?_
      (fun _ => ih (fun i hi => hk i (List.mem_append_left _ hi)) hok.1)
    rintro rfl
    exact absurd hw (hok.2.2 _ ⟨_, rfl⟩).1
  | err ht hw ih =>
    intro hk hok
    refine accepts_enum (s := shapeSchema prog _) (by rw [ht]; rfl) ?_
      (fun _ => ih (fun i hi => hk i (List.mem_append_right _ hi)) hok.2.1)
    rintro rfl
    exact absurd hw (hok.2.2 _ ⟨_, rfl⟩).2
  | okText h => cases h
  | errText h => cases h
  | struct hi hb _ ih =>
    intro hk hok
    rename_i i d kind fs v _
    obtain ⟨d', hd', hns⟩ := hok
    obtain rfl := Option.some.inj (hi.symm.trans hd')
    have hki : Known sf prog i := hk i (by simp [formTypes, shapeTypes, hi, hns])
    obtain ⟨d', hd', _, hl⟩ := hki
    obtain rfl := Option.some.inj (hi.symm.trans hd')
    simp only [formSchema, shapeSchema, userSchema, hi, hns, Bool.false_eq_true, if_false]
    refine accepts_type hl ?_
    rw [hb]
    have hdo : DataOf d.body kind fs := by rw [hb]; exact .struct ..
    refine ih ?_ ⟨fun f hf => hd.shapes d (mem hi) _ _ hdo f hf, ?_⟩
    · intro j hj
      exact hc i d hi (hk i (by simp [formTypes, shapeTypes, hi, hns])) j
        (dataOf_types hdo (by rw [hb]; intro vs h; cases h) j hj)
    · rintro rfl
      exact hp.fields d (mem hi) _ hdo
  | variant hi hb hwm ho ht hwr ih =>
    intro hk hok
    rename_i i d vs w p sp tag
    obtain ⟨d', hd', hns⟩ := hok
    obtain rfl := Option.some.inj (hi.symm.trans hd')
    have hki : Known sf prog i := hk i (by simp [formTypes, shapeTypes, hi, hns])
    obtain ⟨d', hd', _, hl⟩ := hki
    obtain rfl := Option.some.inj (hi.symm.trans hd')
    simp only [formSchema, shapeSchema, userSchema, hi, hns, Bool.false_eq_true, if_false]
    refine accepts_type hl ?_
    rw [hb]
    by_cases hex : ∃ x ∈ vs, x.other = true
    · obtain ⟨x, hx, hxo⟩ := hex
      simp only [bodySchema, enumSchema_other hx hxo]
      exact accepts_any _
    · have hno : ∀ x ∈ vs, x.other = false := by
        intro x hx
        cases h : x.other with
        | false => rfl
        | true => exact absurd ⟨x, hx, h⟩ hex
      have hdv := hp.variants d (mem hi) vs hb
      have hdo : DataOf d.body w.kind w.fields := by rw [hb]; exact .variant hwm
      simp only [bodySchema, enumSchema_eq hdv hno]
      refine accepts_enum (s := structSchema prog w.kind w.fields)
        (by rw [ht]; exact lookup_variant hdv hwm) ?_ (fun _ => ih ?_ ⟨?_, ?_⟩)
      · rintro rfl
        refine unitVariant_data ⟨_, ⟨_, rfl⟩, hwr⟩ ?_
        intro f h1 h2
        exact hd.payloads d (mem hi) vs w f hb hwm h1 h2
      · intro j hj
        exact hc i d hi (hk i (by simp [formTypes, shapeTypes, hi, hns])) j
          (dataOf_types hdo (by
            intro vs' h x hx
            rw [hb] at h
            cases h
            exact hno x hx) j hj)
      · exact fun f hf => hd.shapes d (mem hi) _ _ hdo f hf
      · intro hkd
        exact hp.fields d (mem hi) _ (hkd ▸ hdo)
  | variantText h => cases h
  | other v hi hb hwm ho =>
    intro hk hok
    rename_i i d vs w
    obtain ⟨d', hd', hns⟩ := hok
    obtain rfl := Option.some.inj (hi.symm.trans hd')
    have hki : Known sf prog i := hk i (by simp [formTypes, shapeTypes, hi, hns])
    obtain ⟨d', hd', _, hl⟩ := hki
    obtain rfl := Option.some.inj (hi.symm.trans hd')
    simp only [formSchema, shapeSchema, userSchema, hi, hns, Bool.false_eq_true, if_false]
    refine accepts_type hl ?_
    rw [hb]
    simp only [bodySchema, enumSchema_other hwm ho]
    exact accepts_any _
  | unit h => exact fun _ _ => accepts_unit h
  | newtype _ ih =>
    intro hk hok
    exact ih (fun i hi => hk i (field_types (kind := .tuple) (by simp) (List.mem_cons_self ..) hi)) (hok.1 _ (by simp))
  | tuple h1 _ h hl _ ih =>
    intro hk hok
    rename_i fs v items _ _
    have hs : formSchema (F := F) prog (.data .tuple fs) = .tuple (fs.map fun f => shapeSchema prog f.shape) := by
      match fs, h1 with
      | [], _ => rfl
      | _ :: _ :: _, _ => rfl
    rw [hs]
    refine accepts_tuple h (by simpa using hl) ?_
    intro q hq
    rw [List.zip_map_right] at hq
    obtain ⟨⟨x, f⟩, hxf, rfl⟩ := List.mem_map.mp hq
    have hf := (List.of_mem_zip hxf).2
    exact ih (x, f) hxf (fun i hi => hk i (field_types (kind := .tuple) (by simp) hf hi)) (hok.1 _ hf)
  | fields shapeOf _ h he _ hreq ih =>
    intro hk hok
    rename_i fs v es _ _
    have hpf := hok.2 rfl
    simp only [formSchema, structSchema_fields hpf]
    refine accepts_object h (fun e => match (keyOpt e).bind fun k => lookup (ObjectKey.named (k.getD []))
        (objectFields (F := F) prog fs) with
      | some s => s
      | none => shapeSchema prog (shapeOf e)) ?_ ?_ ?_
    · intro e hem
      have hen := he e hem
      generalize hsh : shapeOf e = sh at hen
      cases hen with
      | named hn hf =>
        rename_i f
        have := (fieldOf_iff hpf).mp hf
        refine ⟨_, keyOpt_named.mpr hn, Or.inl ?_⟩
        simp only [keyOpt_named.mpr hn, Option.bind_some, Option.getD_some, lookup_field hpf this.1 this.2]
      | rest hn hno hr =>
        rename_i n
        have hl : lookup (ObjectKey.named n) (objectFields (F := F) prog fs) = none := by
          cases hl : lookup (ObjectKey.named n) (objectFields (F := F) prog fs) with
          | none => rfl
          | some s =>
            obtain ⟨f, hf, hfl, hfn, _⟩ := mem_named hpf (lookup_mem hl) rfl
            exact absurd hfn (hno f ((fieldOf_iff hpf).mpr ⟨hf, hfl⟩))
        obtain ⟨f, hf, k, h1, h2⟩ := (restOf_iff hpf).mp hr
        refine ⟨_, keyOpt_named.mpr hn, Or.inr ⟨hl, ?_⟩⟩
        simp only [keyOpt_named.mpr hn, Option.bind_some, Option.getD_some, hl]
        exact catchAll_rest hpf hf h1 h2
      | unitKey hn hr =>
        have hl : lookup (ObjectKey.named []) (objectFields (F := F) prog fs) = none := by
          cases hl : lookup (ObjectKey.named []) (objectFields (F := F) prog fs) with
          | none => rfl
          | some s =>
            obtain ⟨f, hf, hfl, hfn, _⟩ := mem_named hpf (lookup_mem hl) rfl
            exact absurd hfn (hpf.named f hf hfl)
        obtain ⟨f, hf, k, h1, h2⟩ := (restOf_iff hpf).mp hr
        refine ⟨_, keyOpt_unit.mpr hn, Or.inr ⟨hl, ?_⟩⟩
        simp only [keyOpt_unit.mpr hn, Option.bind_some, Option.getD_none, hl]
        exact catchAll_rest hpf hf h1 h2
    · intro e hem
      have hen := he e hem
      generalize hsh : shapeOf e = sh at hen
      cases hen with
      | named hn hf =>
        rename_i f
        have hm := (fieldOf_iff hpf).mp hf
        simp only [keyOpt_named.mpr hn, Option.bind_some, Option.getD_some, lookup_field hpf hm.1 hm.2]
        have := ih e hem (by
          intro i hi
          rw [hsh] at hi
          exact hk i (field_types (kind := .struct) (by simp) hm.1 hi)) (by rw [hsh]; exact hok.1 _ hm.1)
        rw [hsh] at this
        simp only [fieldSchema]
        split
        · exact accepts_default this
        · exact this
      | rest hn hno hr =>
        rename_i n
        have hl : lookup (ObjectKey.named n) (objectFields (F := F) prog fs) = none := by
          cases hl : lookup (ObjectKey.named n) (objectFields (F := F) prog fs) with
          | none => rfl
          | some s =>
            obtain ⟨f, hf, hfl, hfn, _⟩ := mem_named hpf (lookup_mem hl) rfl
            exact absurd hfn (hno f ((fieldOf_iff hpf).mpr ⟨hf, hfl⟩))
        obtain ⟨f, hf, k, h1, h2⟩ := (restOf_iff hpf).mp hr
        simp only [keyOpt_named.mpr hn, Option.bind_some, Option.getD_some, hl]
        have hdes : ∀ {s t : Shape}, Plainly s t → Describable E prog s → Describable E prog t := by
          intro s t h
          induction h with
          | here => exact id
          | pointer _ ih => exact ih
          | documented _ ih => exact ih
        rw [← hsh]
        refine ih e hem ?_ (by rw [hsh]; exact (hdes h2 (hok.1 f hf)).2.2)
        intro i hi
        rw [hsh] at hi
        refine hk i (field_types (kind := .struct) (by simp) hf ?_)
        rw [(schema_plainly (F := F) h2).2]
        exact List.mem_append_right _ hi
      | unitKey hn hr =>
        have hl : lookup (ObjectKey.named []) (objectFields (F := F) prog fs) = none := by
          cases hl : lookup (ObjectKey.named []) (objectFields (F := F) prog fs) with
          | none => rfl
          | some s =>
            obtain ⟨f, hf, hfl, hfn, _⟩ := mem_named hpf (lookup_mem hl) rfl
            exact absurd hfn (hpf.named f hf hfl)
        obtain ⟨f, hf, k, h1, h2⟩ := (restOf_iff hpf).mp hr
        simp only [keyOpt_unit.mpr hn, Option.bind_some, Option.getD_none, hl]
        have hdes : ∀ {s t : Shape}, Plainly s t → Describable E prog s → Describable E prog t := by
          intro s t h
          induction h with
          | here => exact id
          | pointer _ ih => exact ih
          | documented _ ih => exact ih
        rw [← hsh]
        refine ih e hem ?_ (by rw [hsh]; exact (hdes h2 (hok.1 f hf)).2.2)
        intro i hi
        rw [hsh] at hi
        refine hk i (field_types (kind := .struct) (by simp) hf ?_)
        rw [(schema_plainly (F := F) h2).2]
        exact List.mem_append_right _ hi
    · rintro ⟨key, s⟩ hm name hkn hnr
      obtain ⟨f, hf, hfl, rfl, rfl⟩ := mem_named hpf hm hkn
      refine hreq f ((fieldOf_iff hpf).mpr ⟨hf, hfl⟩) ?_
      rw [mayOmit_iff (F := F) (prog := prog), hnr]
      simp

end Styx.TypeGen
