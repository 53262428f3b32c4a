import Verif.Gen.TypeAccept

/-!
# What a schema of a type accepts is a way of writing a value of the type
-/

namespace Styx.TypeGen

open Schema
open Spec

variable {F : Type} {E : Env F} {sf : SchemaFile F} {prog : Program}

/-- The names of types stand for the schemas of those types. -/
def Faithful (sf : SchemaFile F) (prog : Program) : Prop :=
  ∀ (i : Nat) (d : TypeDef) (s : Schema F), prog[i]? = some d → lookup (some d.name) sf = some s → s = bodySchema prog d.body

theorem loose_tag (v : Value) : TagOk true v := Or.inl rfl

/-- What `rec` accepts is written so. -/
def Sound (E : Env F) (prog : Program) (rec : Value → Schema F → List Char → Option Result) : Prop :=
  ∀ form v p r, FormOk E prog form → rec v (formSchema prog form) p = some r → r.isValid = true →
    Written E true prog form v

theorem merged {α : Type} {f : α → Option Result} {xs : List α} {r} (h : mergeAll f xs = some r)
    (hv : r.isValid = true) : ∀ x ∈ xs, ∃ a, f x = some a ∧ a.isValid = true := by
  intro x hx
  obtain ⟨h1, h2⟩ := mergeAll_some h
  obtain ⟨a, ha⟩ := h1 x hx
  exact ⟨a, ha, h2.mp hv x hx a ha⟩

theorem string_text {v : Value} {p} (h : (validateString v none p).isValid = true) :
    ∃ t, HasText v t := by
  rw [validateString_iff (E := (⟨fun _ => none, fun _ _ => false, id⟩ : Env Unit))
    (M := fun _ _ => True) (sf := []) (by simp)] at h
  cases h
  exact ⟨_, ‹_›⟩

theorem unit_of_none (sp : Option Span) : IsUnitValue (.mk none none sp) := ⟨_, rfl⟩

/-- A schema of a type that needs no payload is that of unit. -/
theorem unitVariant_shape (hu : ∀ d ∈ prog, d.name ≠ chars! "unit") {s : Shape}
    (hok : Describable E prog s) (h : unitVariant (shapeSchema (F := F) prog s) = true) :
    ∀ {v}, IsUnitValue v → Written E true prog (.shape s) v := by
  induction s with
  | never => exact fun hv => .never rfl hv
  | pointer t ih => exact fun hv => .pointer (ih hok h hv)
  | documented t ih => exact fun hv => .documented (ih hok h hv)
  | «opaque» scalar name =>
    obtain ⟨rfl, hm⟩ := hok
    rw [textTypes_eq] at hm
    simp only [shapeSchema, opaqueSchema, if_true, List.contains_iff_mem.mpr hm] at h
    cases h
  | user i =>
    obtain ⟨d, hd, hns⟩ := hok
    simp only [shapeSchema, userSchema, hd, hns, Bool.false_eq_true, if_false, unitVariant,
      decide_eq_true_eq] at h
    exact absurd h (hu d (List.mem_of_getElem? hd))
  | _ => cases h

theorem unitVariant_struct (hu : ∀ d ∈ prog, d.name ≠ chars! "unit") {kind fs}
    (hok : FormOk E prog (.data kind fs))
    (h : unitVariant (structSchema (F := F) prog kind fs) = true) :
    ∀ {v}, IsUnitValue v → Written E true prog (.data kind fs) v := by
  intro v hv
  cases kind with
  | unit => exact .unit hv
  | struct => cases h
  | tuple =>
    match fs, hok with
    | [], _ => cases h
    | [f], hok => exact .newtype (unitVariant_shape hu (hok.1 f (by simp)) h hv)
    | _ :: _ :: _, _ => cases h

theorem step_data {rec' : Value → Schema F → List Char → Option Result} (hr : Sound E prog rec')
    {kind fs v p r}
    (hf' : ∀ f : Field, f ∈ fs → ∀ {w q b}, rec' w (fieldSchema prog f) q = some b →
      b.isValid = true → Written E true prog (.shape f.shape) w)
    (hs : ∀ f, fs = [f] → step E sf rec' v (shapeSchema prog f.shape) p = some r →
      r.isValid = true → Written E true prog (.shape f.shape) v)
    (hok : FormOk E prog (.data kind fs))
    (h : step E sf rec' v (structSchema prog kind fs) p = some r) (hv : r.isValid = true) :
    Written E true prog (.data kind fs) v := by
  cases kind with
  | unit =>
    obtain rfl := Option.some.inj h
    exact .unit (validateUnit_iff.mp hv)
  | tuple =>
    by_cases h1 : fs.length = 1
    · match fs, h1 with
      | [f], _ => exact .newtype (hs f rfl h hv)
    · have he : structSchema (F := F) prog .tuple fs = .tuple (fs.map fun f => shapeSchema prog f.shape) := by
        match fs, h1 with
        | [], _ => rfl
        | _ :: _ :: _, _ => rfl
      rw [he] at h
      simp only [step, validateTuple] at h
      split at h
      · obtain rfl := Option.some.inj h; cases hv
      · next items hi =>
        obtain ⟨a, ha, rfl⟩ := Option.map_eq_some_iff.mp h
        rw [isValid_merge, isValid_when, Bool.and_eq_true] at hv
        have hl : items.length = fs.length := by simpa using hv.1
        refine .tuple h1 (loose_tag v) (asSequence_iff.mp hi) hl ?_
        rintro ⟨x, f⟩ hq
        obtain ⟨i, hi, he⟩ := List.mem_iff_getElem.mp hq
        have hm : (((x, shapeSchema (F := F) prog f.shape) : Value × Schema F), i) ∈
            (items.zip (fs.map fun f => shapeSchema (F := F) prog f.shape)).zipIdx := by
          rw [List.mem_zipIdx_iff_getElem?, List.zip_map_right, List.getElem?_map,
            List.getElem?_eq_getElem hi, he]
          rfl
        obtain ⟨b, hb, hbv⟩ := merged ha hv.2 _ hm
        exact hr (.shape f.shape) x _ b (hok.1 f (List.of_mem_zip hq).2) hb hbv
  | struct =>
    have hpf := hok.2 rfl
    rw [structSchema_fields hpf] at h
    simp only [step, validateObject] at h
    split at h
    · obtain rfl := Option.some.inj h; cases hv
    · next es hes =>
      obtain ⟨a, ha, rfl⟩ := Option.map_eq_some_iff.mp h
      rw [isValid_merge, Bool.and_eq_true, missingFields_iff] at hv
      have hdes : ∀ {s t : Shape}, Plainly s t → Describable E prog s → Describable E prog t := by
        intro s t h
        induction h with
        | here => exact id
        | pointer _ ih => exact ih
        | documented _ ih => exact ih
      have key : ∀ e ∈ es, ∃ s, EntryOf prog fs e s ∧ Written E true prog (.shape s) e.value := by
        intro e he
        obtain ⟨b, hb, hbv⟩ := merged ha hv.1 e he
        rw [validateEntry] at hb
        split at hb
        · obtain rfl := Option.some.inj hb; cases hbv
        · next key hkey =>
          -- the schema of a field, or of the rest
          have own : ∀ {n : List Char} {s : Schema F} {q}, lookup (ObjectKey.named n) (objectFields prog fs) = some s →
              rec' e.value s q = some b → KeyIs e n →
              ∃ s, EntryOf prog fs e s ∧ Written E true prog (.shape s) e.value := by
            intro n s q hl hb hn
            obtain ⟨f, hf, hfl, rfl, rfl⟩ := mem_named hpf (lookup_mem hl) rfl
            refine ⟨f.shape, .named hn ((fieldOf_iff hpf).mpr ⟨hf, hfl⟩), ?_⟩
            exact hf' f hf hb hbv
          have rest : ∀ {s : Schema F} {q}, catchAll (objectFields prog fs) = some s →
              rec' e.value s q = some b →
              ∃ v, RestOf prog fs v ∧ Written E true prog (.shape v) e.value := by
            intro s q hc hb
            obtain ⟨k, hk, ht⟩ := catchAll_some hc
            obtain ⟨f, hf, x, y, hfl, hm, rfl⟩ := mem_tagged hpf hk ht
            exact ⟨y, (restOf_iff hpf).mpr ⟨f, hf, x, hfl, hm⟩,
              hr (.shape y) _ _ b (hdes hm (hok.1 f hf)).2.2 hb hbv⟩
          cases key with
          | none =>
            simp only [Option.getD_none] at hb
            split at hb
            · next hl =>
              obtain ⟨f, hf, hfl, hfn, _⟩ := mem_named hpf (lookup_mem hl) rfl
              exact absurd hfn (hpf.named f hf hfl)
            · split at hb
              · next hc =>
                obtain ⟨v, h1, h2⟩ := rest hc hb
                exact ⟨v, .unitKey (keyOpt_unit.mp hkey) h1, h2⟩
              · obtain rfl := Option.some.inj hb; cases hbv
          | some n =>
            have hn := keyOpt_named.mp hkey
            simp only [Option.getD_some] at hb
            split at hb
            · next hl => exact own hl hb hn
            · next hl =>
              split at hb
              · next hc =>
                obtain ⟨v, h1, h2⟩ := rest hc hb
                refine ⟨v, .rest hn ?_ h1, h2⟩
                rintro f hf rfl
                have := (fieldOf_iff hpf).mp hf
                rw [lookup_field hpf this.1 this.2] at hl
                cases hl
              · obtain rfl := Option.some.inj hb; cases hbv
      classical
      refine .fields (fun e => if h : e ∈ es then (key e h).choose else .bool) (loose_tag v)
        (asObject_iff.mp hes) ?_ ?_ ?_
      · intro e he
        simp only [he, dif_pos]
        exact (key e he).choose_spec.1
      · intro e he
        simp only [he, dif_pos]
        exact (key e he).choose_spec.2
      · intro f hf hno
        have := (fieldOf_iff hpf).mp hf
        refine hv.2 _ (lookup_mem (lookup_field hpf this.1 this.2)) f.name rfl ?_
        rw [mayOmit_iff (F := F) (prog := prog)] at hno
        simpa using hno

theorem accepted_enum {rec' : Value → Schema F → List Char → Option Result}
    {v : Value} {vs : List (List Char × Schema F)} {p r}
    (h : validateEnum E rec' v vs p = some r) (hv : r.isValid = true) :
    (∃ n s t q, (n, s) ∈ vs ∧ HasText v t ∧ rec' v s q = some r) ∨
    (∃ tag pl sp s, v = .mk (some tag) pl sp ∧ (tag.name, s) ∈ vs ∧
      (pl = none ∧ unitVariant s = true ∨ ∃ q, rec' (.mk none pl none) s q = some r)) := by
  obtain ⟨tag, pl, sp⟩ := v
  rw [validateEnum] at h
  cases tag with
  | none =>
    simp only [Value.tag] at h
    split at h
    · next s hs =>
      obtain ⟨t, n, ht, hm, _⟩ := enumFallback_some hs
      exact Or.inl ⟨n, s, t, p, hm, ht, h⟩
    · obtain rfl := Option.some.inj h; cases hv
  | some tag =>
    right
    simp only [Value.tag] at h
    split at h
    · next s hl =>
      refine ⟨tag, pl, sp, s, rfl, lookup_mem hl, ?_⟩
      cases pl with
      | none =>
        simp only [Value.payload] at h
        split at h
        · next hu => exact Or.inl ⟨rfl, hu⟩
        · obtain rfl := Option.some.inj h; cases hv
      | some pl => exact Or.inr ⟨_, h⟩
    · obtain rfl := Option.some.inj h; cases hv

theorem accepted_written (hp : PlainProgram prog) (hd : DescribableProgram E prog)
    (hu : ∀ d ∈ prog, d.name ≠ chars! "unit") (hf : Faithful sf prog) :
    ∀ n, Sound E prog (validate E sf n) := by
  intro n
  induction n using Nat.strongRecOn with
  | ind n ih =>
  intro form v p r hok h hv
  cases n with
  | zero => cases h
  | succ m =>
  have ihm : Sound E prog (validate E sf m) := ih m (by omega)
  have shape : ∀ (s : Shape) v p r, Describable E prog s →
      validate E sf (m + 1) v (shapeSchema prog s) p = some r → r.isValid = true →
      Written E true prog (.shape s) v := by
    intro s
    induction s with
    | bool =>
      intro v p r _ h hv
      obtain rfl := Option.some.inj h
      rw [validateBool_iff (E := E) (M := fun _ _ => True) (sf := sf)] at hv
      cases hv with | bool h1 h2 => exact .bool (loose_tag v) h1 h2
    | int lo hi =>
      intro v p r _ h hv
      obtain rfl := Option.some.inj h
      rw [validateInt_iff (E := E) (M := fun _ _ => True) (sf := sf)] at hv
      cases hv with | int h1 h2 _ _ _ => exact .int (loose_tag v) h1 h2 nofun
    | float =>
      intro v p r _ h hv
      obtain rfl := Option.some.inj h
      rw [validateFloat_iff (E := E) (M := fun _ _ => True) (sf := sf)] at hv
      cases hv with | float h1 h2 _ => exact .float (loose_tag v) h1 h2
    | char =>
      intro v p r _ h hv
      obtain rfl := Option.some.inj h
      obtain ⟨t, ht⟩ := string_text hv
      exact .char (loose_tag v) ht nofun
    | str =>
      intro v p r _ h hv
      obtain rfl := Option.some.inj h
      obtain ⟨t, ht⟩ := string_text hv
      exact .str (loose_tag v) ht
    | never =>
      intro v p r _ h hv
      obtain rfl := Option.some.inj h
      exact .never rfl (validateUnit_iff.mp hv)
    | «opaque» scalar name =>
      intro v p r hok h hv
      obtain ⟨rfl, hm⟩ := hok
      rw [textTypes_eq] at hm
      simp only [shapeSchema, opaqueSchema, if_true, List.contains_iff_mem.mpr hm] at h
      obtain rfl := Option.some.inj h
      obtain ⟨t, ht⟩ := string_text hv
      exact .opaque (loose_tag v) ht
    | option t _ =>
      intro v p r hok h hv
      simp only [shapeSchema, validate, step, validateOptional] at h
      split at h
      · next hn => exact .none (isUnit_iff.mp hn)
      · exact .some (ihm (.shape t) v p r hok h hv)
    | list t _ =>
      intro v p r hok h hv
      simp only [shapeSchema, validate, step, validateSeq] at h
      split at h
      · obtain rfl := Option.some.inj h; cases hv
      · next items hi =>
        refine .list (loose_tag v) (asSequence_iff.mp hi) ?_
        intro x hx
        obtain ⟨i, hi, rfl⟩ := List.mem_iff_getElem.mp hx
        have hm : (items[i], i) ∈ items.zipIdx := by
          rw [List.mem_zipIdx_iff_getElem?]
          simp [hi]
        obtain ⟨a, ha, hav⟩ := merged h hv _ hm
        exact ihm (.shape t) _ _ a hok ha hav
    | map k w _ _ =>
      intro v p r hok h hv
      simp only [shapeSchema, validate, step, validateMap] at h
      split at h
      · obtain rfl := Option.some.inj h; cases hv
      · next es hes =>
        have key : ∀ e ∈ es, Written E true prog (.shape k) e.key ∧
            Written E true prog (.shape w) e.value := by
          intro e he
          obtain ⟨a, ha, hav⟩ := merged h hv e he
          simp only [validateMapEntry] at ha
          split at ha
          · obtain rfl := Option.some.inj ha; cases hav
          · simp only [Option.bind_eq_some_iff, Option.map_eq_some_iff] at ha
            obtain ⟨b, hb, c, hc, rfl⟩ := ha
            rw [isValid_merge, Bool.and_eq_true] at hav
            exact ⟨ihm (.shape k) _ _ b hok.2.1 hb hav.1, ihm (.shape w) _ _ c hok.2.2 hc hav.2⟩
        exact .map (loose_tag v) (asObject_iff.mp hes) (fun e he => (key e he).1)
          (fun e he => (key e he).2)
    | result t e _ _ =>
      intro v p r hok h hv
      rcases accepted_enum h hv with ⟨n, s, text, q, hm, ht, hrec⟩ | ⟨tag, pl, sp, s, rfl, hm, hpl⟩
      · simp only [List.mem_cons, List.not_mem_nil, or_false, Prod.mk.injEq] at hm
        rcases hm with ⟨_, rfl⟩ | ⟨_, rfl⟩
        · exact .okText rfl ht (ihm (.shape t) v q r hok.1 hrec hv)
        · exact .errText rfl ht (ihm (.shape e) v q r hok.2.1 hrec hv)
      · simp only [List.mem_cons, List.not_mem_nil, or_false, Prod.mk.injEq] at hm
        rcases hm with ⟨hn, rfl⟩ | ⟨hn, rfl⟩
        · refine .ok hn ?_
          rcases hpl with ⟨rfl, hun⟩ | ⟨q, hrec⟩
          · exact unitVariant_shape hu hok.1 hun (unit_of_none _)
          · exact ihm (.shape t) _ q r hok.1 hrec hv
        · refine .err hn ?_
          rcases hpl with ⟨rfl, hun⟩ | ⟨q, hrec⟩
          · exact unitVariant_shape hu hok.2.1 hun (unit_of_none _)
          · exact ihm (.shape e) _ q r hok.2.1 hrec hv
    | pointer t iht => exact fun v p r hok h hv => .pointer (iht v p r hok h hv)
    | documented t iht => exact fun v p r hok h hv => .documented (iht v p r hok h hv)
    | undescribed => exact fun v _ _ _ _ _ => .undescribed v rfl
    | user i =>
      intro v p r hok h hv
      obtain ⟨d, hi, hns⟩ := hok
      have hmem := List.mem_of_getElem? hi
      simp only [shapeSchema, userSchema, hi, hns, Bool.false_eq_true, if_false, validate, step,
        validateTypeRef] at h
      split at h
      · next s hl =>
        obtain rfl := hf i d s hi hl
        cases hb : d.body with
        | struct kind fs =>
          have hdo : DataOf d.body kind fs := by rw [hb]; exact .struct ..
          rw [hb] at h
          refine .struct hi hb (ihm (.data kind fs) v p r ⟨?_, ?_⟩ h hv)
          · exact fun f hf => hd.shapes d hmem _ _ hdo f hf
          · rintro rfl
            exact hp.fields d hmem _ hdo
        | enum vs =>
          by_cases hex : ∃ x ∈ vs, x.other = true
          · obtain ⟨x, hx, hxo⟩ := hex
            exact .other v hi hb hx hxo
          · have hno : ∀ x ∈ vs, x.other = false := by
              intro x hx
              cases h : x.other with
              | false => rfl
              | true => exact absurd ⟨x, hx, h⟩ hex
            have hdv := hp.variants d hmem vs hb
            rw [hb] at h
            simp only [bodySchema, enumSchema_eq hdv hno] at h
            cases m with
            | zero => cases h
            | succ k =>
            have ihk : Sound E prog (validate E sf k) := ih k (by omega)
            have fok : ∀ w ∈ vs, FormOk E prog (.data w.kind w.fields) := by
              intro w hw
              have hdo : DataOf d.body w.kind w.fields := by rw [hb]; exact .variant hw
              exact ⟨fun f hf => hd.shapes d hmem _ _ hdo f hf,
                fun hk => hp.fields d hmem _ (hk ▸ hdo)⟩
            rcases accepted_enum h hv with ⟨n, s, text, q, hm, ht, hrec⟩ |
              ⟨tag, pl, sp, s, rfl, hm, hpl⟩
            · obtain ⟨w, hw, he⟩ := List.mem_map.mp hm
              cases he
              exact .variantText rfl hi hb hw ht (ihk (.data w.kind w.fields) v q r (fok w hw) hrec hv)
            · obtain ⟨w, hw, he⟩ := List.mem_map.mp hm
              simp only [Prod.mk.injEq] at he
              obtain ⟨hn, rfl⟩ := he
              refine .variant hi hb hw (hno w hw) hn.symm ?_
              rcases hpl with ⟨rfl, hun⟩ | ⟨q, hrec⟩
              · exact unitVariant_struct hu (fok w hw) hun (unit_of_none _)
              · exact ihk (.data w.kind w.fields) _ q r (fok w hw) hrec hv
      · obtain rfl := Option.some.inj h; cases hv
  cases form with
  | shape s => exact shape s v p r hok h hv
  | data kind fs =>
    refine step_data (sf := sf) ihm ?_ ?_ hok h hv
    · intro f hfm w q b hb hbv
      have hdes := hok.1 f hfm
      unfold fieldSchema at hb
      split at hb
      · cases m with
        | zero => cases hb
        | succ k => exact ih k (by omega) (.shape f.shape) w q b hdes hb hbv
      · exact ihm (.shape f.shape) w q b hdes hb hbv
    · rintro f rfl hs hsv
      exact shape f.shape v p r (hok.1 f (by simp)) hs hsv

end Styx.TypeGen
