import Verif.Lsp.Load
import Verif.Lsp.LoadSpec
import Verif.Props.Files

/-! # Property theorem C122: the command line and the editor validate alike -/

namespace Styx.Props

open Styx Styx.Spec Styx.Cli

attribute [local irreducible] Cst.formatSource parseTree

variable {F : Type}

theorem nextTo_exists (doc path : List Char) : ∃ place, NextTo doc path place := by
  by_cases ha : path.head? = some '/'
  · cases path with
    | nil => cases ha
    | cons c cs => cases ha; exact ⟨_, .absolute⟩
  · by_cases hd : '/' ∈ doc
    · have : ∃ dir name, doc = dir ++ '/' :: name ∧ '/' ∉ name := by
        clear ha
        induction doc with
        | nil => cases hd
        | cons c cs ih =>
          by_cases h : '/' ∈ cs
          · obtain ⟨dir, name, e, hn⟩ := ih h
            exact ⟨c :: dir, name, by rw [e]; rfl, hn⟩
          · rcases List.mem_cons.1 hd with rfl | h'
            · exact ⟨[], cs, rfl, h⟩
            · exact absurd h' h
      obtain ⟨dir, name, rfl, hn⟩ := this
      exact ⟨_, .under ha hn⟩
    · exact ⟨_, .plain ha hd⟩

theorem holdsText_lead {W : World F} {d : Disk} {p q t : List Char} (h : W.lead p = W.lead q) :
    HoldsText W d p t → HoldsText W d q t := by
  rintro ⟨f, h1, h2, h3⟩
  exact ⟨f, h ▸ h1, h2, h3⟩

theorem samePlace_symm {W : World F} {a b : List Char} (h : SamePlace W a b) : SamePlace W b a :=
  ⟨h.1.symm, fun path p q hp hq => (h.2 path q p hq hp).symm⟩

theorem schemaText_samePlace {W : World F} {d : Disk} {a b : List Char} {v : Value} {st : List Char}
    (h : SamePlace W a b) (hs : SchemaText W d a v none st) : SchemaText W d b v none st := by
  cases hs with
  | file h1 h2 h3 h4 h5 =>
    obtain ⟨q, hq⟩ := nextTo_exists b _
    exact .file h1 h2 h3 hq (holdsText_lead (h.2 _ _ _ h4 hq) h5)
  | first h1 h2 h3 h4 h5 h6 h7 => exact .first h1 h2 h3 h4 h5 h6 h7
  | identified h1 h2 h3 h4 h5 h6 h7 h8 h9 h10 => exact .identified h1 h2 h3 h4 h5 h6 h7 h8 h9 h10

/-- The reference that the server finds for a complete declaration, and the one of the command line. -/
theorem find_complete {v w : Value} (hd : DeclaredBy v w) (hc : Complete w) :
    (∃ path, Lsp.findSchemaDeclaration v = some (.external path) ∧ Cli.findSchemaDeclaration v = .ok (.external path)) ∨
    (∃ id cli, Lsp.findSchemaDeclaration v = some (.embedded id cli) ∧
      Cli.findSchemaDeclaration v = .ok (.embedded (some id) cli)) := by
  obtain ⟨t, es, sp, s, bef, k, doc, aft, rfl, rfl, hk, hb⟩ := hd
  have hk' : isSchemaTag k = true := (isSchemaTag_name _).2 hk
  have hl : Lsp.findSchemaDeclaration (.mk t (some (.object (bef ++ .mk k w doc :: aft) sp)) s) =
      (Lsp.declaredBy (.mk k w doc)).or (aft.findSome? Lsp.declaredBy) := by
    show (bef ++ Entry.mk k w doc :: aft).findSome? Lsp.declaredBy = _
    rw [List.findSome?_append]
    have : bef.findSome? Lsp.declaredBy = none := by
      rw [List.findSome?_eq_none_iff]
      intro e he
      unfold Lsp.declaredBy
      rw [if_neg]
      intro h
      exact hb e he ((isSchemaTag_name _).1 h)
    rw [this, Option.none_or, List.findSome?_cons]
    cases Lsp.declaredBy (.mk k w doc) <;> rfl
  have hcli : Cli.findSchemaDeclaration (.mk t (some (.object (bef ++ .mk k w doc :: aft) sp)) s) = declarationOf w := by
    unfold Cli.findSchemaDeclaration
    have hf : (bef ++ Entry.mk k w doc :: aft).find? (fun e => isSchemaTag e.key) = some (.mk k w doc) := by
      rw [List.find?_append, List.find?_eq_none.2, Option.none_or, List.find?_cons_of_pos]
      · exact hk'
      · intro e he h
        exact hb e he ((isSchemaTag_name _).1 h)
    show (match (bef ++ Entry.mk k w doc :: aft).find? (fun e => isSchemaTag e.key) with
      | some e => declarationOf e.value
      | none => .error (.failed .validation)) = _
    rw [hf]
    rfl
  rw [hl, hcli]
  rcases hc with ⟨path, hp⟩ | ⟨hn, es, i, id, c, cli, h1, h2, h3, h4, h5⟩
  · refine .inl ⟨path, ?_, ?_⟩
    · have hu : w.isUnit = false := by
        obtain ⟨tg, p, sp'⟩ := w
        cases tg <;> cases p <;> first | rfl | cases hp
      have : Lsp.declaredBy (.mk k w doc) = some (.external path) := by
        unfold Lsp.declaredBy
        rw [if_pos (show isSchemaTag (Entry.mk k w doc).key = true from hk')]
        simp [Entry.value, hu, hp]
      rw [this]; rfl
    · unfold declarationOf
      rw [hp]
  · refine .inr ⟨id, cli, ?_, ?_⟩
    · have hu : w.isUnit = false := by
        obtain ⟨tg, p, sp'⟩ := w
        cases tg <;> cases p <;> first | rfl | cases h1
      have : Lsp.declaredBy (.mk k w doc) = some (.embedded id cli) := by
        unfold Lsp.declaredBy
        rw [if_pos (show isSchemaTag (Entry.mk k w doc).key = true from hk')]
        simp [Entry.value, hu, hn, Lsp.embeddedRef, h1, h2, h3, h4, h5]
      rw [this]; rfl
    · unfold declarationOf
      simp [hn, h1, h2, h3, h4, h5]

theorem resolvePath_eq {doc path : List Char} (ht : TidyPath doc) (habs : doc.head? = some '/') (place : List Char) :
    Lsp.resolvePath path doc = some place ↔ resolveSchemaPath path doc = .ok place := by
  unfold Lsp.resolvePath resolveSchemaPath
  split
  · simp
  · split
    · simp
    · have hne : doc ≠ ['-'] := by rintro rfl; cases habs
      rw [if_pos hne]
      cases ht with
      | plain hs =>
        exfalso
        cases doc with
        | nil => cases habs
        | cons c cs => cases habs; simp at hs
      | @under dir name h1 h2 h3 h4 h5 =>
        rw [parent_under h1 h2 h3 h4 h5]
        simp

theorem schemaId_eq (s : List Char) : Lsp.schemaId s = (parseTree s).map fun
    | .ok v => metaId v
    | .error _ => none := by
  unfold Lsp.schemaId metaId
  cases parseTree s with
  | none => rfl
  | some r =>
    cases r with
    | error _ => rfl
    | ok v =>
      simp only [Option.map_some, Option.some.injEq]
      cases v.asObject with
      | none => rfl
      | some es =>
        simp only [Option.bind_some]
        cases objGet es (chars! "meta") with
        | none => rfl
        | some m =>
          simp only [Option.bind_some]
          cases m.asObject <;> rfl

theorem findById_eq (id : List Char) : ∀ (ss : List (List Char)) (t : List Char),
    Lsp.findById id ss = .ok t ↔ findEmbedded id ss = .ok t
  | [], t => by simp [Lsp.findById, findEmbedded]
  | s :: ss, t => by
    unfold Lsp.findById findEmbedded
    rw [schemaId_eq]
    cases parseTree s with
    | none => simp
    | some r =>
      cases r with
      | error _ => simpa using findById_eq id ss t
      | ok v =>
        simp only [Option.map_some]
        split
        · simp
        · exact findById_eq id ss t

theorem loadSchema_eq {W : World F} {d : Disk} {doc : List Char} {v w : Value} (ht : TidyPath doc)
    (habs : doc.head? = some '/') (hd : DeclaredBy v w) (hc : Complete w) :
    ∃ r, Lsp.findSchemaDeclaration v = some r ∧
      ∀ sf, Lsp.loadSchema W d doc r = .ok sf ↔ ∃ st, SchemaText W d doc v none st ∧ W.readSchema st = some sf := by
  have hn : docName doc = doc := by
    unfold docName; rw [if_neg (by rintro rfl; cases habs)]
  have hs := fun sf => schemaFor_iff (W := W) (d := d) (v := v) (o := none) (sf := sf) ht
  rw [hn] at hs
  rcases find_complete hd hc with ⟨path, h1, h2⟩ | ⟨id, cli, h1, h2⟩
  · refine ⟨_, h1, fun sf => ?_⟩
    rw [← hs]
    unfold World.schemaFor
    simp only [h2]
    unfold Lsp.loadSchema Lsp.loadSource
    dsimp only
    have hr := resolvePath_eq (path := path) ht habs
    cases hp : Lsp.resolvePath path doc with
    | none =>
      cases hq : resolveSchemaPath path doc with
      | error e => simp
      | ok q => rw [(hr q).2 hq] at hp; cases hp
    | some p =>
      rw [(hr p).1 hp]
      dsimp only
      unfold World.loadSchema World.parseSchema
      cases W.readText d p with
      | error e => simp
      | ok t =>
        dsimp only
        cases W.readSchema t <;> simp
  · refine ⟨_, h1, fun sf => ?_⟩
    rw [← hs]
    unfold World.schemaFor
    simp only [h2]
    unfold Lsp.loadSchema Lsp.loadSource World.extract
    dsimp only
    cases W.embedded cli with
    | none => simp
    | some ss =>
      cases ss with
      | nil => simp
      | cons s ss =>
        dsimp only
        have hf := findById_eq id (s :: ss)
        cases hl : Lsp.findById id (s :: ss) with
        | error e =>
          cases hq : findEmbedded id (s :: ss) with
          | error e' => simp
          | ok q => rw [(hf q).2 hq] at hl; cases hl
        | ok t =>
          rw [(hf t).1 hl]
          dsimp only
          unfold World.parseSchema
          cases W.readSchema t <;> simp

/-- **C122**: for a document with a complete declaration, the editor validates against the text that the
specification of the command line names: the file next to the document, or the schema with the identifier in the
program. -/
theorem C122_schema_partial {W : World F} {hasUri : Lsp.SchemaRef → Bool} {fuel : Nat} {d : Disk} {doc st : List Char}
    {v w : Value} {sf : Schema.SchemaFile F} (ht : TidyPath doc) (habs : doc.head? = some '/') (hu : ∀ r, hasUri r = true)
    (hd : DeclaredBy v w) (hc : Complete w) (hst : SchemaText W d doc v none st) (hsf : W.readSchema st = some sf) :
    Lsp.check W hasUri fuel d doc v =
      (Schema.validateDocument W.env sf fuel (stripSchemaDeclaration v)).map .validated := by
  obtain ⟨r, h1, h2⟩ := loadSchema_eq (W := W) (d := d) ht habs hd hc
  have h3 := (h2 sf).2 ⟨st, hst, hsf⟩
  unfold Lsp.check Lsp.resolveSchema Lsp.validateAgainst
  simp only [h1, h3]
  unfold Lsp.loadSchema at h3
  cases hl : Lsp.loadSource W d doc r with
  | error e => rw [hl] at h3; cases h3
  | ok t =>
    rw [hl] at h3
    dsimp only at h3 ⊢
    cases hr : W.readSchema t with
    | none => rw [hr] at h3; cases h3
    | some sf' =>
      simp only [hu, if_true]
      cases Schema.validateDocument W.env sf fuel (stripSchemaDeclaration v) <;> rfl

theorem marks_schema {source : List Char} {v : Value} {c : Lsp.Checked} {hint : Bool} {ms : List Lsp.Mark}
    (hp : parseTree source = some (.ok v)) (hm : Lsp.marks source c hint = some ms) :
    ShowsSchemaError ms ↔ ∃ m ∈ Lsp.schemaMarks source v c, m.severity = .error := by
  unfold Lsp.marks at hm
  rw [hp] at hm
  simp only [Option.map_some, Option.some.injEq] at hm
  subst hm
  unfold ShowsSchemaError Lsp.computeDiagnostics
  constructor
  · rintro ⟨m, hm, ho, hs⟩
    simp only [Option.map_none, Option.toList_none, List.append_nil, List.mem_append] at hm
    rcases hm with ((hm | hm) | hm) | hm
    · unfold Lsp.cstMarks at hm
      obtain ⟨e, _, rfl⟩ := List.mem_map.1 hm
      cases ho
    · unfold Lsp.checkMarks at hm
      obtain ⟨e, _, rfl⟩ := List.mem_map.1 hm
      cases ho
    · exact ⟨m, hm, hs⟩
    · split at hm
      · simp only [List.mem_singleton] at hm
        subst hm
        cases ho
      · cases hm
  · rintro ⟨m, hm, hs⟩
    refine ⟨m, by simp [hm], ?_, hs⟩
    unfold Lsp.schemaMarks at hm
    split at hm
    · cases hm
    · simp only [List.mem_singleton] at hm
      subst hm; rfl
    · rcases List.mem_append.1 hm with hm | hm
      · obtain ⟨e, _, rfl⟩ := List.mem_map.1 hm; rfl
      · obtain ⟨e, _, rfl⟩ := List.mem_map.1 hm; rfl

/-- **C122**, for documents with a complete declaration of a schema that can be read: the editor shows an error of the
schema for the document exactly if `styx FILE --validate` does not end with 0; and the one runs out of stack exactly if
the other does. -/
theorem C122_partial {W : World F} {hasUri : Lsp.SchemaRef → Bool} {fuel : Nat} {d : Disk} {input doc source st : List Char}
    {v w : Value} {sf : Schema.SchemaFile F} (hi : TidyPath input) (ht : TidyPath doc) (habs : doc.head? = some '/')
    (hin : input ≠ ['-']) (hpl : SamePlace W input doc) (hu : ∀ r, hasUri r = true)
    (hh : HoldsText W d doc source) (hp : parseTree source = some (.ok v))
    (hd : DeclaredBy v w) (hc : Complete w) (hst : SchemaText W d doc v none st) (hsf : W.readSchema st = some sf) :
    (∀ c hint ms, Lsp.check W hasUri fuel d doc v = some c → Lsp.marks source c hint = some ms →
      (ShowsSchemaError ms ↔ (W.run fuel d { input := input, validate := true }).2.code = some 2) ∧
      (¬ ShowsSchemaError ms ↔ (W.run fuel d { input := input, validate := true }).2.code = some 0)) ∧
    (Lsp.check W hasUri fuel d doc v = none ↔ (W.run fuel d { input := input, validate := true }).2.code = none) := by
  have hck := C122_schema_partial (W := W) (fuel := fuel) ht habs hu hd hc hst hsf
  have hit : InputText W d input source := .inr ⟨hin, holdsText_lead hpl.1.symm hh⟩
  have hrun : W.run fuel d { input := input, validate := true } = ([],
      match Schema.validateDocument W.env sf fuel (stripSchemaDeclaration v) with
      | none => .overflows
      | some r => if r.isValid then .success else .failed .validation) := by
    have hn : docName input = input := by unfold docName; rw [if_neg hin]
    have hs := (schemaFor_iff (W := W) (d := d) (v := v) (o := none) (sf := sf) hi).2
      ⟨st, schemaText_samePlace (samePlace_symm hpl) hst, hsf⟩
    rw [hn] at hs
    unfold World.run
    rw [if_neg (by simp [World.refused]), (readInput_iff W d input source).2 hit]
    dsimp only
    rw [hp]
    dsimp only [World.check]
    rw [if_pos rfl, if_neg hin]
    unfold World.runValidation
    rw [hs]
    dsimp only
    cases Schema.validateDocument W.env sf fuel (stripSchemaDeclaration v) with
    | none => rfl
    | some r =>
      dsimp only
      cases r.isValid <;> rfl
  rw [hrun, hck]
  constructor
  · intro c hint ms hcc hm
    cases hval : Schema.validateDocument W.env sf fuel (stripSchemaDeclaration v) with
    | none => rw [hval] at hcc; cases hcc
    | some r =>
      rw [hval] at hcc
      simp only [Option.map_some, Option.some.injEq] at hcc
      subst hcc
      have key : ShowsSchemaError ms ↔ r.errors ≠ [] := by
        rw [marks_schema hp hm]
        unfold Lsp.schemaMarks
        constructor
        · rintro ⟨m, hm, hs⟩ he
          dsimp only at hm
          rw [he] at hm
          simp only [List.map_nil, List.nil_append] at hm
          obtain ⟨e, _, rfl⟩ := List.mem_map.1 hm
          cases hs
        · intro he
          obtain ⟨e, he⟩ := List.exists_mem_of_ne_nil _ he
          exact ⟨_, List.mem_append_left _ (List.mem_map.2 ⟨e, he, rfl⟩), rfl⟩
      rw [key]
      dsimp only
      have hv : r.isValid = true ↔ r.errors = [] := by simp [Schema.Result.isValid]
      by_cases he : r.errors = []
      · rw [if_pos (hv.2 he)]
        simp [he, Exit.code]
      · rw [if_neg (fun h => he (hv.1 h))]
        simp [he, Exit.code]
  · cases Schema.validateDocument W.env sf fuel (stripSchemaDeclaration v) with
    | none => simp [Exit.code]
    | some r =>
      dsimp only [Option.map_some]
      split <;> simp [Exit.code]

/-! ## Witnesses -/

/-- The directory `/p`, which is the current one, with the files `a.styx` (0) and `s.styx` (1); a program `x` with one
schema.  The text `s` is a schema that accepts everything, the text `n` one without a root. -/
def editWorld : World Unit where
  lead p :=
    let full := if p.head? = some '/' then p else chars! "/p/" ++ p
    if full = chars! "/p/a.styx" then some 0 else if full = chars! "/p/s.styx" then some 1 else none
  canonical _ := none
  mayRead _ := true
  mayWrite _ := true
  parts _ bs := [bs]
  stdin := none
  terminal := false
  lib := ⟨Unit, fun _ => none, fun _ => true, fun _ => [], fun _ => []⟩
  jsonText _ := chars! "{}"
  env := ⟨fun _ => none, fun _ _ => false, id⟩
  readSchema t := if t = chars! "s" then some [(none, .any)] else if t = chars! "n" then some [] else none
  embedded p := if p = chars! "x" then some [chars! "n"] else none

/-- The files hold the texts. -/
def editDisk (t : List Char) (schema : Option (List Char)) : Disk := fun f =>
  if f = 0 then some (utf8 t) else if f = 1 then schema.map utf8 else none

theorem edit_holds (t : List Char) (s : Option (List Char)) : HoldsText editWorld (editDisk t s) (chars! "/p/a.styx") t :=
  ⟨0, rfl, rfl, rfl⟩

theorem edit_tidy : TidyPath (chars! "/p/a.styx") :=
  .under (dir := chars! "/p") (name := chars! "a.styx") (by decide) (by decide) (by decide) (by decide) (by decide)

theorem edit_run {t : List Char} {s : Option (List Char)} {v : Value} (hp : parseTree t = some (.ok v)) (fuel : Nat) :
    (editWorld.run fuel (editDisk t s) { input := chars! "/p/a.styx", validate := true }).2 =
      (editWorld.runValidation fuel (editDisk t s) v (chars! "/p/a.styx") none).getD .success := by
  have hi : InputText editWorld (editDisk t s) (chars! "/p/a.styx") t := .inr ⟨by decide, edit_holds t s⟩
  unfold World.run
  rw [if_neg (by decide), (readInput_iff _ _ _ _).2 hi]
  dsimp only
  rw [hp]
  dsimp only [World.check]
  rw [if_pos rfl, if_neg (by decide)]
  cases editWorld.runValidation fuel (editDisk t s) v (chars! "/p/a.styx") none <;> rfl

theorem edit_unresolved {source : List Char} {v : Value} {hint : Bool} {ms : List Lsp.Mark}
    (hp : parseTree source = some (.ok v)) (hm : Lsp.marks source .unresolved hint = some ms) : ¬ ShowsSchemaError ms := by
  rw [marks_schema hp hm]
  simp [Lsp.schemaMarks]

section
attribute [local semireducible] parseTree

theorem opted_out : ∃ v, parseTree (chars! "@schema @\na 1\n") = some (.ok v) ∧
    Lsp.findSchemaDeclaration v = some .optOut ∧ Cli.findSchemaDeclaration v = .error (.failed .validation) :=
  ⟨_, rfl, rfl, rfl⟩

theorem declares_file : ∃ v, parseTree (chars! "@schema s.styx\na 1\n") = some (.ok v) ∧
    Lsp.findSchemaDeclaration v = some (.external (chars! "s.styx")) ∧
    Cli.findSchemaDeclaration v = .ok (.external (chars! "s.styx")) ∧
    ∃ w, DeclaredBy v w ∧ w.asStr = some (chars! "s.styx") :=
  ⟨_, rfl, rfl, rfl, _, find_declared.2 ⟨_, _, rfl, rfl, rfl⟩, rfl⟩

theorem declares_program : ∃ v, parseTree (chars! "@schema {cli x}\na 1\n") = some (.ok v) ∧
    Lsp.findSchemaDeclaration v = none ∧ Cli.findSchemaDeclaration v = .ok (.embedded none (chars! "x")) ∧
    Schema.validateDocument editWorld.env [] 1 (stripSchemaDeclaration v) = some ⟨[⟨[], none, .schemaError .noRoot⟩], []⟩ :=
  ⟨_, rfl, rfl, rfl, rfl⟩

theorem declares_twice : ∃ v, parseTree (chars! "@schema (s)\na 1\n@schema s.styx\n") = some (.ok v) ∧
    Lsp.findSchemaDeclaration v = some (.external (chars! "s.styx")) ∧
    Cli.findSchemaDeclaration v = .error (.failed .validation) ∧
    Schema.validateDocument editWorld.env [(none, .any)] 2 (stripSchemaDeclaration v) = some ⟨[], []⟩ :=
  ⟨_, rfl, rfl, rfl, rfl⟩

end

/-- **C122** is false: a document that opts out of schemas (`@schema @`) has no errors in the editor, but does not
pass `--validate`. -/
theorem C122_optOut_false : ∃ (W : World Unit) (d : Disk) (doc source : List Char) (v : Value), TidyPath doc ∧
    HoldsText W d doc source ∧ parseTree source = some (.ok v) ∧
    ∀ hasUri fuel, (W.run fuel d { input := doc, validate := true }).2.code = some 2 ∧
      ∃ c, Lsp.check W hasUri fuel d doc v = some c ∧
        ∀ hint ms, Lsp.marks source c hint = some ms → ¬ ShowsSchemaError ms := by
  obtain ⟨v, hp, h1, h2⟩ := opted_out
  refine ⟨editWorld, editDisk _ none, chars! "/p/a.styx", _, v, edit_tidy, edit_holds _ _, hp, fun hasUri fuel => ⟨?_, ?_⟩⟩
  · rw [edit_run hp]
    unfold World.runValidation World.schemaFor
    rw [h2]; rfl
  · refine ⟨.unresolved, ?_, fun _ _ => edit_unresolved hp⟩
    unfold Lsp.check Lsp.resolveSchema
    rw [h1]; rfl

/-- **C122** is false: the editor shows nothing when the declared schema is not there, while the command line fails. -/
theorem C122_missing_false : ∃ (W : World Unit) (d : Disk) (doc source : List Char) (v w : Value), TidyPath doc ∧
    HoldsText W d doc source ∧ parseTree source = some (.ok v) ∧ DeclaredBy v w ∧ Complete w ∧
    ∀ hasUri fuel, (W.run fuel d { input := doc, validate := true }).2.code = some 3 ∧
      ∃ c, Lsp.check W hasUri fuel d doc v = some c ∧
        ∀ hint ms, Lsp.marks source c hint = some ms → ¬ ShowsSchemaError ms := by
  obtain ⟨v, hp, h1, h2, w, hd, hw⟩ := declares_file
  refine ⟨editWorld, editDisk _ none, chars! "/p/a.styx", _, v, w, edit_tidy, edit_holds _ _, hp, hd, .inl ⟨_, hw⟩,
    fun hasUri fuel => ⟨?_, ?_⟩⟩
  · rw [edit_run hp]
    unfold World.runValidation World.schemaFor
    rw [h2]; rfl
  · refine ⟨.unresolved, ?_, fun _ _ => edit_unresolved hp⟩
    unfold Lsp.check Lsp.resolveSchema
    rw [h1]; rfl

/-- **C122** is false: for a declaration without identifier the command line takes the first schema of the program and
can find errors; the editor does not validate at all. -/
theorem C122_identifier_false : ∃ (W : World Unit) (d : Disk) (doc source : List Char) (v : Value), TidyPath doc ∧
    HoldsText W d doc source ∧ parseTree source = some (.ok v) ∧ (∃ st, SchemaText W d doc v none st) ∧
    ∀ hasUri, (W.run 1 d { input := doc, validate := true }).2.code = some 2 ∧
      ∃ c, Lsp.check W hasUri 1 d doc v = some c ∧
        ∀ hint ms, Lsp.marks source c hint = some ms → ¬ ShowsSchemaError ms := by
  obtain ⟨v, hp, h1, h2, h3⟩ := declares_program
  have hs : editWorld.schemaFor (editDisk (chars! "@schema {cli x}\na 1\n") none) v (chars! "/p/a.styx") none = .ok [] := by
    unfold World.schemaFor
    rw [h2]; rfl
  refine ⟨editWorld, editDisk _ none, chars! "/p/a.styx", _, v, edit_tidy, edit_holds _ _, hp, ?_, fun hasUri => ⟨?_, ?_⟩⟩
  · obtain ⟨st, h, _⟩ := (schemaFor_iff (a := chars! "/p/a.styx") edit_tidy).1 hs
    exact ⟨st, h⟩
  · rw [edit_run hp]
    unfold World.runValidation
    rw [hs]
    dsimp only
    rw [h3]; rfl
  · refine ⟨.unresolved, ?_, fun _ _ => edit_unresolved hp⟩
    unfold Lsp.check Lsp.resolveSchema
    rw [h1]

/-- **C122** is false: with a first declaration that is neither path nor object the command line gives up, while the
editor goes on to the second one and finds the document valid. -/
theorem C122_twice_false : ∃ (W : World Unit) (d : Disk) (doc source : List Char) (v : Value), TidyPath doc ∧
    HoldsText W d doc source ∧ parseTree source = some (.ok v) ∧
    (W.run 2 d { input := doc, validate := true }).2.code = some 2 ∧
    Lsp.check W (fun _ => true) 2 d doc v = some (.validated ⟨[], []⟩) := by
  obtain ⟨v, hp, h1, h2, h3⟩ := declares_twice
  refine ⟨editWorld, editDisk _ (some (chars! "s")), chars! "/p/a.styx", _, v, edit_tidy, edit_holds _ _, hp, ?_, ?_⟩
  · rw [edit_run hp]
    unfold World.runValidation World.schemaFor
    rw [h2]; rfl
  · have hl : ∀ t, Lsp.loadSource editWorld (editDisk t (some (chars! "s"))) (chars! "/p/a.styx")
        (.external (chars! "s.styx")) = .ok (chars! "s") := by
      intro t; rfl
    unfold Lsp.check Lsp.resolveSchema Lsp.validateAgainst Lsp.loadSchema
    simp only [h1, hl]
    show (match (Except.ok (Schema.validateDocument editWorld.env [(none, .any)] 2 (stripSchemaDeclaration v)) :
      Except Lsp.LoadError (Option Schema.Result)) with
      | .error .panics => none
      | .error .failed => some Lsp.Checked.unloadable
      | .ok none => none
      | .ok (some r) => some (Lsp.Checked.validated r)) = _
    rw [h3]

/-- The conditions are met: a document with a schema next to it, named by a relative path on the command line. -/
example : ∃ v w, TidyPath (chars! "a.styx") ∧ TidyPath (chars! "/p/a.styx") ∧ (chars! "/p/a.styx").head? = some '/' ∧
    SamePlace editWorld (chars! "a.styx") (chars! "/p/a.styx") ∧
    HoldsText editWorld (editDisk (chars! "@schema s.styx\na 1\n") (some (chars! "s"))) (chars! "/p/a.styx")
      (chars! "@schema s.styx\na 1\n") ∧
    parseTree (chars! "@schema s.styx\na 1\n") = some (.ok v) ∧ DeclaredBy v w ∧ Complete w ∧
    SchemaText editWorld (editDisk (chars! "@schema s.styx\na 1\n") (some (chars! "s"))) (chars! "/p/a.styx") v none
      (chars! "s") ∧ editWorld.readSchema (chars! "s") = some [(none, .any)] := by
  obtain ⟨v, hp, h1, h2, w, hd, hw⟩ := declares_file
  refine ⟨v, w, .plain (by decide), edit_tidy, rfl, ⟨rfl, ?_⟩, edit_holds _ _, hp, hd, .inl ⟨_, hw⟩,
    .file hd hw (by unfold IsUrl; decide) (.under (dir := chars! "/p") (name := chars! "a.styx") (by decide) (by decide))
      ⟨1, rfl, rfl, rfl⟩, rfl⟩
  intro path p q h3 h4
  have hq : q = if path.head? = some '/' then path else chars! "/p/" ++ path := by
    generalize hg : chars! "/p/a.styx" = dd at h4
    cases h4 with
    | absolute => rfl
    | plain _ h => subst hg; exact absurd (by decide) h
    | @under dir name _ h5 h6 =>
      have h := congrArg (fun l => l.reverse.dropWhile (· ≠ '/')) hg
      simp only [List.reverse_append, List.reverse_cons, List.append_assoc, List.singleton_append] at h
      rw [Cli.dropWhile_slash (by simpa using h6)] at h
      have : dir = chars! "/p" := by
        have := congrArg List.reverse h
        simp at this
        exact (List.append_cancel_right (bs := ['/']) (cs := chars! "/p") this.symm)
      rw [if_neg h5, this]; rfl
  have hpp : p = path := by
    generalize hg : chars! "a.styx" = dd at h3
    cases h3 with
    | absolute => rfl
    | plain => rfl
    | @under dir name _ h5 h6 =>
      exact absurd (show '/' ∈ (chars! "a.styx") from hg ▸ by simp) (by decide)
  subst hpp
  rw [hq]
  by_cases ha : p.head? = some '/'
  · rw [if_pos ha]
  · rw [if_neg ha]
    show editWorld.lead p = editWorld.lead ('/' :: (chars! "p/" ++ p))
    simp [editWorld, ha]

end Styx.Props
