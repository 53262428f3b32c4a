import Verif.Cli.PathLemmas
import Verif.Props.Relayout
import Verif.Props.Schema
import Verif.Props.Ffi

/-!
# Property theorems C100, C101, C102: what the command line does to files, and its exit code

`Verif.Cli.FilesSpec` is the specification.
-/

namespace Styx.Props

open Styx Styx.Spec Styx.Cli

-- keep the elaborator from evaluating the parser
attribute [local irreducible] Cst.formatSource parseTree

variable {F : Type}

theorem satisfies_of_check {W : World F} {fuel : Nat} {d : Disk} {a : FileArgs} {t : List Char} {v : Value}
    (ht : TidyPath a.input) (hp : parseTree t = some (.ok v)) :
    (W.runValidation fuel d v (docName a.input) a.schema = none ↔ Satisfies W fuel d a v) := by
  obtain ⟨es, rfl⟩ := parseTree_root hp
  unfold World.runValidation
  constructor
  · intro h
    cases hs : W.schemaFor d (.mk none (some (.object es none)) none) (docName a.input) a.schema with
    | error e => rw [hs] at h; cases h
    | ok sf =>
      obtain ⟨st, h1, h2⟩ := (schemaFor_iff ht).1 hs
      rw [hs] at h
      dsimp only at h
      cases hr : Schema.validateDocument W.env sf fuel (stripSchemaDeclaration (.mk none (some (.object es none)) none)) with
      | none => rw [hr] at h; cases h
      | some r =>
        rw [hr] at h
        dsimp only at h
        split at h
        · rename_i hval
          exact ⟨st, sf, r, none, es, _, none, none, h1, h2, rfl, (undeclared_iff _ _).2 rfl, hr, by
            simpa [Schema.Result.isValid] using hval⟩
        · cases h
  · rintro ⟨st, sf, r, tag, es', es'', sp, s, h1, h2, h3, h4, h5, h6⟩
    cases h3
    rw [(schemaFor_iff ht).2 ⟨st, h1, h2⟩]
    dsimp only
    have := (undeclared_iff _ _).1 h4
    subst this
    rw [show stripSchemaDeclaration (.mk none (some (.object es none)) none) =
      .mk none (some (.object (es.filter fun e => !isSchemaTag e.key) none)) none from rfl, h5]
    simp [Schema.Result.isValid, h6]

theorem check_none {W : World F} {fuel : Nat} {d : Disk} {a : FileArgs} {v : Value} (h : W.check fuel d a v = none) :
    a.validate = true → W.runValidation fuel d v (docName a.input) a.schema = none := by
  intro hv
  unfold World.check at h
  rw [if_pos hv] at h
  show W.runValidation fuel d v (if a.input = ['-'] then chars! "<stdin>" else a.input) a.schema = none
  cases hr : W.runValidation fuel d v (if a.input = ['-'] then chars! "<stdin>" else a.input) a.schema with
  | none => rfl
  | some e => rw [hr] at h; cases h

/-- If a file changes at all, this is a run that writes. -/
theorem changed_writes {W : World F} {fuel : Nat} {d : Disk} {a : FileArgs} {k f : Nat}
    (h : after d ((W.run fuel d a).1.take k) f ≠ d f) :
    ¬ Contradictory W a ∧ ∃ t v, InputText W d a.input t ∧ parseTree t = some (.ok v) ∧
      W.check fuel d a v = none ∧ Destination W a f ∧ W.mayWrite f = true ∧
      W.run fuel d a = (writeOps f (W.parts f (utf8 (W.result a t v))),
        writeEnd (W.parts f (utf8 (W.result a t v))) (utf8 (W.result a t v))) := by
  have hr := run_runs W fuel d a
  generalize hg : W.run fuel d a = r at hr h ⊢
  have nil : ∀ e : Exit, after d ((([] : List Op), e).1.take k) f = d f := by intro e; simp [after]
  cases hr with
  | refused => exact absurd (nil _) h
  | unread => exact absurd (nil _) h
  | panics => exact absurd (nil _) h
  | rejected => exact absurd (nil _) h
  | checked => exact absurd (nil _) h
  | @written t v h1 h2 h3 h4 =>
    refine ⟨h1, t, v, h2, h3, h4, ?_⟩
    have hw := writeResult_writes W a t v
    generalize W.writeResult a t v = r at hw h ⊢
    cases hw with
    | fails => exact absurd (nil _) h
    | prints => exact absurd (by rw [after_print]) h
    | @file g hd hm =>
      by_cases hgf : f = g
      · subst hgf; exact ⟨hd, hm, rfl⟩
      · exact absurd (after_write_other hgf _ _ _) h

/-! ## C100 -/

/-- **C100**: whatever the arguments, the files and the moment at which the run is stopped, the only file that can have
changed is the one the arguments name as destination, and it is changed only if the options do not contradict each other,
the input could be read, is a correct document and, if validation was asked for, satisfies its schema. -/
theorem C100_only (W : World F) (fuel : Nat) (d : Disk) (a : FileArgs) (k f : Nat) (ht : TidyPath a.input)
    (h : after d ((W.run fuel d a).1.take k) f ≠ d f) :
    Destination W a f ∧ W.mayWrite f = true ∧ ¬ Contradictory W a ∧
      ∃ t v, InputText W d a.input t ∧ parseTree t = some (.ok v) ∧ (a.validate = true → Satisfies W fuel d a v) := by
  obtain ⟨h1, t, v, h2, h3, h4, h5, h6, _⟩ := changed_writes h
  exact ⟨h5, h6, h1, t, v, h2, h3, fun hv => (satisfies_of_check ht h3).1 (check_none h4 hv)⟩

/-- **C100**, the input: without `--in-place` the input file is never touched, at no moment of the run.  Missing for the
full property: a file given for JSON that is the input (`C100_json_false`), and an output that is another name of the
input (`C100_link_false`). -/
theorem C100_input_partial (W : World F) (fuel : Nat) (d : Disk) (a : FileArgs) (k f : Nat) (ho : WellSet W d)
    (hn : OneName W) (hi : a.inPlace = false) (hin : a.input ≠ ['-']) (hf : W.lead a.input = some f) (hd : d f ≠ none)
    (hj : ∀ p, a.jsonOut = some p → W.lead p ≠ some f) :
    after d ((W.run fuel d a).1.take k) f = d f := by
  by_cases h : after d ((W.run fuel d a).1.take k) f = d f
  · exact h
  · obtain ⟨h1, t, v, h2, h3, h4, h5, h6, _⟩ := changed_writes h
    rcases h5 with ⟨p, hp, _, hl⟩ | ⟨_, hp, _⟩ | ⟨_, _, p, hp, hm, hl⟩
    · exact absurd hl (hj p hp)
    · rw [hi] at hp; cases hp
    · refine absurd (.inr (.inr ⟨p, hp, hin, hm, .inr ?_⟩)) h1
      cases hx : W.canonical a.input with
      | none => exact absurd hx (ho.there _ _ hf hd)
      | some x =>
        cases hy : W.canonical p with
        | none => exact absurd hy (ho.there _ _ hl hd)
        | some y => exact ⟨x, rfl, by rw [hn _ _ _ _ _ hf hl hx hy]⟩

/-! ## C101 -/

theorem code_zero {e : Exit} (h : e.code = some 0) : e = .success := by
  cases e with
  | success => rfl
  | failed x => cases x <;> cases h
  | panics => cases h
  | overflows => cases h


/-- **C101**, partial: a run that succeeds and has a file as destination leaves there the formatted document, or its
JSON, and nothing else.  Missing for the full property: crashes (`C101_crash_false`), options that are silently ignored
(`C101_ignored_false`) and `--compact` (`C101_compact_false`). -/
theorem C101_written_partial (W : World F) (fuel : Nat) (d : Disk) (a : FileArgs) (f : Nat) (hd : Destination W a f)
    (hs : (W.run fuel d a).2.code = some 0) :
    ∃ t v, InputText W d a.input t ∧ parseTree t = some (.ok v) ∧
      after d (W.run fuel d a).1 f = some (utf8 (match a.jsonOut with
        | some _ => W.jsonText (Json.cliJson W.lib v)
        | none => Cst.formatSource (chars! "    ") t)) := by
  replace hs := code_zero hs
  have hr := run_runs W fuel d a
  generalize W.run fuel d a = r at hr hs ⊢
  cases hr with
  | refused => cases hs
  | unread => cases hs
  | panics => cases hs
  | rejected => cases hs
  | @checked t v e h1 h2 h3 h4 =>
    dsimp only at hs
    subst hs
    exfalso
    unfold World.check at h4
    split at h4
    · split at h4
      · rename_i e he
        cases h4
        unfold World.runValidation at he
        split at he
        · rename_i hsf
          cases he
          exact schemaFor_error hsf rfl
        · split at he
          · cases he
          · split at he <;> cases he
      · split at h4
        · cases h4
        · rename_i hx
          simp only [Bool.or_eq_true, not_or, Bool.not_eq_true, Option.isSome_eq_false_iff, Option.isNone_iff_eq_none] at hx
          obtain ⟨⟨hx1, hx2⟩, hx3⟩ := hx
          rcases hd with ⟨p, hp, _⟩ | ⟨_, hp, _⟩ | ⟨_, _, p, hp, _⟩
          · rw [hx1] at hp; cases hp
          · rw [hx3] at hp; cases hp
          · rw [hx2] at hp; cases hp
    · cases h4
  | @written t v h1 h2 h3 h4 =>
    refine ⟨t, v, h2, h3, ?_⟩
    have hw := writeResult_writes W a t v
    generalize W.writeResult a t v = r at hw hs ⊢
    cases hw with
    | fails he => exact absurd hs he
    | prints he => exact absurd hd (he f)
    | @file g hg hm =>
      have : f = g := by
        rcases hd with ⟨p, hp, _, hl⟩ | ⟨hj, hi, hl⟩ | ⟨hj, hi, p, hp, _, hl⟩ <;>
          rcases hg with ⟨p', hp', _, hl'⟩ | ⟨hj', hi', hl'⟩ | ⟨hj', hi', p', hp', _, hl'⟩ <;> simp_all
      subst this
      have hl := after_write_same f (W.parts f (Ffi.bytesOf (W.result a t v))) d (W.parts f (Ffi.bytesOf (W.result a t v))).length
      rw [List.take_of_length_le (by simp [writeOps]), List.take_of_length_le (by simp), writeEnd_success hs] at hl
      rw [hl]
      show some (utf8 (W.result a t v)) = _
      unfold World.result
      cases a.jsonOut <;> rfl

/-- **C101**, in place, partial: a run with `--in-place` (and without `--json-out`) that succeeds leaves a text in the
file that means the same as the old one, whatever its layout; for documents as in `C29_tree_partial`. -/
theorem C101_meaning_partial (W : World F) (fuel : Nat) (d : Disk) (a : FileArgs) (f : Nat) (es : List RootEntry)
    (t : List Char) (hi : a.inPlace = true) (hj : a.jsonOut = none) (hf : W.lead a.input = some f)
    (hin : InputText W d a.input t) (ht : RootText es t) (hn : ∀ e ∈ es, NoLoneHeredoc e.value)
    (hc : Consistent (callsOf es)) (hs : (W.run fuel d a).2.code = some 0) :
    ∃ t' v v', after d (W.run fuel d a).1 f = some (utf8 t') ∧ RootText es t' ∧
      parseTree t = some (.ok v) ∧ parseTree t' = some (.ok v') ∧ erase v = erase v' := by
  obtain ⟨t', v, h1, h2, h3⟩ := C101_written_partial W fuel d a f (.inr (.inl ⟨hj, hi, hf⟩)) hs
  have := inputText_unique h1 hin
  subst this
  have hb : Blanks (chars! "    ") := by intro c hc; simp at hc; simp [hc, Blank]
  obtain ⟨w, w', h4, h5, h6⟩ := C29_tree_partial (chars! "    ") hb ht hn hc
  refine ⟨_, w, w', ?_, C29_entries_partial (chars! "    ") hb ht hn, h4, h5, h6⟩
  rw [h3, hj]

/-- **C101**, crashes, partial: whenever the run is stopped, the destination is untouched or holds a beginning of what it
was to hold. -/
theorem C101_crash_partial (W : World F) (fuel : Nat) (d : Disk) (a : FileArgs) (k f : Nat) (ho : WellSet W d) :
    after d ((W.run fuel d a).1.take k) f = d f ∨
    ∃ t v bs, InputText W d a.input t ∧ parseTree t = some (.ok v) ∧
      after d ((W.run fuel d a).1.take k) f = some bs ∧ bs <+: utf8 (match a.jsonOut with
        | some _ => W.jsonText (Json.cliJson W.lib v)
        | none => Cst.formatSource (chars! "    ") t) := by
  by_cases h : after d ((W.run fuel d a).1.take k) f = d f
  · exact .inl h
  · right
    obtain ⟨h1, t, v, h2, h3, h4, h5, h6, h7⟩ := changed_writes h
    rw [h7] at h ⊢
    cases k with
    | zero => exact absurd rfl h
    | succ k =>
      refine ⟨t, v, _, h2, h3, after_write_same _ _ _ _, ?_⟩
      have hp := ho.written f (utf8 (W.result a t v))
      have : ((W.parts f (utf8 (W.result a t v))).take k).flatten <+: (W.parts f (utf8 (W.result a t v))).flatten := by
        refine ⟨((W.parts f (utf8 (W.result a t v))).drop k).flatten, ?_⟩
        rw [← List.flatten_append, List.take_append_drop]
      refine (this.trans hp).trans ?_
      unfold World.result
      cases a.jsonOut <;> exact List.prefix_refl _

/-! ## C102 -/

/-- **C102**: `--validate` without a destination writes and prints nothing, and its exit code is 0 exactly if the options
do not contradict each other, the input can be read, is a correct document and satisfies the schema. -/
theorem C102_zero_partial (W : World F) (fuel : Nat) (d : Disk) (a : FileArgs) (ht : TidyPath a.input)
    (hv : a.validate = true) (hj : a.jsonOut = none) (hi : a.inPlace = false) (ho : a.output = none) :
    (W.run fuel d a).1 = [] ∧ ((W.run fuel d a).2.code = some 0 ↔ ¬ Contradictory W a ∧
      ∃ t v, InputText W d a.input t ∧ parseTree t = some (.ok v) ∧ Satisfies W fuel d a v) := by
  have hr := run_runs W fuel d a
  generalize W.run fuel d a = r at hr ⊢
  cases hr with
  | refused h => exact ⟨rfl, by simp [Exit.code, h]⟩
  | unread h1 h2 =>
    refine ⟨rfl, by simp [Exit.code], ?_⟩
    rintro ⟨_, t, v, h3, _⟩; exact absurd h3 (h2 t)
  | panics h1 h2 h3 =>
    refine ⟨rfl, by simp [Exit.code], ?_⟩
    rintro ⟨_, t, v, h4, h5, _⟩
    rw [inputText_unique h4 h2, h3] at h5; cases h5
  | rejected h1 h2 h3 =>
    refine ⟨rfl, by simp [Exit.code], ?_⟩
    rintro ⟨_, t, v, h4, h5, _⟩
    rw [inputText_unique h4 h2, h3] at h5; cases h5
  | @checked t v e h1 h2 h3 h4 =>
    refine ⟨rfl, ?_⟩
    have hk := satisfies_of_check (W := W) (fuel := fuel) (d := d) ht h3
    have he : W.runValidation fuel d v (docName a.input) a.schema = none ↔ e = .success := by
      unfold World.check at h4
      rw [if_pos hv] at h4
      show W.runValidation fuel d v (if a.input = ['-'] then chars! "<stdin>" else a.input) a.schema = none ↔ _
      cases hrv : W.runValidation fuel d v (if a.input = ['-'] then chars! "<stdin>" else a.input) a.schema with
      | some e' =>
        rw [hrv] at h4
        cases h4
        simp only [reduceCtorEq, false_iff]
        rintro rfl
        unfold World.runValidation at hrv
        split at hrv
        · rename_i hsf; cases hrv; exact schemaFor_error hsf rfl
        · split at hrv
          · cases hrv
          · split at hrv <;> cases hrv
      | none =>
        rw [hrv] at h4
        simp [hj, hi, ho] at h4
        simp [h4]
    constructor
    · intro h
      exact ⟨h1, t, v, h2, h3, hk.1 (he.2 (code_zero h))⟩
    · rintro ⟨_, t', v', h5, h6, h7⟩
      have := inputText_unique h5 h2
      subst this
      rw [h3] at h6; cases h6
      rw [he.1 (hk.2 h7)]; rfl
  | written h1 h2 h3 h4 =>
    exfalso
    unfold World.check at h4
    rw [if_pos hv] at h4
    split at h4
    · cases h4
    · simp [hj, hi, ho] at h4

/-- **C102**, the other codes, for any destination: 1 for options that contradict each other and for a document that is not
correct, 3 for an input that cannot be read, 2 for one that the validator finds errors in. -/
theorem C102_codes_partial (W : World F) (fuel : Nat) (d : Disk) (a : FileArgs) (ht : TidyPath a.input) :
    (Contradictory W a → (W.run fuel d a).2.code = some 1) ∧
    (¬ Contradictory W a → (∀ t, ¬ InputText W d a.input t) → (W.run fuel d a).2.code = some 3) ∧
    (∀ t e, ¬ Contradictory W a → InputText W d a.input t → parseTree t = some (.error e) →
      (W.run fuel d a).2.code = some 1) ∧
    (∀ t es es' st sf r, ¬ Contradictory W a → InputText W d a.input t →
      parseTree t = some (.ok (.mk none (some (.object es none)) none)) → a.validate = true →
      SchemaText W d a.input (.mk none (some (.object es none)) none) a.schema st → W.readSchema st = some sf →
      Undeclared es es' →
      Schema.validateDocument W.env sf fuel (.mk none (some (.object es' none)) none) = some r → r.errors ≠ [] →
      (W.run fuel d a).2.code = some 2) := by
  have hr := run_runs W fuel d a
  refine ⟨?_, ?_, ?_, ?_⟩
  · intro h
    generalize W.run fuel d a = r at hr ⊢
    cases hr with
    | refused => rfl
    | unread h' => exact absurd h h'
    | panics h' => exact absurd h h'
    | rejected h' => exact absurd h h'
    | checked h' => exact absurd h h'
    | written h' => exact absurd h h'
  · intro h h'
    generalize W.run fuel d a = r at hr ⊢
    cases hr with
    | refused h'' => exact absurd h'' h
    | unread => rfl
    | panics _ h'' => exact absurd h'' (h' _)
    | rejected _ h'' => exact absurd h'' (h' _)
    | checked _ h'' => exact absurd h'' (h' _)
    | written _ h'' => exact absurd h'' (h' _)
  · intro t e h h' hp
    generalize W.run fuel d a = r at hr ⊢
    cases hr with
    | refused h'' => exact absurd h'' h
    | unread _ h'' => exact absurd h' (h'' _)
    | panics _ h1 h2 => rw [inputText_unique h1 h', hp] at h2; cases h2
    | rejected => rfl
    | checked _ h1 h2 => rw [inputText_unique h1 h', hp] at h2; cases h2
    | written _ h1 h2 => rw [inputText_unique h1 h', hp] at h2; cases h2
  · intro t es es' st sf r h h' hp hv hst hsf hu hval herr
    have hck : W.check fuel d a (.mk none (some (.object es none)) none) = some (.failed .validation) := by
      unfold World.check
      rw [if_pos hv]
      have : W.runValidation fuel d (.mk none (some (.object es none)) none)
          (if a.input = ['-'] then chars! "<stdin>" else a.input) a.schema = some (.failed .validation) := by
        show W.runValidation fuel d (.mk none (some (.object es none)) none) (docName a.input) a.schema = _
        unfold World.runValidation
        rw [(schemaFor_iff ht).2 ⟨st, hst, hsf⟩]
        dsimp only
        have := (undeclared_iff _ _).1 hu
        subst this
        rw [show stripSchemaDeclaration (.mk none (some (.object es none)) none) =
          .mk none (some (.object (es.filter fun e => !isSchemaTag e.key) none)) none from rfl, hval]
        simp [Schema.Result.isValid, herr]
      rw [this]
    generalize W.run fuel d a = r at hr ⊢
    cases hr with
    | refused h'' => exact absurd h'' h
    | unread _ h'' => exact absurd h' (h'' _)
    | panics _ h1 h2 => rw [inputText_unique h1 h', hp] at h2; cases h2
    | rejected _ h1 h2 => rw [inputText_unique h1 h', hp] at h2; cases h2
    | checked _ h1 h2 h3 =>
      rw [inputText_unique h1 h', hp] at h2; cases h2
      rw [hck] at h3; cases h3; rfl
    | written _ h1 h2 h3 =>
      rw [inputText_unique h1 h', hp] at h2; cases h2
      rw [hck] at h3; cases h3

theorem schemaText_unique {W : World F} {d : Disk} {a : List Char} {v : Value} {o : Option (List Char)} {st st' : List Char}
    {sf sf' : Schema.SchemaFile F} (ht : TidyPath a) (h : SchemaText W d a v o st) (hs : W.readSchema st = some sf)
    (h' : SchemaText W d a v o st') (hs' : W.readSchema st' = some sf') : sf = sf' := by
  have h1 := (schemaFor_iff ht).2 ⟨st, h, hs⟩
  rw [(schemaFor_iff ht).2 ⟨st', h', hs'⟩] at h1
  cases h1; rfl

/-- **C102**, conformance, partial: for schemas of the plain fragment (`C30_partial`) the exit code of `--validate` is 0
exactly if the document without its declaration conforms to the type of the root. -/
theorem C102_conforms_partial (W : World F) (M : List Char → List Char → Prop) (d : Disk) (a : FileArgs)
    (t st : List Char) (es es' : List Entry) (sf : Schema.SchemaFile F) (root : Schema.Schema F) (ht : TidyPath a.input)
    (hv : a.validate = true) (hj : a.jsonOut = none) (hi : a.inPlace = false) (ho : a.output = none)
    (hin : InputText W d a.input t) (hp : parseTree t = some (.ok (.mk none (some (.object es none)) none)))
    (hst : SchemaText W d a.input (.mk none (some (.object es none)) none) a.schema st) (hsf : W.readSchema st = some sf)
    (hu : Undeclared es es') (hf : Schema.PlainFile sf) (hg : Schema.Guarded sf) (hr : (none, root) ∈ sf) :
    ∃ n, ∀ fuel, n ≤ fuel → ((W.run fuel d a).2.code = some 0 ↔
      Schema.Conforms W.env M sf (.mk none (some (.object es' none)) none) root) := by
  obtain ⟨n, r, h1, h2⟩ := C30_document_partial (E := W.env) (M := M) hf hg (.mk none (some (.object es' none)) none) hr
  refine ⟨n, fun fuel hn => ?_⟩
  rw [(C102_zero_partial W fuel d a ht hv hj hi ho).2, ← h2]
  have hval : r.isValid = true ↔ r.errors = [] := by simp [Schema.Result.isValid]
  rw [hval]
  constructor
  · rintro ⟨_, t', v', h3, h4, st', sf', r', tag, e1, e2, sp, s, h5, h6, rfl, h8, h9, h10⟩
    have := inputText_unique h3 hin
    subst this
    rw [hp] at h4; cases h4
    have := schemaText_unique ht hst hsf h5 h6
    subst this
    rw [(undeclared_iff _ _).1 h8, ← (undeclared_iff _ _).1 hu, h1 fuel hn] at h9
    cases h9; exact h10
  · intro he
    refine ⟨?_, t, _, hin, hp, st, sf, r, none, es, es', none, none, hst, hsf, rfl, hu, h1 fuel hn, he⟩
    rintro (⟨h, _⟩ | ⟨_, h⟩ | ⟨o, h, _⟩)
    · rw [hi] at h; cases h
    · rw [hv] at h; cases h
    · rw [ho] at h; cases h

/-! ## Witnesses -/

/-- Two files, `a.styx` (0) and `b.styx` (1); perhaps a second name for the first; every write succeeds in one step. -/
def demoWorld (link : Bool) : World Unit where
  lead p := if p = chars! "a.styx" then some 0 else if p = chars! "b.styx" then some 1
    else if link = true ∧ p = chars! "l.styx" then some 0 else none
  canonical p := if p = chars! "a.styx" ∨ p = chars! "b.styx" ∨ p = chars! "l.styx" then some p else none
  mayRead _ := true
  mayWrite _ := true
  parts _ bs := [bs]
  stdin := none
  terminal := false
  lib := ⟨Unit, fun _ => none, fun _ => true, fun _ => [], fun _ => []⟩
  jsonText _ := chars! "{}"
  env := ⟨fun _ => none, fun _ _ => false, id⟩
  readSchema t := if t = chars! "s" then some [(none, .any)] else none
  embedded _ := none

/-- The first file holds the text, the second is not there. -/
def demoDisk (t : List Char) : Disk := fun f => if f = 0 then some (utf8 t) else none

theorem demo_orderly (link : Bool) (t : List Char) : WellSet (demoWorld link) (demoDisk t) where
  same a b c ha hb := by
    simp only [demoWorld] at ha hb
    split at ha
    · split at hb
      · cases ha; cases hb; rfl
      · cases hb
    · cases ha
  there a f hf _ := by
    simp only [demoWorld] at hf ⊢
    by_cases h1 : a = chars! "a.styx"
    · simp [h1]
    · by_cases h2 : a = chars! "b.styx"
      · simp [h2]
      · rw [if_neg h1, if_neg h2] at hf
        split at hf
        · rename_i h; simp [h.2]
        · cases hf
  written f bs := by simp [demoWorld]

theorem demo_oneName : OneName (demoWorld false) := by
  intro a b x y f ha hb hx hy
  simp only [demoWorld, Bool.false_eq_true, false_and, if_false] at ha hb hx hy
  split at ha
  · split at hb
    · rename_i h1 h2; subst h1; subst h2; simp at hx hy; rw [← hx, ← hy]
    · split at hb
      · cases ha; cases hb
      · cases hb
  · split at ha
    · split at hb
      · cases ha; cases hb
      · split at hb
        · rename_i _ h1 _ h2; subst h1; subst h2; simp at hx hy; rw [← hx, ← hy]
        · cases hb
    · cases ha

theorem demo_input (link : Bool) (t : List Char) : InputText (demoWorld link) (demoDisk t) (chars! "a.styx") t :=
  .inr ⟨by decide, 0, rfl, rfl, rfl⟩

/-- A run that is not refused and does not validate writes its result. -/
theorem run_written {W : World F} {d : Disk} {a : FileArgs} {t : List Char} {v : Value} (fuel : Nat)
    (hc : W.refused a = false) (hi : InputText W d a.input t) (hp : parseTree t = some (.ok v)) (hv : a.validate = false) :
    W.run fuel d a = W.writeResult a t v := by
  unfold World.run
  rw [if_neg (by simp [hc]), (readInput_iff W d a.input t).2 hi]
  dsimp only
  rw [hp]
  simp [World.check, hv]

section
attribute [local semireducible] parseTree Cst.formatSource

/-- The tree of the sample. -/
def demoTree : Value := .mk none (some (.object [.mk (.mk none (some (.scalar ['a'] .bare (some ⟨0, 1⟩))) (some ⟨0, 1⟩))
  (.mk none (some (.scalar ['1'] .bare (some ⟨3, 4⟩))) (some ⟨3, 4⟩)) none] none)) none

theorem demo_parsed : parseTree (chars! "a  1\n") = some (.ok demoTree) := rfl

theorem demo_formatted : Cst.formatSource (chars! "    ") (chars! "a  1\n") = chars! "a 1\n" := by decide +kernel

end

/-- **C100** is false: without `--in-place`, a file given for JSON that is the input is overwritten, and the document is
lost. -/
theorem C100_json_false : ∃ (W : World Unit) (d : Disk) (a : FileArgs) (t : List Char) (v : Value), WellSet W d ∧
    OneName W ∧ a.inPlace = false ∧ InputText W d a.input t ∧ parseTree t = some (.ok v) ∧ W.lead a.input = some 0 ∧
    d 0 = some (utf8 t) ∧ (W.run 0 d a).2.code = some 0 ∧ after d (W.run 0 d a).1 0 = some (utf8 (chars! "{}")) := by
  have h := run_written (W := demoWorld false) (d := demoDisk (chars! "a  1\n"))
    (a := { input := chars! "a.styx", jsonOut := some (chars! "a.styx") }) 0 rfl (demo_input _ _) demo_parsed rfl
  refine ⟨demoWorld false, demoDisk (chars! "a  1\n"), { input := chars! "a.styx", jsonOut := some (chars! "a.styx") },
    chars! "a  1\n", demoTree, demo_orderly _ _, demo_oneName, rfl, demo_input _ _, demo_parsed, rfl, rfl, ?_, ?_⟩
  · rw [h]; rfl
  · rw [h]; rfl

/-- **C100** is false: an output that is a hard link to the input is not recognised as the same file. -/
theorem C100_link_false : ∃ (W : World Unit) (d : Disk) (a : FileArgs) (t : List Char) (v : Value), WellSet W d ∧
    a.inPlace = false ∧ a.jsonOut = none ∧ InputText W d a.input t ∧ parseTree t = some (.ok v) ∧
    W.lead a.input = some 0 ∧ d 0 = some (utf8 t) ∧ (W.run 0 d a).2.code = some 0 ∧
    after d (W.run 0 d a).1 0 ≠ d 0 := by
  have h := run_written (W := demoWorld true) (d := demoDisk (chars! "a  1\n"))
    (a := { input := chars! "a.styx", output := some (chars! "l.styx") }) 0 rfl (demo_input _ _) demo_parsed rfl
  refine ⟨demoWorld true, demoDisk (chars! "a  1\n"), { input := chars! "a.styx", output := some (chars! "l.styx") },
    chars! "a  1\n", demoTree, demo_orderly _ _, rfl, rfl, demo_input _ _, demo_parsed, rfl, rfl, ?_, ?_⟩
  · rw [h]
    simp only [World.writeResult, demo_formatted]
    rfl
  · rw [h]
    simp only [World.writeResult, demo_formatted]
    show some _ ≠ some _
    decide

/-- **C101** is false: a run with `--in-place` that is stopped after its first step leaves an empty file – the document is
gone. -/
theorem C101_crash_false : ∃ (W : World Unit) (d : Disk) (a : FileArgs) (t : List Char) (v : Value), WellSet W d ∧
    OneName W ∧ a.inPlace = true ∧ InputText W d a.input t ∧ parseTree t = some (.ok v) ∧ W.lead a.input = some 0 ∧
    d 0 = some (utf8 t) ∧ t ≠ [] ∧ after d ((W.run 0 d a).1.take 1) 0 = some [] := by
  have h := run_written (W := demoWorld false) (d := demoDisk (chars! "a  1\n"))
    (a := { input := chars! "a.styx", inPlace := true }) 0 rfl (demo_input _ _) demo_parsed rfl
  refine ⟨demoWorld false, demoDisk (chars! "a  1\n"), { input := chars! "a.styx", inPlace := true },
    chars! "a  1\n", demoTree, demo_orderly _ _, demo_oneName, rfl, demo_input _ _, demo_parsed, rfl, rfl, by simp, ?_⟩
  rw [h]; rfl

/-- **C101** is false: with `--json-out` or `--in-place`, the options that come after it in the code are ignored without
a message: the input is not formatted, the output is not written. -/
theorem C101_ignored_false :
    (∃ (W : World Unit) (d : Disk) (a : FileArgs) (t : List Char), a.inPlace = true ∧ InputText W d a.input t ∧
      W.lead a.input = some 0 ∧ (W.run 0 d a).2.code = some 0 ∧ Cst.formatSource (chars! "    ") t ≠ t ∧
      after d (W.run 0 d a).1 0 = some (utf8 t)) ∧
    ∃ (W : World Unit) (d : Disk) (a : FileArgs) (o : List Char), a.output = some o ∧ W.lead o = some 1 ∧ d 1 = none ∧
      (W.run 0 d a).2.code = some 0 ∧ after d (W.run 0 d a).1 1 = none := by
  constructor
  · have h := run_written (W := demoWorld false) (d := demoDisk (chars! "a  1\n"))
      (a := { input := chars! "a.styx", inPlace := true, jsonOut := some (chars! "b.styx") }) 0 rfl (demo_input _ _)
      demo_parsed rfl
    refine ⟨demoWorld false, demoDisk (chars! "a  1\n"),
      { input := chars! "a.styx", inPlace := true, jsonOut := some (chars! "b.styx") }, chars! "a  1\n", rfl, demo_input _ _, rfl, ?_, ?_, ?_⟩
    · rw [h]; rfl
    · rw [demo_formatted]; decide
    · rw [h]; rfl
  · have h := run_written (W := demoWorld false) (d := demoDisk (chars! "a  1\n"))
      (a := { input := chars! "a.styx", inPlace := true, output := some (chars! "b.styx") }) 0 rfl (demo_input _ _)
      demo_parsed rfl
    refine ⟨demoWorld false, demoDisk (chars! "a  1\n"),
      { input := chars! "a.styx", inPlace := true, output := some (chars! "b.styx") }, chars! "b.styx", rfl, rfl, rfl,
      ?_, ?_⟩
    · rw [h]
      simp only [World.writeResult, demo_formatted]
      rfl
    · rw [h]
      simp only [World.writeResult, demo_formatted]
      rfl

section
attribute [local semireducible] parseTree Cst.formatSource

theorem lines_parsed : ∃ v, parseTree (chars! "a 1\nb 2\n") = some (.ok v) := ⟨_, rfl⟩

theorem lines_formatted : Cst.formatSource (chars! "    ") (chars! "a 1\nb 2\n") = chars! "a 1\nb 2\n" := by
  decide +kernel

end

/-- **C101** is false: `--compact` prints two lines. -/
theorem C101_compact_false : ∃ (W : World Unit) (d : Disk) (a : FileArgs), a.compact = true ∧
    (W.run 0 d a).2.code = some 0 ∧ printed (W.run 0 d a).1 = chars! "a 1\nb 2\n" := by
  obtain ⟨v, hv⟩ := lines_parsed
  have h := run_written (W := demoWorld false) (d := demoDisk (chars! "a 1\nb 2\n"))
    (a := { input := chars! "a.styx", compact := true }) 0 rfl (demo_input _ _) hv rfl
  refine ⟨demoWorld false, demoDisk (chars! "a 1\nb 2\n"), { input := chars! "a.styx", compact := true }, rfl, ?_, ?_⟩
  · rw [h]; rfl
  · rw [h]
    simp only [World.writeResult, lines_formatted]
    rfl

section
attribute [local semireducible] parseTree

theorem url_parsed : ∃ v, parseTree (chars! "@schema https://x\n") = some (.ok v) ∧
    findSchemaDeclaration v = .ok (.external (chars! "https://x")) := ⟨_, rfl, rfl⟩

end

/-- **C102** is false: the exit code 1, which stands for syntax errors, is also the one of a correct document whose schema
is given by an address. -/
theorem C102_false : ∃ (W : World Unit) (d : Disk) (a : FileArgs) (t : List Char) (v : Value), a.validate = true ∧
    ¬ Contradictory W a ∧ InputText W d a.input t ∧ parseTree t = some (.ok v) ∧ (W.run 0 d a).2.code = some 1 := by
  obtain ⟨v, hv, hd⟩ := url_parsed
  refine ⟨demoWorld false, demoDisk (chars! "@schema https://x\n"), { input := chars! "a.styx", validate := true },
    _, v, rfl, ?_, demo_input _ _, hv, ?_⟩
  · rw [← refused_iff]; decide
  · unfold World.run
    rw [if_neg (by decide), (readInput_iff _ _ _ _).2 (demo_input _ _)]
    dsimp only
    rw [hv]
    dsimp only [World.check, World.runValidation, World.schemaFor]
    rw [if_pos rfl, hd]
    dsimp only
    rw [resolve_url (path := chars! "https://x") (.inr ⟨['x'], rfl⟩)]
    rfl

/-! ## The hypotheses can be met -/

/-- Formatting in place: the file is changed, and holds the formatted text. -/
example : ∃ k, after (demoDisk (chars! "a  1\n"))
      (((demoWorld false).run 0 (demoDisk (chars! "a  1\n")) { input := chars! "a.styx", inPlace := true }).1.take k) 0 ≠
      demoDisk (chars! "a  1\n") 0 ∧ TidyPath (chars! "a.styx") ∧
    ((demoWorld false).run 0 (demoDisk (chars! "a  1\n")) { input := chars! "a.styx", inPlace := true }).2.code = some 0 ∧
    after (demoDisk (chars! "a  1\n"))
      ((demoWorld false).run 0 (demoDisk (chars! "a  1\n")) { input := chars! "a.styx", inPlace := true }).1 0 =
      some (utf8 (chars! "a 1\n")) := by
  have h := run_written (W := demoWorld false) (d := demoDisk (chars! "a  1\n"))
    (a := { input := chars! "a.styx", inPlace := true }) 0 rfl (demo_input _ _) demo_parsed rfl
  refine ⟨1, ?_, .plain (by decide), ?_, ?_⟩
  · rw [h]; exact fun h => absurd (Option.some.inj h) (by decide)
  · rw [h]; simp only [World.writeResult, demo_formatted]; rfl
  · rw [h]; simp only [World.writeResult, demo_formatted]; rfl

/-- A document validated against a given schema: the hypotheses of `C102_conforms_partial`. -/
example : ∃ n, ∀ fuel, n ≤ fuel → ((({ demoWorld false with stdin := some (chars! "a  1\n") } : World Unit).run fuel
      (demoDisk (chars! "s")) { input := ['-'], validate := true, schema := some (chars! "a.styx") }).2.code = some 0 ↔
    Schema.Conforms (demoWorld false).env (fun _ _ => False) [(none, .any)] demoTree .any) := by
  refine C102_conforms_partial { demoWorld false with stdin := some (chars! "a  1\n") } (fun _ _ => False)
    (demoDisk (chars! "s")) { input := ['-'], validate := true, schema := some (chars! "a.styx") } (chars! "a  1\n")
    (chars! "s") _ _ [(none, .any)] .any (.plain (by decide)) rfl rfl rfl rfl (.inl ⟨rfl, rfl⟩) demo_parsed
    (.given ⟨0, rfl, rfl, rfl⟩) rfl ((undeclared_iff _ _).2 rfl) ?_ ?_ (List.mem_cons_self ..)
  · refine ⟨by simp [Schema.DistinctKeys], fun p hp => ?_⟩
    simp only [List.mem_singleton] at hp
    subst hp
    exact .any
  · intro n h
    cases h with
    | one h => simp at h
    | more h => simp at h

/-- Where a schema is looked for. -/
example : NextTo (chars! "conf/app.styx") (chars! "schema.styx") (chars! "conf/schema.styx") ∧
    TidyPath (chars! "conf/app.styx") ∧
    resolveSchemaPath (chars! "schema.styx") (chars! "conf/app.styx") = .ok (chars! "conf/schema.styx") :=
  ⟨.under (dir := chars! "conf") (name := chars! "app.styx") (by decide) (by decide),
    .under (dir := chars! "conf") (name := chars! "app.styx") (by decide) (by decide) (by decide) (by decide) (by decide),
    rfl⟩

end Styx.Props
