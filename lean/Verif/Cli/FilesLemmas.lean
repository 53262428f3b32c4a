import Verif.Cli.FilesSpec
import Verif.Cli.Lemmas
import Verif.Ffi.Read

/-! # Lemmas about the file mode of the command line -/

namespace Styx.Cli

open Styx Styx.Spec

variable {F : Type}

/-! ## Operations -/

theorem after_append_other {f g : Nat} (h : g ≠ f) (ps : List (List UInt8)) (d : Disk) :
    after d (ps.map (.append f)) g = d g := by
  induction ps generalizing d with
  | nil => rfl
  | cons p ps ih =>
    show after (Op.apply d (.append f p)) (ps.map (.append f)) g = _
    rw [ih]; simp [Op.apply, h]

theorem after_append_same (f : Nat) (ps : List (List UInt8)) (d : Disk) {bs : List UInt8} (h : d f = some bs) :
    after d (ps.map (.append f)) f = some (bs ++ ps.flatten) := by
  induction ps generalizing d bs with
  | nil => simpa [after] using h
  | cons p ps ih =>
    show after (Op.apply d (.append f p)) (ps.map (.append f)) f = _
    rw [ih (bs := bs ++ p)]
    · simp
    · simp [Op.apply, h]

/-- The operations of a write. -/
def writeOps (f : Nat) (ps : List (List UInt8)) : List Op := .truncate f :: ps.map (.append f)

theorem after_write_other {f g : Nat} (h : g ≠ f) (ps : List (List UInt8)) (d : Disk) (k : Nat) :
    after d ((writeOps f ps).take k) g = d g := by
  cases k with
  | zero => rfl
  | succ k =>
    show after (Op.apply d (.truncate f)) ((ps.map (.append f)).take k) g = _
    rw [← List.map_take, after_append_other h]
    simp [Op.apply, h]

theorem after_write_same (f : Nat) (ps : List (List UInt8)) (d : Disk) (k : Nat) :
    after d ((writeOps f ps).take (k + 1)) f = some (ps.take k).flatten := by
  show after (Op.apply d (.truncate f)) ((ps.map (.append f)).take k) f = _
  rw [← List.map_take, after_append_same (bs := [])]
  · simp
  · simp [Op.apply]

theorem after_print (d : Disk) (t : List Char) (k : Nat) : after d ([Op.print t].take k) = d := by
  cases k with
  | zero => rfl
  | succ k => simp [after, Op.apply]

/-- The end of a write: everything is there, or it failed. -/
def writeEnd (ps : List (List UInt8)) (bs : List UInt8) : Exit := if ps.flatten = bs then .success else .failed .io

theorem writeEnd_success {ps : List (List UInt8)} {bs : List UInt8} (h : writeEnd ps bs = .success) : ps.flatten = bs := by
  unfold writeEnd at h
  split at h
  · assumption
  · cases h

theorem writeFile_cases (W : World F) (path : List Char) (bs : List UInt8) :
    W.writeFile path bs = ([], .failed .io) ∨
    ∃ f, W.lead path = some f ∧ W.mayWrite f = true ∧
      W.writeFile path bs = (writeOps f (W.parts f bs), writeEnd (W.parts f bs) bs) := by
  unfold World.writeFile
  split
  · exact .inl rfl
  · rename_i f hf
    split
    · rename_i hw; exact .inr ⟨f, hf, hw, rfl⟩
    · exact .inl rfl

/-! ## What is written where -/

/-- The text for the destination. -/
def World.result (W : World F) (a : FileArgs) (source : List Char) (v : Value) : List Char :=
  match a.jsonOut with
  | some _ => W.jsonText (Json.cliJson W.lib v)
  | none => Cst.formatSource (chars! "    ") source

theorem writeOutput_cases (W : World F) (path text : List Char) :
    (path = ['-'] ∧ W.writeOutput path text = ([.print text], .success)) ∨
    (path ≠ ['-'] ∧ W.writeOutput path text = W.writeFile path (Ffi.bytesOf text)) := by
  unfold World.writeOutput
  split
  · rename_i h; exact .inl ⟨h, rfl⟩
  · rename_i h; exact .inr ⟨h, rfl⟩

/-- What the output does: nothing but an error or a panic, printing, or one write. -/
inductive Writes (W : World F) (a : FileArgs) (source : List Char) (v : Value) : List Op × Exit → Prop
  | fails {e} : e ≠ .success → Writes W a source v ([], e)
  | prints {t} : (∀ f, ¬ Destination W a f) → Writes W a source v ([.print t], .success)
  | file {f} : Destination W a f → W.mayWrite f = true → Writes W a source v
      (writeOps f (W.parts f (Ffi.bytesOf (W.result a source v))),
        writeEnd (W.parts f (Ffi.bytesOf (W.result a source v))) (Ffi.bytesOf (W.result a source v)))

theorem writeResult_writes (W : World F) (a : FileArgs) (source : List Char) (v : Value) :
    Writes W a source v (W.writeResult a source v) := by
  unfold World.writeResult
  split
  · rename_i path hj
    rcases writeOutput_cases W path (W.jsonText (Json.cliJson W.lib v)) with ⟨hp, h⟩ | ⟨hp, h⟩
    · rw [h]
      refine .prints fun f hd => ?_
      rcases hd with ⟨p, h1, h2, _⟩ | ⟨h1, _⟩ | ⟨h1, _⟩
      · rw [hj] at h1; cases h1; exact h2 hp
      · rw [hj] at h1; cases h1
      · rw [hj] at h1; cases h1
    · rw [h]
      rcases writeFile_cases W path (Ffi.bytesOf (W.jsonText (Json.cliJson W.lib v))) with h | ⟨f, h1, h2, h⟩
      · rw [h]; exact .fails (by simp)
      · have := Writes.file (W := W) (a := a) (source := source) (v := v) (f := f) (.inl ⟨path, hj, hp, h1⟩) h2
        simp only [World.result, hj] at this
        rw [h]; exact this
  · rename_i hj
    dsimp only
    split
    · rename_i hi
      rcases writeFile_cases W a.input (Ffi.bytesOf (Cst.formatSource (chars! "    ") source)) with h | ⟨f, h1, h2, h⟩
      · rw [h]; exact .fails (by simp)
      · have := Writes.file (W := W) (a := a) (source := source) (v := v) (f := f) (.inr (.inl ⟨hj, hi, h1⟩)) h2
        simp only [World.result, hj] at this
        rw [h]; exact this
    · rename_i hi
      have hi : a.inPlace = false := by simpa using hi
      split
      · rename_i path ho
        rcases writeOutput_cases W path (Cst.formatSource (chars! "    ") source) with ⟨hp, h⟩ | ⟨hp, h⟩
        · rw [h]
          refine .prints fun f hd => ?_
          rcases hd with ⟨p, h1, h2, _⟩ | ⟨_, h1, _⟩ | ⟨_, _, p, h1, h2, _⟩
          · rw [hj] at h1; cases h1
          · rw [hi] at h1; cases h1
          · rw [ho] at h1; cases h1; exact h2 hp
        · rw [h]
          rcases writeFile_cases W path (Ffi.bytesOf (Cst.formatSource (chars! "    ") source)) with h | ⟨f, h1, h2, h⟩
          · rw [h]; exact .fails (by simp)
          · have := Writes.file (W := W) (a := a) (source := source) (v := v) (f := f)
              (.inr (.inr ⟨hj, hi, path, ho, hp, h1⟩)) h2
            simp only [World.result, hj] at this
            rw [h]; exact this
      · rename_i ho
        have hd : ∀ f, ¬ Destination W a f := by
          rintro f (⟨p, h1, _⟩ | ⟨_, h1, _⟩ | ⟨_, _, p, h1, _⟩)
          · rw [hj] at h1; cases h1
          · rw [hi] at h1; cases h1
          · rw [ho] at h1; cases h1
        unfold World.printStyx
        split
        · split
          · exact .prints hd
          · exact .fails (by simp)
        · exact .prints hd

theorem writeFile_panics (W : World F) (path : List Char) (bs : List UInt8) : (W.writeFile path bs).2 ≠ .panics := by
  rcases writeFile_cases W path bs with h | ⟨f, _, _, h⟩
  · rw [h]; simp
  · rw [h]; unfold writeEnd; dsimp only; split <;> simp

theorem readText_iff (W : World F) (d : Disk) (path t : List Char) :
    W.readText d path = .ok t ↔ HoldsText W d path t := by
  unfold World.readText HoldsText
  cases hl : W.lead path with
  | none => simp
  | some f =>
    dsimp only
    by_cases hr : W.mayRead f = true
    · rw [if_pos hr]
      cases hd : (d f).bind Ffi.toStr with
      | none =>
        simp only [reduceCtorEq, Option.some.injEq, false_iff]
        rintro ⟨f', rfl, _, h⟩
        rw [h] at hd
        have := Ffi.toStr_bytesOf t
        simp only [Option.bind_some] at hd
        rw [show utf8 t = Ffi.bytesOf t from rfl, this] at hd
        cases hd
      | some t' =>
        simp only [Except.ok.injEq, Option.some.injEq]
        constructor
        · rintro rfl
          obtain ⟨bs, h1, h2⟩ := Option.bind_eq_some_iff.1 hd
          exact ⟨f, rfl, hr, by rw [h1, Ffi.toStr_eq h2]; rfl⟩
        · rintro ⟨f', rfl, _, h⟩
          rw [h] at hd
          simp only [Option.bind_some] at hd
          rw [show utf8 t = Ffi.bytesOf t from rfl, Ffi.toStr_bytesOf] at hd
          cases hd; rfl
    · rw [if_neg hr]
      simp only [reduceCtorEq, Option.some.injEq, false_iff]
      rintro ⟨f', rfl, h, _⟩
      exact hr h

theorem readText_error {W : World F} {d : Disk} {path : List Char} {e : Exit} (h : W.readText d path = .error e) :
    e = .failed .io := by
  unfold World.readText at h
  split at h
  · cases h; rfl
  · split at h
    · split at h
      · cases h
      · cases h; rfl
    · cases h; rfl

theorem readInput_iff (W : World F) (d : Disk) (path t : List Char) :
    W.readInput d path = .ok t ↔ InputText W d path t := by
  unfold World.readInput InputText
  by_cases hp : path = ['-']
  · simp only [hp, if_true, true_and, ne_eq, not_true, false_and, or_false]
    cases W.stdin <;> simp
  · simp only [hp, if_false, false_and, false_or, ne_eq, not_false_iff, true_and]
    exact readText_iff W d path t

theorem readInput_error {W : World F} {d : Disk} {path : List Char} {e : Exit} (h : W.readInput d path = .error e) :
    e = .failed .io := by
  unfold World.readInput at h
  split at h
  · split at h
    · cases h
    · cases h; rfl
  · exact readText_error h

theorem sameFile_iff (W : World F) (a b : List Char) :
    W.sameFile a b = true ↔ a = b ∨ ∃ c, W.canonical a = some c ∧ W.canonical b = some c := by
  unfold World.sameFile
  cases ha : W.canonical a with
  | none =>
    simp
  | some x =>
    cases hb : W.canonical b with
    | none => simp
    | some y =>
      simp only [beq_iff_eq, Option.some.injEq]
      constructor
      · rintro rfl; exact .inr ⟨x, rfl, rfl⟩
      · rintro (rfl | ⟨c, rfl, rfl⟩)
        · rw [ha] at hb; cases hb; rfl
        · rfl

theorem refused_iff (W : World F) (a : FileArgs) : W.refused a = true ↔ Contradictory W a := by
  unfold World.refused Contradictory
  cases ho : a.output with
  | none => cases hs : a.schema <;> simp
  | some o => cases hs : a.schema <;> simp [sameFile_iff, and_assoc, or_assoc]

/-- The ways a run can go. -/
inductive Runs (W : World F) (fuel : Nat) (d : Disk) (a : FileArgs) : List Op × Exit → Prop
  | refused : Contradictory W a → Runs W fuel d a ([], .failed .usage)
  | unread : ¬ Contradictory W a → (∀ t, ¬ InputText W d a.input t) → Runs W fuel d a ([], .failed .io)
  | panics {t} : ¬ Contradictory W a → InputText W d a.input t → parseTree t = none → Runs W fuel d a ([], .panics)
  | rejected {t e} : ¬ Contradictory W a → InputText W d a.input t → parseTree t = some (.error e) →
      Runs W fuel d a ([], .failed .parseDiagnostic)
  | checked {t v e} : ¬ Contradictory W a → InputText W d a.input t → parseTree t = some (.ok v) →
      W.check fuel d a v = some e → Runs W fuel d a ([], e)
  | written {t v} : ¬ Contradictory W a → InputText W d a.input t → parseTree t = some (.ok v) →
      W.check fuel d a v = none → Runs W fuel d a (W.writeResult a t v)

theorem run_runs (W : World F) (fuel : Nat) (d : Disk) (a : FileArgs) : Runs W fuel d a (W.run fuel d a) := by
  unfold World.run
  by_cases hr : W.refused a = true
  · rw [if_pos hr]; exact .refused ((refused_iff W a).1 hr)
  · rw [if_neg hr]
    have hc : ¬ Contradictory W a := fun h => hr ((refused_iff W a).2 h)
    cases hi : W.readInput d a.input with
    | error e =>
      rw [readInput_error hi]
      refine .unread hc fun t ht => ?_
      rw [(readInput_iff W d a.input t).2 ht] at hi; cases hi
    | ok t =>
      have ht := (readInput_iff W d a.input t).1 hi
      dsimp only
      cases hp : parseTree t with
      | none => exact .panics hc ht hp
      | some r =>
        cases r with
        | error e => exact .rejected hc ht hp
        | ok v =>
          dsimp only
          cases hk : W.check fuel d a v with
          | some e => exact .checked hc ht hp hk
          | none => exact .written hc ht hp hk

theorem inputText_unique {W : World F} {d : Disk} {p t t' : List Char} (h : InputText W d p t) (h' : InputText W d p t') :
    t = t' := by
  have h1 := (readInput_iff W d p t).2 h
  have h2 := (readInput_iff W d p t').2 h'
  rw [h1] at h2; cases h2; rfl

end Styx.Cli
