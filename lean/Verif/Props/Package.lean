import Verif.Cli.PackageLemmas

/-!
# C129: the crate that `package` makes has the name, the version and the schema that were given

`World.package` is the run of the command, `HoldsCrate` (in `Cli/PackageSpec.lean`) what the build tool finds in a
directory.
-/

namespace Styx.Props

open Styx Styx.Spec Styx.Cli

variable {F : Type}

/-- A run writes the files of a crate, or changes nothing and fails. -/
theorem package_cases (W : World F) (mkdirs : List Char → Bool) (d : Disk) (schemaFile name version : List Char)
    (output : Option (List Char)) :
    (∃ schema v, HoldsText W d schemaFile schema ∧ parseTree schema = some (.ok v) ∧
      mkdirs (pathJoin (output.getD name) (chars! "src")) = true ∧
      W.package mkdirs d schemaFile name version output =
        W.writeAll (crateFiles (output.getD name) name version schema)) ∨
    ((W.package mkdirs d schemaFile name version output).1 = [] ∧
      (W.package mkdirs d schemaFile name version output).2 ≠ .success ∧
      ¬ ∃ schema v, HoldsText W d schemaFile schema ∧ parseTree schema = some (.ok v) ∧
        mkdirs (pathJoin (output.getD name) (chars! "src")) = true) := by
  simp only [World.package]
  cases hr : W.readText d schemaFile with
  | error e =>
    refine .inr ⟨rfl, by rw [readText_error hr]; simp, ?_⟩
    rintro ⟨s, v, h, _⟩
    rw [(readText_iff ..).mpr h] at hr; cases hr
  | ok schema =>
    have hh := (readText_iff ..).mp hr
    dsimp only
    cases hp : parseTree schema with
    | none =>
      refine .inr ⟨rfl, by simp, ?_⟩
      rintro ⟨s, v, h, h2, _⟩
      rw [(readText_iff ..).mpr h] at hr; cases hr
      rw [h2] at hp; cases hp
    | some r =>
      cases r with
      | error e =>
        refine .inr ⟨rfl, by simp, ?_⟩
        rintro ⟨s, v, h, h2, _⟩
        rw [(readText_iff ..).mpr h] at hr; cases hr
        rw [h2] at hp; cases hp
      | ok v =>
        dsimp only
        by_cases hm : mkdirs (pathJoin (output.getD name) (chars! "src")) = true
        · rw [if_pos hm]; exact .inl ⟨schema, v, hh, hp, hm, rfl⟩
        · rw [if_neg hm]
          exact .inr ⟨rfl, by simp, fun ⟨_, _, _, _, h⟩ => hm h⟩

theorem utf8_inj {a b : List Char} (h : utf8 a = utf8 b) : a = b := by
  have h1 := Ffi.toStr_bytesOf a
  rw [show Ffi.bytesOf a = utf8 a from rfl, h, show utf8 b = Ffi.bytesOf b from rfl, Ffi.toStr_bytesOf] at h1
  exact (Option.some.inj h1).symm

theorem holdsText_inj {W : World F} {d : Disk} {p a b : List Char} (ha : HoldsText W d p a) (hb : HoldsText W d p b) :
    a = b := by
  obtain ⟨f, h1, _, h2⟩ := ha
  obtain ⟨g, h3, _, h4⟩ := hb
  rw [h1] at h3; cases h3
  rw [h2] at h4
  exact utf8_inj (Option.some.inj h4)

theorem manifestSays_inj {t n v n' v' : List Char} (h : ManifestSays t n v) (h' : ManifestSays t n' v') :
    n = n' ∧ v = v' := by
  obtain ⟨es, h1, h2, h3⟩ := h
  obtain ⟨es', k1, k2, k3⟩ := h'
  rw [h1] at k1; cases k1
  rw [h2] at k2; rw [h3] at k3
  cases k2; cases k3; exact ⟨rfl, rfl⟩

/-- **C129**, a directory holds at most one crate. -/
theorem C129_unique (W : World F) (d : Disk) (dir n v s n' v' s' : List Char) (h : HoldsCrate W d dir n v s)
    (h' : HoldsCrate W d dir n' v' s') : n = n' ∧ v = v' ∧ s = s' := by
  obtain ⟨⟨t, h1, h2⟩, _, h3⟩ := h
  obtain ⟨⟨t', k1, k2⟩, _, k3⟩ := h'
  cases holdsText_inj h1 k1
  obtain ⟨e1, e2⟩ := manifestSays_inj h2 k2
  exact ⟨e1, e2, holdsText_inj h3 k3⟩

theorem crateFiles_leads {W : World F} {dir name version schema : List Char} {ft fl fr fs : Nat}
    (hc : CrateAt W dir ft fl fr fs) :
    (crateFiles dir name version schema).map (fun p => W.lead p.1) = [some ft, some fl, some fr, some fs] := by
  simp [crateFiles, hc.toml, hc.lib, hc.readme, hc.schema]

theorem apart_some {fs : List Nat} (h : fs.Nodup) : (fs.map some).Nodup := by
  induction fs with
  | nil => exact List.nodup_nil
  | cons f fs ih =>
    simp only [List.map_cons, List.nodup_cons] at h ⊢
    exact ⟨fun hc => h.1 (by simpa using hc), ih h.2⟩

/-- **C129**, for names and versions without quotes, backslashes and control characters: a run that succeeds leaves in
the directory the crate with the name, the version, and the schema that the file held. -/
theorem C129_crate (W : World F) (mkdirs : List Char → Bool) (d : Disk) (schemaFile name version : List Char)
    (output : Option (List Char)) (ft fl fr fs : Nat) (hc : CrateAt W (output.getD name) ft fl fr fs)
    (hn : PlainName name) (hv : PlainName version)
    (h : (W.package mkdirs d schemaFile name version output).2 = .success) :
    ∃ schema v, HoldsText W d schemaFile schema ∧ parseTree schema = some (.ok v) ∧
      HoldsCrate W (after d (W.package mkdirs d schemaFile name version output).1) (output.getD name) name version
        schema := by
  rcases package_cases W mkdirs d schemaFile name version output with ⟨schema, v, h1, h2, _, h3⟩ | ⟨_, h1, _⟩
  · refine ⟨schema, v, h1, h2, ?_⟩
    rw [h3] at h ⊢
    have hd := hc.apart
    have hl := crateFiles_leads (name := name) (version := version) (schema := schema) hc
    have hh := writeAll_holds W _ d h
      (fun p hp hn => by
        have := List.mem_map_of_mem (f := fun p => W.lead p.1) hp
        rw [hl] at this
        simp [hn] at this)
      (by rw [hl]; exact apart_some hd)
    refine ⟨⟨_, ⟨ft, hc.toml, hc.readable _ (by simp), ?_⟩, cargoToml_says name version hn hv⟩,
      ⟨_, ⟨fl, hc.lib, hc.readable _ (by simp), ?_⟩, crateLib_includes name hn⟩,
      fs, hc.schema, hc.readable _ (by simp), ?_⟩
    · exact hh (_, _) (List.mem_cons_self ..) ft hc.toml
    · exact hh (_, _) (List.mem_cons_of_mem _ (List.mem_cons_self ..)) fl hc.lib
    · exact hh (_, _) (List.mem_cons_of_mem _ (List.mem_cons_of_mem _ (List.mem_cons_of_mem _ (List.mem_cons_self ..))))
        fs hc.schema
  · exact absurd h h1

/-- **C129**, when a run succeeds: the schema can be read and is a document, and the directories and files can be
written. -/
theorem C129_succeeds (W : World F) (mkdirs : List Char → Bool) (d : Disk) (schemaFile name version : List Char)
    (output : Option (List Char)) (ft fl fr fs : Nat) (hc : CrateAt W (output.getD name) ft fl fr fs)
    (hw : ∀ f ∈ [ft, fl, fr, fs], W.mayWrite f = true ∧ ∀ bs, (W.parts f bs).flatten = bs) :
    (W.package mkdirs d schemaFile name version output).2 = .success ↔
      mkdirs (pathJoin (output.getD name) (chars! "src")) = true ∧
      ∃ schema v, HoldsText W d schemaFile schema ∧ parseTree schema = some (.ok v) := by
  have step : ∀ path text rest f, W.lead path = some f → W.mayWrite f = true → (∀ bs, (W.parts f bs).flatten = bs) →
      (W.writeAll rest).2 = .success → (W.writeAll ((path, text) :: rest)).2 = .success := by
    intro path text rest f h1 h2 h3 h4
    rw [writeAll_cons, if_pos (by simp [World.writeFile, h1, h2, h3])]
    exact h4
  rcases package_cases W mkdirs d schemaFile name version output with ⟨schema, v, h1, h2, hm, h3⟩ | ⟨_, h1, h2⟩
  · refine ⟨fun _ => ⟨hm, schema, v, h1, h2⟩, fun _ => ?_⟩
    rw [h3]
    have w1 := hw ft (by simp)
    have w2 := hw fl (by simp)
    have w3 := hw fr (by simp)
    have w4 := hw fs (by simp)
    exact step _ _ _ ft hc.toml w1.1 w1.2 (step _ _ _ fl hc.lib w2.1 w2.2 (step _ _ _ fr hc.readme w3.1 w3.2
      (step _ _ _ fs hc.schema w4.1 w4.2 rfl)))
  · exact ⟨fun h => absurd h h1, fun ⟨hm, s, v, k1, k2⟩ => absurd ⟨s, v, k1, k2, hm⟩ h2⟩

/-- **C129**, at any moment of a run, whether it succeeds or not, all files but the four of the crate are as they
were. -/
theorem C129_only (W : World F) (mkdirs : List Char → Bool) (d : Disk) (schemaFile name version : List Char)
    (output : Option (List Char)) (ft fl fr fs : Nat) (hc : CrateAt W (output.getD name) ft fl fr fs) (k g : Nat)
    (hg : g ∉ [ft, fl, fr, fs]) :
    after d ((W.package mkdirs d schemaFile name version output).1.take k) g = d g := by
  rcases package_cases W mkdirs d schemaFile name version output with ⟨schema, v, h1, h2, _, h3⟩ | ⟨h1, _⟩
  · rw [h3]
    refine writeAll_other W _ d k g fun p hp hl => hg ?_
    have := List.mem_map_of_mem (f := fun p => W.lead p.1) hp
    rw [crateFiles_leads hc, hl] at this
    simpa using this
  · rw [h1]; simp [after]

/-- **C129**, a schema that cannot be read or is no document: the run fails and changes nothing. -/
theorem C129_refused (W : World F) (mkdirs : List Char → Bool) (d : Disk) (schemaFile name version : List Char)
    (output : Option (List Char))
    (h : ¬ ∃ schema v, HoldsText W d schemaFile schema ∧ parseTree schema = some (.ok v)) :
    (W.package mkdirs d schemaFile name version output).2 ≠ .success ∧
    ∀ k, after d ((W.package mkdirs d schemaFile name version output).1.take k) = d := by
  rcases package_cases W mkdirs d schemaFile name version output with ⟨schema, v, h1, h2, _⟩ | ⟨h1, h2, _⟩
  · exact absurd ⟨schema, v, h1, h2⟩ h
  · exact ⟨h2, fun k => by rw [h1]; simp [after]⟩

/-- **C129**, for a directory without a schema and names as in `C129_crate`: if a run is interrupted, at any moment,
the directory holds no crate, or one with the name and the version, and with a beginning of the schema.
Missing, because it is false: that it is the whole schema, and directories in which there is a schema. -/
theorem C129_crash_partial (W : World F) (mkdirs : List Char → Bool) (d : Disk) (schemaFile name version : List Char)
    (output : Option (List Char)) (ft fl fr fs : Nat) (hc : CrateAt W (output.getD name) ft fl fr fs)
    (hp : ∀ bs, (W.parts fs bs).flatten <+: bs) (hn : PlainName name) (hv : PlainName version) (hfresh : d fs = none)
    (k : Nat) (n v s : List Char)
    (h : HoldsCrate W (after d ((W.package mkdirs d schemaFile name version output).1.take k)) (output.getD name) n v s) :
    n = name ∧ v = version ∧ ∃ schema, HoldsText W d schemaFile schema ∧ utf8 s <+: utf8 schema := by
  obtain ⟨⟨t, ht, hm⟩, _, hs⟩ := h
  have hdd := hc.apart
  simp only [List.nodup_cons, List.mem_cons, List.not_mem_nil, or_false, not_or] at hdd
  obtain ⟨⟨a1, a2, a3⟩, ⟨a4, a5⟩, a6, _⟩ := hdd
  have untouched : ∀ ops : List Op, after d ops fs = d fs → ¬ HoldsText W (after d ops)
      (pathJoin (output.getD name) (chars! "schema.styx")) s := by
    rintro ops ho ⟨f, h1, _, h2⟩
    rw [hc.schema] at h1; cases h1
    rw [ho, hfresh] at h2; cases h2
  rcases package_cases W mkdirs d schemaFile name version output with ⟨schema, w, h1, h2, _, h3⟩ | ⟨h1, _⟩
  · rw [h3] at ht hs
    have hsplit : crateFiles (output.getD name) name version schema =
      [(pathJoin (output.getD name) (chars! "Cargo.toml"), cargoToml name version),
       (pathJoin (output.getD name) (chars! "src/lib.rs"), crateLib name),
       (pathJoin (output.getD name) (chars! "README.md"), crateReadme name)] ++
      [(pathJoin (output.getD name) (chars! "schema.styx"), schema)] := rfl
    rw [hsplit, writeAll_append] at ht hs
    generalize hfirst : [(pathJoin (output.getD name) (chars! "Cargo.toml"), cargoToml name version),
       (pathJoin (output.getD name) (chars! "src/lib.rs"), crateLib name),
       (pathJoin (output.getD name) (chars! "README.md"), crateReadme name)] = first at ht hs
    have hl : first.map (fun p => W.lead p.1) = [some ft, some fl, some fr] := by
      rw [← hfirst]; simp [hc.toml, hc.lib, hc.readme]
    have hout : ∀ p ∈ first, W.lead p.1 ≠ some fs := by
      intro p hp he
      have := List.mem_map_of_mem (f := fun p => W.lead p.1) hp
      rw [hl, he] at this
      simp only [List.mem_cons, Option.some.injEq, List.not_mem_nil, or_false] at this
      rcases this with e | e | e
      · exact a3 e.symm
      · exact a5 e.symm
      · exact a6 e.symm
    by_cases hok : (W.writeAll first).2 = .success
    · rw [if_pos hok] at ht hs
      simp only [List.take_append] at ht hs
      cases hk : k - (W.writeAll first).1.length with
      | zero =>
        rw [hk, List.take_zero, List.append_nil] at hs
        exact absurd hs (untouched _ (writeAll_other W first d k fs hout))
      | succ m =>
        rw [hk, List.take_of_length_le (by omega), after_cat] at ht hs
        have hh := writeAll_holds W first d hok
          (fun p hp hn => by
            have := List.mem_map_of_mem (f := fun p => W.lead p.1) hp
            rw [hl] at this
            simp [hn] at this)
          (by rw [hl]; exact apart_some (fs := [ft, fl, fr]) (by simp [a1, a2, a4]))
        have htoml : after (after d (W.writeAll first).1)
            ((W.writeAll [(pathJoin (output.getD name) (chars! "schema.styx"), schema)]).1.take (m + 1)) ft =
            some (utf8 (cargoToml name version)) := by
          rw [writeAll_other W _ _ _ ft (by simpa [hc.schema] using fun e => a3 e.symm)]
          exact hh (_, _) (by rw [← hfirst]; exact List.mem_cons_self ..) ft hc.toml
        obtain ⟨f, e1, _, e2⟩ := ht
        rw [hc.toml] at e1; cases e1
        rw [htoml] at e2
        have e3 := utf8_inj (Option.some.inj e2)
        subst e3
        obtain ⟨r1, r2⟩ := manifestSays_inj hm (cargoToml_says name version hn hv)
        refine ⟨r1, r2, schema, h1, ?_⟩
        obtain ⟨g, e4, _, e5⟩ := hs
        rw [hc.schema] at e4; cases e4
        rcases writeFile_cases W (pathJoin (output.getD name) (chars! "schema.styx")) (Ffi.bytesOf schema) with
          hw | ⟨f', hf', _, hw⟩
        · rw [writeAll_cons, hw] at e5
          simp only [reduceCtorEq, if_false, List.take_nil] at e5
          rw [show after (after d (W.writeAll first).1) [] = after d (W.writeAll first).1 from rfl,
            writeAll_other_all W first d fs hout, hfresh] at e5
          cases e5
        · rw [hc.schema] at hf'; cases hf'
          have hops : (W.writeAll [(pathJoin (output.getD name) (chars! "schema.styx"), schema)]).1 =
              writeOps fs (W.parts fs (Ffi.bytesOf schema)) := by
            rw [writeAll_cons, hw]
            split <;> simp [World.writeAll]
          rw [hops, after_write_same] at e5
          have e6 := Option.some.inj e5
          rw [← e6]
          refine List.IsPrefix.trans ?_ (hp (Ffi.bytesOf schema))
          refine ⟨((W.parts fs (Ffi.bytesOf schema)).drop m).flatten, ?_⟩
          rw [← List.flatten_append, List.take_append_drop]
    · rw [if_neg hok] at hs
      exact absurd hs (untouched _ (writeAll_other W first d k fs hout))
  · rw [h1, List.take_nil] at hs
    exact absurd hs (untouched [] rfl)

/-! ## Witnesses -/

/-- The schema `s.styx` and the directory `c`; every write succeeds in one step. -/
def packWorld : World Unit where
  lead p := if p = chars! "s.styx" then some 0 else if p = chars! "c/Cargo.toml" then some 1
    else if p = chars! "c/src/lib.rs" then some 2 else if p = chars! "c/README.md" then some 3
    else if p = chars! "c/schema.styx" then some 4 else none
  canonical p := some p
  mayRead _ := true
  mayWrite _ := true
  parts _ bs := [bs]
  stdin := none
  terminal := false
  lib := ⟨Unit, fun _ => none, fun _ => true, fun _ => [], fun _ => []⟩
  jsonText _ := chars! "{}"
  env := ⟨fun _ => none, fun _ _ => false, id⟩
  readSchema _ := none
  embedded _ := none

theorem pack_at : CrateAt packWorld (chars! "c") 1 2 3 4 :=
  ⟨rfl, rfl, rfl, rfl, by decide, fun _ _ => rfl⟩

theorem pack_plain : PlainName (chars! "c") ∧ PlainName (chars! "0.1.0") ∧ PlainName (chars! "0.2.0") := by
  unfold PlainName; decide

theorem pack_writeAll (name version content : List Char) :
    packWorld.writeAll (crateFiles (chars! "c") name version content) =
      ([.truncate 1, .append 1 (utf8 (cargoToml name version)), .truncate 2, .append 2 (utf8 (crateLib name)),
        .truncate 3, .append 3 (utf8 (crateReadme name)), .truncate 4, .append 4 (utf8 content)], .success) := by
  have step : ∀ path f text rest, packWorld.lead path = some f → packWorld.writeAll ((path, text) :: rest) =
      (.truncate f :: .append f (utf8 text) :: (packWorld.writeAll rest).1, (packWorld.writeAll rest).2) := by
    intro path f text rest h
    have : packWorld.writeFile path (Ffi.bytesOf text) = ([.truncate f, .append f (utf8 text)], .success) := by
      rw [World.writeFile, h]
      simp [packWorld, utf8, Ffi.bytesOf]
    rw [writeAll_cons, this]
    simp
  rw [crateFiles, step _ 1 _ _ rfl, step _ 2 _ _ rfl, step _ 3 _ _ rfl, step _ 4 _ _ rfl]
  rfl

theorem pack_run (d : Disk) (schema : List Char) (h0 : d 0 = some (utf8 schema)) {v : Value}
    (hp : parseTree schema = some (.ok v)) (name version : List Char) :
    packWorld.package (fun _ => true) d (chars! "s.styx") name version (some (chars! "c")) =
      packWorld.writeAll (crateFiles (chars! "c") name version schema) := by
  have hr : packWorld.readText d (chars! "s.styx") = .ok schema := (readText_iff ..).mpr ⟨0, rfl, rfl, h0⟩
  simp only [World.package, hr, hp, if_true]
  rfl

/-- Only the schema is there. -/
def freshDisk (schema : List Char) : Disk := fun f => if f = 0 then some (utf8 schema) else none

/-- A schema, and a crate made of another one. -/
def olderDisk (schema older : List Char) : Disk := fun f =>
  if f = 0 then some (utf8 schema) else if f = 1 then some (utf8 (cargoToml (chars! "c") (chars! "0.1.0")))
  else if f = 2 then some (utf8 (crateLib (chars! "c"))) else if f = 4 then some (utf8 older) else none

/-- **C129 is false of the code**: a run that is interrupted before the schema is written leaves a crate without a
schema in it, although the directory was empty before. -/
theorem C129_torn_false : ∃ (d : Disk) (schema : List Char) (k : Nat), HoldsText packWorld d (chars! "s.styx") schema ∧
    (∀ f ∈ [1, 2, 3, 4], d f = none) ∧ schema ≠ [] ∧
    HoldsCrate packWorld (after d ((packWorld.package (fun _ => true) d (chars! "s.styx") (chars! "c") (chars! "0.1.0")
      (some (chars! "c"))).1.take k)) (chars! "c") (chars! "c") (chars! "0.1.0") [] := by
  refine ⟨freshDisk (chars! "a 1\n"), chars! "a 1\n", 7, ⟨0, rfl, rfl, rfl⟩, by decide, by decide, ?_⟩
  rw [pack_run _ _ rfl (v := _) rfl, pack_writeAll]
  exact ⟨⟨_, ⟨1, rfl, rfl, rfl⟩, cargoToml_says _ _ pack_plain.1 pack_plain.2.1⟩,
    ⟨_, ⟨2, rfl, rfl, rfl⟩, crateLib_includes _ pack_plain.1⟩, 4, rfl, rfl, rfl⟩

/-- **C129 is false of the code**: a run over an older crate that is interrupted leaves the older schema with the new
version. -/
theorem C129_stale_false : ∃ (d : Disk) (schema older : List Char) (k : Nat), schema ≠ older ∧
    HoldsText packWorld d (chars! "s.styx") schema ∧
    HoldsCrate packWorld d (chars! "c") (chars! "c") (chars! "0.1.0") older ∧
    HoldsCrate packWorld (after d ((packWorld.package (fun _ => true) d (chars! "s.styx") (chars! "c") (chars! "0.2.0")
      (some (chars! "c"))).1.take k)) (chars! "c") (chars! "c") (chars! "0.2.0") older := by
  refine ⟨olderDisk (chars! "b 2\n") (chars! "a 1\n"), chars! "b 2\n", chars! "a 1\n", 2, by decide, ⟨0, rfl, rfl, rfl⟩,
    ⟨⟨_, ⟨1, rfl, rfl, rfl⟩, cargoToml_says _ _ pack_plain.1 pack_plain.2.1⟩,
      ⟨_, ⟨2, rfl, rfl, rfl⟩, crateLib_includes _ pack_plain.1⟩, 4, rfl, rfl, rfl⟩, ?_⟩
  rw [pack_run _ _ rfl (v := _) rfl, pack_writeAll]
  exact ⟨⟨_, ⟨1, rfl, rfl, rfl⟩, cargoToml_says _ _ pack_plain.1 pack_plain.2.2⟩,
    ⟨_, ⟨2, rfl, rfl, rfl⟩, crateLib_includes _ pack_plain.1⟩, 4, rfl, rfl, rfl⟩

/-- **C129 is false of the code**: names are put between quotes as they are, so a run with a quote in the name succeeds
and leaves a manifest that cannot be read. -/
theorem C129_quote_false : ∃ (d : Disk) (name : List Char),
    (packWorld.package (fun _ => true) d (chars! "s.styx") name (chars! "0.1.0") (some (chars! "c"))).2 = .success ∧
    ¬ ∃ n v s, HoldsCrate packWorld (after d (packWorld.package (fun _ => true) d (chars! "s.styx") name
      (chars! "0.1.0") (some (chars! "c"))).1) (chars! "c") n v s := by
  refine ⟨freshDisk (chars! "a 1\n"), chars! "a\"b", ?_⟩
  rw [pack_run _ _ rfl (v := _) rfl, pack_writeAll]
  refine ⟨rfl, ?_⟩
  rintro ⟨n, v, s, ⟨t, h1, es, h2, _⟩, _⟩
  have := holdsText_inj (b := cargoToml (chars! "a\"b") (chars! "0.1.0")) h1 ⟨1, rfl, rfl, rfl⟩
  subst this
  rw [show readManifest (cargoToml (chars! "a\"b") (chars! "0.1.0")) = none by decide +kernel] at h2
  cases h2

/-! ## A case of the hypotheses -/

example : CrateAt packWorld ((some (chars! "c")).getD (chars! "c")) 1 2 3 4 ∧ PlainName (chars! "c") ∧
    PlainName (chars! "0.1.0") ∧ freshDisk (chars! "a 1\n") 4 = none ∧ (∀ bs, (packWorld.parts 4 bs).flatten <+: bs) ∧
    (packWorld.package (fun _ => true) (freshDisk (chars! "a 1\n")) (chars! "s.styx") (chars! "c") (chars! "0.1.0")
      (some (chars! "c"))).2 = .success := by
  refine ⟨pack_at, pack_plain.1, pack_plain.2.1, rfl, fun bs => by simp [packWorld], ?_⟩
  rw [pack_run _ _ rfl (v := _) rfl, pack_writeAll]

example : ¬ ∃ schema v, HoldsText packWorld (freshDisk (chars! "}")) (chars! "s.styx") schema ∧
    parseTree schema = some (.ok v) := by
  rintro ⟨s, v, h1, h2⟩
  cases holdsText_inj (b := chars! "}") h1 ⟨0, rfl, rfl, rfl⟩
  cases h2

end Styx.Props
