import Verif.Cli.PackageSpec
import Verif.Cli.FilesLemmas

/-! # Lemmas about the crates that the command line makes -/

namespace Styx.Cli

open Styx Styx.Spec

variable {F : Type}

/-! ## Writing files one after the other -/

theorem after_cat (d : Disk) (a b : List Op) : after d (a ++ b) = after (after d a) b := by
  simp [after, List.foldl_append]

theorem writeFile_success {W : World F} {path : List Char} {bs : List UInt8} {f : Nat} (hf : W.lead path = some f)
    (h : (W.writeFile path bs).2 = .success) :
    ∃ ps, ps.flatten = bs ∧ W.parts f bs = ps ∧ (W.writeFile path bs).1 = writeOps f ps := by
  rcases writeFile_cases W path bs with h' | ⟨g, hg, _, h'⟩
  · rw [h'] at h; cases h
  · rw [hf] at hg; cases hg
    rw [h'] at h
    exact ⟨_, writeEnd_success h, rfl, by rw [h']⟩

theorem writeAll_cons (W : World F) (path text : List Char) (rest : List (List Char × List Char)) :
    W.writeAll ((path, text) :: rest) =
      if (W.writeFile path (Ffi.bytesOf text)).2 = .success then
        ((W.writeFile path (Ffi.bytesOf text)).1 ++ (W.writeAll rest).1, (W.writeAll rest).2)
      else W.writeFile path (Ffi.bytesOf text) := by
  simp only [World.writeAll]
  generalize W.writeFile path (Ffi.bytesOf text) = r
  obtain ⟨a, e⟩ := r
  cases e <;> simp

theorem writeAll_append (W : World F) (a b : List (List Char × List Char)) :
    W.writeAll (a ++ b) =
      if (W.writeAll a).2 = .success then ((W.writeAll a).1 ++ (W.writeAll b).1, (W.writeAll b).2)
      else W.writeAll a := by
  induction a with
  | nil => simp [World.writeAll]
  | cons p a ih =>
    obtain ⟨path, text⟩ := p
    rw [List.cons_append, writeAll_cons, writeAll_cons, ih]
    by_cases h1 : (W.writeFile path (Ffi.bytesOf text)).2 = .success
    · rw [if_pos h1, if_pos h1]
      by_cases h2 : (W.writeAll a).2 = .success
      · simp [h2]
      · simp [h2]
    · rw [if_neg h1, if_neg h1, if_neg h1]

theorem writeFile_other (W : World F) (path : List Char) (bs : List UInt8) (d : Disk) (k g : Nat)
    (h : W.lead path ≠ some g) : after d ((W.writeFile path bs).1.take k) g = d g := by
  rcases writeFile_cases W path bs with h' | ⟨f, hf, _, h'⟩
  · rw [h']; simp [after]
  · rw [h']
    exact after_write_other (fun hc => h (by rw [hf, hc])) _ _ _

theorem writeAll_other (W : World F) (items : List (List Char × List Char)) (d : Disk) (k g : Nat)
    (h : ∀ p ∈ items, W.lead p.1 ≠ some g) : after d ((W.writeAll items).1.take k) g = d g := by
  induction items generalizing d k with
  | nil => simp [World.writeAll, after]
  | cons p items ih =>
    obtain ⟨path, text⟩ := p
    rw [writeAll_cons]
    split
    · rw [List.take_append, after_cat, ih _ _ fun p hp => h p (List.mem_cons_of_mem _ hp)]
      exact writeFile_other W _ _ _ _ _ (h _ (List.mem_cons_self ..))
    · exact writeFile_other W _ _ _ _ _ (h _ (List.mem_cons_self ..))

theorem writeAll_other_all (W : World F) (items : List (List Char × List Char)) (d : Disk) (g : Nat)
    (h : ∀ p ∈ items, W.lead p.1 ≠ some g) : after d (W.writeAll items).1 g = d g := by
  have := writeAll_other W items d (W.writeAll items).1.length g h
  rwa [List.take_length] at this

theorem writeAll_holds (W : World F) (items : List (List Char × List Char)) (d : Disk)
    (hs : (W.writeAll items).2 = .success) (hl : ∀ p ∈ items, W.lead p.1 ≠ none)
    (hd : (items.map fun p => W.lead p.1).Nodup) :
    ∀ p ∈ items, ∀ f, W.lead p.1 = some f → after d (W.writeAll items).1 f = some (utf8 p.2) := by
  induction items generalizing d with
  | nil => intro p hp; cases hp
  | cons q items ih =>
    obtain ⟨path, text⟩ := q
    rw [writeAll_cons] at hs ⊢
    simp only [List.map_cons, List.nodup_cons] at hd
    split at hs
    · rename_i hw
      rw [if_pos hw]
      intro p hp f hf
      rw [after_cat]
      rcases List.mem_cons.mp hp with rfl | hp
      · rw [writeAll_other_all W items _ f fun p hp hc =>
          hd.1 (by rw [hf, ← hc]; exact List.mem_map_of_mem (f := fun p => W.lead p.1) hp)]
        obtain ⟨ps, h1, _, h2⟩ := writeFile_success hf hw
        rw [h2]
        have := after_write_same f ps d ps.length
        rw [List.take_of_length_le (by simp [writeOps]), List.take_length, h1] at this
        exact this
      · exact ih _ hs (fun p hp => hl p (List.mem_cons_of_mem _ hp)) hd.2 p hp f hf
    · rename_i hw; exact absurd hs hw

/-! ## Reading the manifest -/

theorem tomlLines_cut (a b : List Char) (h : '\n' ∉ a) : tomlLines (a ++ '\n' :: b) = a :: tomlLines b := by
  induction a with
  | nil => rfl
  | cons c a ih =>
    have h1 : c ≠ '\n' := fun hc => h (by simp [hc])
    have h2 : '\n' ∉ a := fun hc => h (List.mem_cons_of_mem _ hc)
    rw [List.cons_append, tomlLines, ih h2]
    · exact h1

theorem tomlString_plain (a b : List Char) (h : PlainName a) : tomlString (a ++ '"' :: b) = some (a, b) := by
  induction a with
  | nil => rw [List.nil_append, tomlString.eq_def]; simp
  | cons c a ih =>
    obtain ⟨h1, h2, h3, h4⟩ := h c (List.mem_cons_self ..)
    have ih := ih fun c hc => h c (List.mem_cons_of_mem _ hc)
    rw [List.cons_append, tomlString.eq_def]
    simp only [if_neg h1, if_neg h2, if_pos (show TomlPlain c from ⟨h1, h2, h3, h4⟩), ih, Option.map_some]

theorem plain_newline {s : List Char} (h : PlainName s) : '\n' ∉ s := fun hc => by
  have := (h _ hc).2.2.1
  revert this; decide

theorem plain_append {a b : List Char} (ha : PlainName a) (hb : PlainName b) : PlainName (a ++ b) := fun c hc => by
  rcases List.mem_append.mp hc with hc | hc
  · exact ha c hc
  · exact hb c hc

theorem tomlLine_text (key v : List Char) (hv : PlainName v)
    (hk : ∀ c ∈ key, c.isAlphanum ∨ c = '-' ∨ c = '_') (hn : key ≠ []) :
    tomlLine (key ++ (chars! " = \"" ++ v ++ ['"'])) = some (key, .text v) := by
  have hp : ∀ c ∈ key, (fun c : Char => decide (c.isAlphanum ∨ c = '-' ∨ c = '_')) c = true := by
    intro c hc; simpa using hk c hc
  have hs : (fun c : Char => decide (c.isAlphanum ∨ c = '-' ∨ c = '_')) ' ' = false := by decide
  unfold tomlLine
  rw [List.takeWhile_append_of_pos hp, List.dropWhile_append_of_pos hp]
  simp only [List.cons_append, List.nil_append]
  rw [List.takeWhile_cons, List.dropWhile_cons]
  simp only [hs, Bool.false_eq_true, if_false, List.append_nil, if_neg hn]
  simp only [tomlValue, tomlString_plain v [] hv, Option.map_some]

theorem tomlEntries_cons {l : List Char} {ls : List (List Char)} {e : List Char × TomlValue}
    {es : List (List Char × TomlValue)} (hl : l ≠ []) (h1 : tomlLine l = some e) (h2 : tomlEntries ls = some es) :
    tomlEntries (l :: ls) = some (e :: es) := by
  cases l with
  | nil => exact absurd rfl hl
  | cons c l => simp only [tomlEntries, h1, h2]

theorem cargoToml_says (name version : List Char) (hn : PlainName name) (hv : PlainName version) :
    ManifestSays (cargoToml name version) name version := by
  have e : cargoToml name version = chars! "[package]" ++ '\n' :: ((chars! "name" ++ (chars! " = \"" ++ name ++ ['"'])) ++
      '\n' :: ((chars! "version" ++ (chars! " = \"" ++ version ++ ['"'])) ++ '\n' :: (chars! "edition = \"2024\"" ++
      '\n' :: (chars! "license = \"MIT OR Apache-2.0\"" ++ '\n' :: ((chars! "description" ++ (chars! " = \"" ++
      (chars! "Styx schema for " ++ name) ++ ['"'])) ++ '\n' :: (chars! "readme = \"README.md\"" ++
      '\n' :: (chars! "categories = [\"config\"]" ++ '\n' :: (chars! "keywords = [\"styx\", \"schema\"]" ++
      '\n' :: [])))))))) := by
    simp [cargoToml]
  have hn' := plain_newline hn
  have hv' := plain_newline hv
  have hd : PlainName (chars! "Styx schema for " ++ name) := plain_append (by unfold PlainName; decide) hn
  have hl : tomlLines (cargoToml name version) = [chars! "[package]", chars! "name" ++ (chars! " = \"" ++ name ++ ['"']),
      chars! "version" ++ (chars! " = \"" ++ version ++ ['"']), chars! "edition = \"2024\"",
      chars! "license = \"MIT OR Apache-2.0\"",
      chars! "description" ++ (chars! " = \"" ++ (chars! "Styx schema for " ++ name) ++ ['"']),
      chars! "readme = \"README.md\"", chars! "categories = [\"config\"]", chars! "keywords = [\"styx\", \"schema\"]",
      []] := by
    rw [e, tomlLines_cut _ _ (by decide), tomlLines_cut _ _ (by simp [hn']), tomlLines_cut _ _ (by simp [hv']),
      tomlLines_cut _ _ (by decide), tomlLines_cut _ _ (by decide), tomlLines_cut _ _ (by simp [hn']),
      tomlLines_cut _ _ (by decide), tomlLines_cut _ _ (by decide), tomlLines_cut _ _ (by decide)]
    rfl
  have l1 := tomlLine_text (chars! "name") name hn (by decide) (by decide)
  have l2 := tomlLine_text (chars! "version") version hv (by decide) (by decide)
  have l3 : tomlLine (chars! "edition = \"2024\"") = some (chars! "edition", .text (chars! "2024")) := by decide
  have l4 : tomlLine (chars! "license = \"MIT OR Apache-2.0\"") =
    some (chars! "license", .text (chars! "MIT OR Apache-2.0")) := by decide
  have l5 := tomlLine_text (chars! "description") _ hd (by decide) (by decide)
  have l6 : tomlLine (chars! "readme = \"README.md\"") = some (chars! "readme", .text (chars! "README.md")) := by decide
  have l7 : tomlLine (chars! "categories = [\"config\"]") = some (chars! "categories", .texts [chars! "config"]) := by
    decide
  have l8 : tomlLine (chars! "keywords = [\"styx\", \"schema\"]") =
    some (chars! "keywords", .texts [chars! "styx", chars! "schema"]) := by decide
  refine ⟨[(chars! "name", .text name), (chars! "version", .text version), (chars! "edition", .text (chars! "2024")),
    (chars! "license", .text (chars! "MIT OR Apache-2.0")),
    (chars! "description", .text (chars! "Styx schema for " ++ name)), (chars! "readme", .text (chars! "README.md")),
    (chars! "categories", .texts [chars! "config"]), (chars! "keywords", .texts [chars! "styx", chars! "schema"])],
    ?_, rfl, rfl⟩
  have he := tomlEntries_cons (by simp) l1 (tomlEntries_cons (by simp) l2 (tomlEntries_cons (by simp) l3
    (tomlEntries_cons (by simp) l4 (tomlEntries_cons (by simp) l5 (tomlEntries_cons (by simp) l6
    (tomlEntries_cons (by simp) l7 (tomlEntries_cons (ls := [[]]) (es := []) (by simp) l8 rfl)))))))
  rw [readManifest, hl]
  simp only [if_true, he]
  rw [if_pos (by simp only [List.map_cons, List.map_nil]; decide)]

theorem crateLib_includes (name : List Char) (h : PlainName name) : IncludesSchema (crateLib name) := by
  have hn : '\n' ∉ snakeName name := fun hc => by
    obtain ⟨c, h1, h2⟩ := List.mem_map.mp hc
    split at h2
    · cases h2
    · subst h2; exact plain_newline h h1
  have e : crateLib name = (chars! "//! Styx schema crate for " ++ snakeName name ++ ['.']) ++ '\n' :: ([] ++
      '\n' :: (chars! "/// The styx schema content." ++
      '\n' :: (chars! "pub const SCHEMA: &str = include_str!(\"../schema.styx\");" ++ '\n' :: []))) := by
    simp [crateLib]
  rw [IncludesSchema, e, tomlLines_cut _ _ (by simp [hn]), tomlLines_cut _ _ (by decide), tomlLines_cut _ _ (by decide),
    tomlLines_cut _ _ (by decide)]
  simp [tomlLines]

end Styx.Cli
