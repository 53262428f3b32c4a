import Verif.Embed.Lemmas

/-! # Property theorems C36–C38: embedded schemas

`Verif.Embed.Spec` (records, embedded schemas, binaries made of blobs) is the specification. -/

namespace Styx.Props

open Styx.Embed

/-! ## C36 -/

/-- **C36**: in a binary with any number of blobs (of schemas shorter than 4 GiB), with any bytes
before, between and after them, extraction returns the schema of every blob, in order of position;
possibly with others, for the surrounding bytes may themselves contain blobs. -/
theorem C36 {C : Codec} (hC : Lawful C) (pieces : List (Bytes × List Char)) (last : Bytes)
    (hsize : ∀ p ∈ pieces, (encode p.2).length < 2 ^ 32 ∧ (C.compress (encode p.2)).length < 2 ^ 32)
    (hne : pieces ≠ []) :
    ∃ n schemas, (∀ fuel, n ≤ fuel → extractSchemas C (binary C pieces last) fuel = some (.ok schemas)) ∧
      (pieces.map (·.2)).Sublist schemas := by
  obtain ⟨h1, h2, h3⟩ := blobStarts_spec hC pieces [] last hsize
  simp only [List.nil_append, List.length_nil] at h1 h2 h3
  have hsub := sublist_occurrences (data := binary C pieces last) (by decide) h1 fun x hx => (h2 x hx).2
  have hsub := hsub.filterMap fun p => (tryExtractV2 C (binary C pieces last) p).toOption
  rw [h3] at hsub
  have hsub := List.sublist_append_of_sublist_left
    (l₂ := ((occurrences magicV1 (binary C pieces last) 0).filterMap
      fun p => (tryExtractV1 C (binary C pieces last) p).toOption).flatten) hsub
  refine ⟨(binary C pieces last).length + 1, _, fun fuel hf => ?_, hsub⟩
  rw [extractSchemas_eq C _ (by omega), if_neg]
  intro he
  rw [List.isEmpty_iff] at he
  rw [he] at hsub
  exact hne (List.map_eq_nil_iff.mp (List.sublist_nil.mp hsub))

/-- **C36**, exactly: when the magic bytes stand nowhere else in the binary, extraction returns the
schemas of the blobs and nothing else. -/
theorem C36_exact {C : Codec} (hC : Lawful C) (pieces : List (Bytes × List Char)) (last : Bytes)
    (hsize : ∀ p ∈ pieces, (encode p.2).length < 2 ^ 32 ∧ (C.compress (encode p.2)).length < 2 ^ 32)
    (hne : pieces ≠ [])
    (h2 : ∀ i, OccursAt magicV2 (binary C pieces last) i → i ∈ blobStarts C 0 pieces)
    (h1 : ∀ i, ¬ OccursAt magicV1 (binary C pieces last) i) :
    ∃ n, ∀ fuel, n ≤ fuel →
      extractSchemas C (binary C pieces last) fuel = some (.ok (pieces.map (·.2))) := by
  obtain ⟨g1, g2, g3⟩ := blobStarts_spec hC pieces [] last hsize
  simp only [List.nil_append, List.length_nil] at g1 g2 g3
  refine ⟨(binary C pieces last).length + 1, fun fuel hf => ?_⟩
  rw [extractSchemas_eq C _ (by omega),
    occurrences_eq (l := blobStarts C 0 pieces) (by decide) g1 fun x => ⟨fun hx => (g2 x hx).2, h2 x⟩,
    occurrences_eq (magic := magicV1) (l := []) (by decide) .nil
      fun x => ⟨(fun hx => by cases hx), (fun hx => absurd hx (h1 x))⟩, g3]
  simp only [List.filterMap_nil, List.flatten_nil, List.append_nil]
  rw [if_neg]
  rw [List.isEmpty_iff, List.map_eq_nil_iff]
  exact hne

deriving instance DecidableEq for Except

/-- A codec that stores the text as it is and hashes to its length and zeros. -/
def storeCodec : Codec := ⟨id, some, fun b => UInt8.ofNat b.length :: List.replicate 31 0⟩

theorem storeCodec_lawful : Lawful storeCodec := ⟨fun _ => rfl, fun _ => by simp [storeCodec]⟩

/-- Two blobs with junk around them, a broken one (magic bytes only) before the second. -/
example : extractSchemas storeCodec
    (binary storeCodec [([1, 83], ['a', 'é']), (magicV2 ++ [7], ['@'])] [0, 0]) 500 =
    some (.ok [['a', 'é'], ['@']]) := by decide +kernel

/-! ## C37 -/

/-- **C37**: every schema returned stands in the binary as a record after magic bytes: its compressed
text, with its length and its hash. -/
theorem C37 (C : Codec) (data : Bytes) (fuel : Nat) (schemas : List (List Char))
    (h : extractSchemas C data fuel = some (.ok schemas)) :
    ∀ s ∈ schemas, EmbeddedV2 C data s ∨ EmbeddedV1 C data s := by
  have mono : ∀ {α : Type} {magic : Bytes} {extract : Nat → Except Fail α} {fuel start : Nat} {r},
      scan data magic extract fuel start = some r → scan data magic extract (fuel + 1) start = some r := by
    intro α magic extract fuel
    induction fuel with
    | zero => intro start r h; cases h
    | succ fuel ih =>
      intro start r h
      rw [scan] at h ⊢
      split at h
      · exact h
      · split at h
        · simp only [Option.map_eq_some_iff] at h ⊢
          obtain ⟨a, ha, rfl⟩ := h
          exact ⟨a, ih ha, rfl⟩
        · exact h
        · next e he => exact ih h
  have mono' : ∀ {α : Type} {magic : Bytes} {extract : Nat → Except Fail α} {fuel start : Nat} {r} (k : Nat),
      scan data magic extract fuel start = some r → scan data magic extract (fuel + k) start = some r := by
    intro α magic extract fuel start r k h
    induction k with
    | zero => exact h
    | succ k ih => exact mono ih
  have big : extractSchemas C data (fuel + (data.length + 1)) = some (.ok schemas) := by
    rw [extractSchemas] at h ⊢
    simp only [Option.bind_eq_some_iff] at h ⊢
    obtain ⟨v2, h2, h⟩ := h
    refine ⟨v2, mono' _ h2, ?_⟩
    split at h
    · exact h
    · simp only [Option.map_eq_some_iff] at h ⊢
      obtain ⟨v1, h1, h⟩ := h
      exact ⟨v1, mono' _ h1, h⟩
  rw [extractSchemas_eq C data (by omega)] at big
  simp only [Option.some.injEq] at big
  split at big
  · cases big
  · obtain rfl := Except.ok.inj big
    intro s hs
    rcases List.mem_append.mp hs with hs | hs
    · obtain ⟨p, hp, hs⟩ := List.mem_filterMap.mp hs
      exact Or.inl (tryExtractV2_ok ((mem_occurrences (by decide)).mp hp) (toOption_some hs))
    · obtain ⟨ss, hss, hs⟩ := List.mem_flatten.mp hs
      obtain ⟨p, hp, hss⟩ := List.mem_filterMap.mp hss
      exact Or.inr (tryExtractV1_ok ((mem_occurrences (by decide)).mp hp) (toOption_some hss) s hs)

/-- A blob of the first format with two schemas is read. -/
example : extractSchemas storeCodec
    ([9] ++ magicV1 ++ [2, 0] ++ (buildBlob storeCodec ['x']).drop 16 ++ (buildBlob storeCodec ['y']).drop 16) 300 =
    some (.ok [['x'], ['y']]) := by decide +kernel

/-- A blob whose hash is wrong is not. -/
example : extractSchemas storeCodec (magicV2 ++ le32 1 ++ le32 1 ++ List.replicate 32 0 ++ encode ['x']) 300 =
    some (.error .notFound) := by decide +kernel

/-! ## C38 -/

/-- **C38**, scanning: for every byte string the extraction returns, and it is not by an out-of-range
slice or index. -/
theorem C38 (C : Codec) (data : Bytes) :
    ∃ n r, (∀ fuel, n ≤ fuel → extractSchemas C data fuel = some r) ∧ r ≠ .error .panic := by
  refine ⟨data.length + 1, _, fun fuel hf => extractSchemas_eq C data (by omega), ?_⟩
  simp only
  split <;> intro h <;> cases h

/-- **C38** is false of the code, object files: a section header whose offset and size overflow makes
the extraction panic, with and without overflow checks. -/
theorem C38_false (C : Codec) (checked : Bool) (data : Bytes) (hd : 0 < data.length) (fuel : Nat) :
    extractFromObject C checked (['.', 's', 't', 'y', 'x', '_', 's', 'c', 'h', 'e', 'm', 'a', 's'])
      (some [⟨some ['.', 's', 't', 'y', 'x', '_', 's', 'c', 'h', 'e', 'm', 'a', 's'], 18446744073709551615, 2⟩]) data fuel =
      some (.error .panic) := by
  have h : sectionData checked data
      ⟨some ['.', 's', 't', 'y', 'x', '_', 's', 'c', 'h', 'e', 'm', 'a', 's'], 18446744073709551615, 2⟩ =
      .error .panic := by
    have e1 : ((18446744073709551615 : UInt64) + 2).toNat = 1 := by decide
    have e2 : (18446744073709551615 : UInt64).toNat = 18446744073709551615 := by decide
    cases checked with
    | true => rfl
    | false =>
      simp only [sectionData, Bool.false_and, Bool.false_eq_true, if_false, e1, e2]
      rw [if_pos (by omega), slice, if_neg (by omega)]
      rfl
  simp only [extractFromObject, findElfSection, if_true, h, bind, Except.bind]

/-- **C38**, partial, object files: with sections whose end is representable in 64 bits, extraction
returns and does not panic.  Missing: overflowing section headers, see `C38_false`. -/
theorem C38_partial (C : Codec) (checked : Bool) (name : List Char) (object : Option (List Section))
    (data : Bytes) (ho : ∀ ss, object = some ss → ∀ s ∈ ss, s.offset.toNat + s.size.toNat < 2 ^ 64) :
    ∃ n r, (∀ fuel, n ≤ fuel → extractFromObject C checked name object data fuel = some r) ∧
      r ≠ .error .panic := by
  cases object with
  | none => exact C38 C data
  | some ss =>
    have find : ∀ ss : List Section, (∀ s ∈ ss, s.offset.toNat + s.size.toNat < 2 ^ 64) →
        ∃ d, findElfSection checked data name ss = .ok d := by
      intro ss
      induction ss with
      | nil => exact fun _ => ⟨none, rfl⟩
      | cons s ss ih =>
        intro h
        obtain ⟨d, hd⟩ := ih fun s hs => h s (List.mem_cons_of_mem _ hs)
        have hs := h s (by simp)
        rw [findElfSection]
        split
        · have e : (s.offset + s.size).toNat = s.offset.toNat + s.size.toNat := by
            rw [UInt64.toNat_add, Nat.mod_eq_of_lt hs]
          have : ∃ r, sectionData checked data s = .ok r := by
            rw [sectionData, if_neg (by simp; omega)]
            simp only [e]
            split
            · rw [slice, if_pos (by omega)]
              exact ⟨_, rfl⟩
            · exact ⟨_, rfl⟩
          obtain ⟨r, hr⟩ := this
          simp only [hr, bind, Except.bind]
          cases r with
          | some d' => exact ⟨_, rfl⟩
          | none => exact ⟨d, hd⟩
        · exact ⟨d, hd⟩
    obtain ⟨d, hd⟩ := find ss (ho ss rfl)
    simp only [extractFromObject, hd]
    cases d with
    | none => exact C38 C data
    | some d => exact C38 C d

/-- A section that is found. -/
example : extractFromObject storeCodec true ['s'] (some [⟨some ['t'], 0, 1⟩, ⟨some ['s'], 1, 57⟩])
    ([1] ++ buildBlob storeCodec ['x'] ++ [2]) 300 = some (.ok [['x']]) := by decide +kernel

end Styx.Props
