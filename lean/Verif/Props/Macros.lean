import Verif.Embed.LiteralSpec
import Verif.Cli.PathLemmas
import Verif.Props.Embed

/-!
# C105, C106: the macros that embed schemas
-/

namespace Styx.Props

open Styx Styx.Spec Styx.Embed Styx.Cli

/-! ## C105 -/

theorem takeWhile_hashes (n : Nat) (r : List Char) :
    ((List.replicate n '#' ++ '"' :: r).takeWhile (· = '#')).length = n := by
  induction n with
  | zero => simp
  | succ n ih => simp [List.replicate_succ]

/-- **C105**, raw strings: a raw string literal embeds what it denotes, whatever it is. -/
theorem C105_raw (hashes : Nat) (body : List Char) : parseStringLiteral (rawLiteral hashes body) = some body := by
  have ht : (rawLiteral hashes body).tail = List.replicate hashes '#' ++ '"' :: (body ++ '"' :: List.replicate hashes '#') := by
    simp [rawLiteral]
  unfold parseStringLiteral
  rw [ht, takeWhile_hashes]
  have hlen : (List.replicate hashes '#' ++ '"' :: (body ++ '"' :: List.replicate hashes '#')).length =
      hashes + 1 + body.length + 1 + hashes := by simp; omega
  simp only [hlen]
  rw [if_pos ⟨by simp [rawLiteral], by omega⟩]
  have hd : (List.replicate hashes '#' ++ '"' :: (body ++ '"' :: List.replicate hashes '#')).drop (hashes + 1) =
      body ++ '"' :: List.replicate hashes '#' := by
    rw [List.drop_append]; simp
  rw [hd, show hashes + 1 + body.length + 1 + hashes - (hashes + 1) - (1 + hashes) = body.length by omega]
  simp

theorem parseStringLiteral_quoted (s : List Char) :
    parseStringLiteral ('"' :: s ++ ['"']) = some (unescapeLiteral s) := by
  unfold parseStringLiteral
  rw [if_neg (by simp), if_pos ⟨by simp, by simp [List.getLast?_cons], by simp⟩]
  simp

theorem unescape_plain {c : Char} (h : c ≠ '\\') (cs : List Char) :
    unescapeLiteral (c :: cs) = c :: unescapeLiteral cs := by
  cases cs with
  | nil => simp [unescapeLiteral]
  | cons d cs => simp [unescapeLiteral, h]

theorem unescape_escape (d : Char) (cs : List Char) :
    unescapeLiteral ('\\' :: d :: cs) = literalEscape d ++ unescapeLiteral cs := by
  simp [unescapeLiteral]

theorem unescape_plains {s : List Char} (h : ∀ c ∈ s, c ≠ '\\') (cs : List Char) :
    unescapeLiteral (s ++ cs) = s ++ unescapeLiteral cs := by
  induction s with
  | nil => rfl
  | cons c s ih =>
    rw [List.cons_append, unescape_plain (h c (List.mem_cons_self ..)), ih fun x hx => h x (List.mem_cons_of_mem _ hx)]
    rfl

theorem hexDigit_plain {c : Char} (h : isHexDigit c = true) : c ≠ '\\' := by
  rintro rfl; exact absurd h (by decide)

theorem literalEscape_simple {e c : Char} (h : simpleValue e = some c) (he : e ≠ '\'') : literalEscape e = [c] := by
  unfold simpleValue at h
  unfold literalEscape
  grind

/-- What the macro makes of a part. -/
theorem unescape_part {p : LitPart} (h : p.Allowed) (cs : List Char) :
    ∃ out, unescapeLiteral (p.text ++ cs) = out ++ unescapeLiteral cs ∧ (p.Basic → out = p.value) ∧
      p.value.length ≤ out.length ∧ (¬ p.Basic → p.value.length < out.length) := by
  cases p with
  | plain c =>
    exact ⟨[c], unescape_plain h.2.1 cs, fun _ => rfl, Nat.le_refl _, fun hb => absurd trivial hb⟩
  | simple e =>
    obtain ⟨c, hc⟩ := Option.isSome_iff_exists.1 (show (simpleValue e).isSome = true from h)
    refine ⟨literalEscape e, unescape_escape e cs, ?_, ?_, ?_⟩
    · intro hb; simp [LitPart.value, hc, literalEscape_simple hc hb]
    · by_cases he : e = '\''
      · subst he; decide
      · simp [LitPart.value, hc, literalEscape_simple hc he]
    · intro hb
      have : e = '\'' := Classical.byContradiction fun he => hb he
      subst this; decide
  | ascii hi lo =>
    obtain ⟨h1, h2, _⟩ := h
    refine ⟨['\\', 'x', hi, lo], ?_, nofun, ?_, fun _ => ?_⟩
    · show unescapeLiteral ('\\' :: 'x' :: (hi :: lo :: cs)) = _
      rw [unescape_escape, unescape_plain (hexDigit_plain h1), unescape_plain (hexDigit_plain h2)]
      rfl
    all_goals
      simp only [LitPart.value, List.length_cons, List.length_nil]
      cases charFromU32 (hexNat [hi, lo]) <;> simp
  | unicode ds =>
    obtain ⟨h1, _⟩ := h
    refine ⟨'\\' :: 'u' :: '{' :: ds ++ ['}'], ?_, nofun, ?_, fun _ => ?_⟩
    · show unescapeLiteral ('\\' :: 'u' :: (('{' :: ds ++ ['}']) ++ cs)) = _
      rw [unescape_escape, unescape_plains]
      · simp [literalEscape]
      · intro c hc
        simp only [List.cons_append, List.mem_cons, List.mem_append, List.not_mem_nil, or_false] at hc
        rcases hc with rfl | hc | rfl
        · decide
        · rcases h1 c hc with h | rfl
          · exact hexDigit_plain h
          · decide
        · decide
    all_goals
      simp only [LitPart.value]
      cases charFromU32 (hexNat (ds.filter (· ≠ '_'))) <;> simp <;> omega
  | skip white =>
    refine ⟨'\\' :: '\n' :: white, ?_, nofun, Nat.zero_le _, fun _ => by simp [LitPart.value]⟩
    show unescapeLiteral ('\\' :: '\n' :: (white ++ cs)) = _
    rw [unescape_escape, unescape_plains]
    · simp [literalEscape]
    · intro c hc; rcases h c hc with rfl | rfl | rfl <;> decide

theorem unescape_parts {ps : List LitPart} (h : ∀ p ∈ ps, p.Allowed) :
    ((∀ p ∈ ps, p.Basic) → unescapeLiteral (ps.flatMap LitPart.text) = denoted ps) ∧
    (denoted ps).length ≤ (unescapeLiteral (ps.flatMap LitPart.text)).length ∧
    ((∃ p ∈ ps, ¬ p.Basic) → (denoted ps).length < (unescapeLiteral (ps.flatMap LitPart.text)).length) := by
  induction ps with
  | nil => exact ⟨fun _ => by simp [unescapeLiteral, denoted], Nat.zero_le _, by simp⟩
  | cons p ps ih =>
    obtain ⟨i1, i2, i3⟩ := ih fun q hq => h q (List.mem_cons_of_mem _ hq)
    obtain ⟨out, h1, h2, h3, h4⟩ := unescape_part (h p (List.mem_cons_self ..)) (ps.flatMap LitPart.text)
    have hd : denoted (p :: ps) = p.value ++ denoted ps := by simp [denoted]
    rw [List.flatMap_cons, h1, hd]
    refine ⟨?_, by simp; omega, ?_⟩
    · intro hb
      rw [h2 (hb p (List.mem_cons_self ..)), i1 fun q hq => hb q (List.mem_cons_of_mem _ hq)]
    · rintro ⟨q, hq, hb⟩
      simp only [List.length_append]
      rcases List.mem_cons.1 hq with rfl | hq
      · have := h4 hb; omega
      · have := i3 ⟨q, hq, hb⟩; omega

/-- **C105**, partial, and exactly: the macro takes a string literal for the string it denotes if and only if the literal is
written without `\x`, `\u`, `\'` and line continuations.  Missing for the full property: literals with those
(`C105_false`). -/
theorem C105_partial (ps : List LitPart) (h : ∀ p ∈ ps, p.Allowed) :
    parseStringLiteral (quotedLiteral ps) = some (denoted ps) ↔ ∀ p ∈ ps, p.Basic := by
  unfold quotedLiteral
  rw [parseStringLiteral_quoted]
  obtain ⟨h1, _, h3⟩ := unescape_parts h
  constructor
  · intro he p hp
    refine Classical.byContradiction fun hb => ?_
    have := h3 ⟨p, hp, hb⟩
    rw [Option.some.injEq] at he
    rw [he] at this
    omega
  · intro hb; rw [h1 hb]

/-- **C105** is false: a line continuation ends up in the schema. -/
theorem C105_false : ∃ ps : List LitPart, (∀ p ∈ ps, p.Allowed) ∧
    parseStringLiteral (quotedLiteral ps) ≠ some (denoted ps) :=
  ⟨[.plain 'a', .skip [' '], .plain 'b'], by simp [LitPart.Allowed], by decide⟩

example : parseStringLiteral (chars! "r#\"meta { id \"x\" }\"#") = some (chars! "meta { id \"x\" }") := by decide

example : quotedLiteral [.plain 'a', .simple 'n', .simple '"'] = chars! "\"a\\n\\\"\"" := by decide

/-! ## C106 -/

theorem extractSchemaId_iff {s id : List Char} : extractSchemaId s = some (.ok id) ↔ Identified s id := by
  unfold extractSchemaId
  constructor
  · intro h
    cases hp : parseTree s with
    | none => rw [hp] at h; cases h
    | some r =>
      rw [hp] at h
      cases r with
      | error e => cases h
      | ok v =>
        dsimp only at h
        cases h1 : v.asObject with
        | none => rw [h1] at h; cases h
        | some es =>
          rw [h1] at h; dsimp only at h
          cases h2 : objGet es (chars! "meta") with
          | none => rw [h2] at h; cases h
          | some m =>
            rw [h2] at h; dsimp only at h
            cases h3 : m.asObject with
            | none => rw [h3] at h; cases h
            | some ms =>
              rw [h3] at h; dsimp only at h
              cases h4 : objGet ms (chars! "id") with
              | none => rw [h4] at h; cases h
              | some i =>
                rw [h4] at h; dsimp only at h
                cases h5 : i.asStr with
                | none => rw [h5] at h; cases h
                | some t => rw [h5] at h; cases h; exact ⟨v, es, m, ms, i, hp, h1, h2, h3, h4, h5⟩
  · rintro ⟨v, es, m, ms, i, hp, h1, h2, h3, h4, h5⟩
    simp only [hp, h1, h2, h3, h4, h5]

/-- **C106**: the macros accept exactly the schemas that name themselves in their block `meta`. -/
theorem C106_accepts (C : Codec) (s : List Char) :
    (∃ st, generateStatic C s = some (.ok st)) ↔ ∃ id, Identified s id := by
  unfold generateStatic
  constructor
  · rintro ⟨st, h⟩
    cases he : extractSchemaId s with
    | none => rw [he] at h; cases h
    | some r =>
      cases r with
      | error e => rw [he] at h; cases h
      | ok id => exact ⟨id, extractSchemaId_iff.1 he⟩
  · rintro ⟨id, h⟩
    rw [extractSchemaId_iff.2 h]
    exact ⟨_, rfl⟩

theorem generateStatic_bytes {C : Codec} {s : List Char} {st : Static} (h : generateStatic C s = some (.ok st)) :
    st.bytes = buildBlob C s ∧ ∃ id, Identified s id ∧ st.symbol = chars! "__STYX_SCHEMA_" ++ symbolSuffix C id := by
  unfold generateStatic at h
  cases he : extractSchemaId s with
  | none => rw [he] at h; cases h
  | some r =>
    cases r with
    | error e => rw [he] at h; cases h
    | ok id => rw [he] at h; cases h; exact ⟨rfl, id, extractSchemaId_iff.1 he, rfl⟩

/-- A linked program is made of blobs. -/
theorem linked_binary {C : Codec} {ss : List (List Char)} {data : Bytes} (h : Linked C ss data) :
    ∃ pieces last, pieces.map (·.2) = ss ∧ data = binary C pieces last := by
  induction h with
  | nil last => exact ⟨[], last, rfl, by simp [binary]⟩
  | @cons before s ss st bytes hg _ ih =>
    obtain ⟨pieces, last, h1, h2⟩ := ih
    refine ⟨(before, s) :: pieces, last, by simp [h1], ?_⟩
    rw [(generateStatic_bytes hg).1, h2]
    simp [binary]

/-- **C106**: whatever schemas are embedded in a program, and wherever the linker puts them, asking the program for the
identifier of one of them gives exactly its text – provided the program contains no other schema with the same
identifier, and none that makes the parser panic. -/
theorem C106_found {C : Codec} (hC : Lawful C) {ss : List (List Char)} {data : Bytes} (hl : Linked C ss data)
    (hsize : ∀ s ∈ ss, (encode s).length < 2 ^ 32 ∧ (C.compress (encode s)).length < 2 ^ 32)
    {s id : List Char} (hs : s ∈ ss) (hid : Identified s id)
    (hother : ∀ t, EmbeddedV2 C data t ∨ EmbeddedV1 C data t → parseTree t ≠ none ∧ (Identified t id → t = s)) :
    ∃ n schemas, (∀ fuel, n ≤ fuel → extractSchemas C data fuel = some (.ok schemas)) ∧
      findEmbedded id schemas = .ok s := by
  obtain ⟨pieces, last, h1, h2⟩ := linked_binary hl
  have hne : pieces ≠ [] := by
    rintro rfl
    subst h1
    simp at hs
  obtain ⟨n, schemas, h3, h4⟩ := C36 hC pieces last (fun p hp => hsize p.2 (by
    rw [← h1]; exact List.mem_map_of_mem hp)) hne
  rw [← h2] at h3
  refine ⟨n, schemas, h3, ?_⟩
  have hin : s ∈ schemas := h4.subset (by rw [h1]; exact hs)
  have hauth := C37 C data n schemas (h3 n (Nat.le_refl _))
  -- the first schema with the identifier
  have : ∀ l : List (List Char), (∀ t ∈ l, parseTree t ≠ none ∧ (Identified t id → t = s)) → s ∈ l →
      ∃ bef aft, l = bef ++ s :: aft ∧ ∀ t ∈ bef, ¬ Identified t id ∧ parseTree t ≠ none := by
    intro l
    induction l with
    | nil => intro _ h; cases h
    | cons t l ih =>
      intro hl hm
      by_cases ht : t = s
      · subst ht; exact ⟨[], l, rfl, nofun⟩
      · obtain ⟨bef, aft, h5, h6⟩ := ih (fun u hu => hl u (List.mem_cons_of_mem _ hu))
          ((List.mem_cons.1 hm).resolve_left fun e => ht e.symm)
        refine ⟨t :: bef, aft, by rw [h5]; rfl, ?_⟩
        intro u hu
        rcases List.mem_cons.1 hu with rfl | hu
        · have := hl u (List.mem_cons_self ..)
          exact ⟨fun h => ht (this.2 h), this.1⟩
        · exact h6 u hu
  obtain ⟨bef, aft, h5, h6⟩ := this schemas (fun t ht => hother t (hauth t ht)) hin
  exact findEmbedded_iff.2 ⟨bef, aft, h5, hid, h6⟩

theorem sanitizeId_chars (id : List Char) : ∀ c ∈ sanitizeId id, c.isAlphanum = true ∨ c = '_' := by
  have h : ∀ c ∈ id.map fun c => if c.isAlphanum then c else '_', c.isAlphanum = true ∨ c = '_' := by
    intro c hc
    obtain ⟨d, _, rfl⟩ := List.mem_map.1 hc
    split
    · exact .inl ‹_›
    · exact .inr rfl
  intro c hc
  unfold sanitizeId at hc
  dsimp only at hc
  split at hc
  · rcases List.mem_cons.1 hc with rfl | hc
    · exact .inr rfl
    · exact h c hc
  · exact h c hc

theorem hexByte_inj {a b : UInt8} (h : hexByte a = hexByte b) : a = b := by
  have key : ∀ m n : Fin 16, Nat.digitChar m = Nat.digitChar n → m = n := by decide
  simp only [hexByte, List.cons.injEq, and_true] at h
  have ha : a.toNat < 256 := a.toNat_lt
  have hb : b.toNat < 256 := b.toNat_lt
  have h1 := congrArg Fin.val (key ⟨a.toNat / 16, by omega⟩ ⟨b.toNat / 16, by omega⟩ h.1)
  have h2 := congrArg Fin.val (key ⟨a.toNat % 16, by omega⟩ ⟨b.toNat % 16, by omega⟩ h.2)
  simp only at h1 h2
  exact UInt8.toNat_inj.1 (by omega)

theorem hexBytes_inj : ∀ {a b : Bytes}, a.length = b.length → a.flatMap hexByte = b.flatMap hexByte → a = b
  | [], [], _, _ => rfl
  | x :: a, y :: b, hl, h => by
    rw [List.flatMap_cons, List.flatMap_cons] at h
    obtain ⟨h1, h2⟩ := List.append_inj h (by simp [hexByte])
    rw [hexByte_inj h1, hexBytes_inj (by simpa using hl) h2]

theorem hexByte_chars (b : UInt8) : ∀ c ∈ hexByte b, c.isAlphanum = true := by
  have key : ∀ m : Fin 16, (Nat.digitChar m).isAlphanum = true := by decide
  have hb : b.toNat < 256 := b.toNat_lt
  intro c hc
  simp only [hexByte, List.mem_cons, List.not_mem_nil, or_false] at hc
  rcases hc with rfl | rfl
  · exact key ⟨b.toNat / 16, by omega⟩
  · exact key ⟨b.toNat % 16, by omega⟩

/-- **C106**, symbols: the symbols are identifiers, and two schemas get the same one only if the hashes of their
identifiers begin with the same four bytes; so schemas with different identifiers (and hashes) can be in one
program. -/
theorem C106_symbols {C : Codec} (hC : Lawful C) {s t : List Char} {a b : Static}
    (ha : generateStatic C s = some (.ok a)) (hb : generateStatic C t = some (.ok b)) :
    (∀ c ∈ a.symbol, c.isAlphanum = true ∨ c = '_') ∧
    (a.symbol = b.symbol → ∃ i j, Identified s i ∧ Identified t j ∧
      (C.hash (encode i)).take 4 = (C.hash (encode j)).take 4) := by
  obtain ⟨_, i, hi, ea⟩ := generateStatic_bytes ha
  obtain ⟨_, j, hj, eb⟩ := generateStatic_bytes hb
  constructor
  · rw [ea]
    have hpre : ∀ c ∈ (chars! "__STYX_SCHEMA_"), c.isAlphanum = true ∨ c = '_' := by decide
    intro c hc
    rw [List.mem_append] at hc
    refine hc.elim (hpre c) fun hc => ?_
    simp only [symbolSuffix, List.mem_append, List.mem_cons, List.mem_flatMap] at hc
    rcases hc with hc | rfl | ⟨x, _, hx⟩
    · exact sanitizeId_chars _ c hc
    · exact .inr rfl
    · exact .inl (hexByte_chars x c hx)
  · intro he
    refine ⟨i, j, hi, hj, ?_⟩
    rw [ea, eb, List.append_right_inj] at he
    have hlen : ∀ k : List Char, (((C.hash (encode k)).take 4).flatMap hexByte).length = 8 := by
      intro k
      have h4 : ((C.hash (encode k)).take 4).length = 4 := by simp [hC.size]
      rw [List.length_flatMap]
      match (C.hash (encode k)).take 4, h4 with
      | [p, q, r, u], _ => rfl
    unfold symbolSuffix at he
    have := (List.append_inj' he (by simp [hlen])).2
    rw [List.cons.injEq] at this
    exact hexBytes_inj (by simp [hC.size]) this.2

/-- Two schemas with other things around them. -/
private def programBytes : Bytes :=
  [1, 83] ++ (buildBlob storeCodec (chars! "meta {id a}") ++ ([7] ++ (buildBlob storeCodec (chars! "meta {id b}") ++ [0])))

example : Linked storeCodec [chars! "meta {id a}", chars! "meta {id b}"] programBytes := by
  have h : programBytes = [1, 83] ++ (macroBlob storeCodec (chars! "meta {id a}")) ++
      ([7] ++ (macroBlob storeCodec (chars! "meta {id b}")) ++ [0]) := by
    simp [programBytes, macroBlob, buildBlob]
  rw [h]
  refine .cons [1, 83] (st := ⟨chars! "__STYX_SCHEMA_" ++ symbolSuffix storeCodec (chars! "a"), _⟩) ?_
    (.cons [7] (st := ⟨chars! "__STYX_SCHEMA_" ++ symbolSuffix storeCodec (chars! "b"), _⟩) ?_ (.nil [0])) <;>
    decide +kernel

example : (extractSchemas storeCodec programBytes 500).map (fun r => r.toOption.map (findEmbedded (chars! "b"))) =
    some (some (.ok (chars! "meta {id b}"))) := by decide +kernel

/-- The macro on a literal embeds the string denoted, under the symbol of its identifier. -/
example : ((embedInline storeCodec (chars! "r#\"meta {id 1-x}\"#")).map fun r => r.toOption.map fun st =>
    (st.symbol.take 20, st.bytes = buildBlob storeCodec (chars! "meta {id 1-x}"))) =
    some (some (chars! "__STYX_SCHEMA__1_x_0", True)) := by
  have : embedInline storeCodec (chars! "r#\"meta {id 1-x}\"#") = some (.ok
    ⟨chars! "__STYX_SCHEMA_" ++ symbolSuffix storeCodec (chars! "1-x"), buildBlob storeCodec (chars! "meta {id 1-x}")⟩) := by
    decide +kernel
  rw [this]
  simp only [Option.map_some, Except.toOption]
  simp
  rfl

end Styx.Props
