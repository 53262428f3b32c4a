import Verif.Lsp.RunnerLemmas
import Verif.Lsp.SchemaLinkSpec
import Verif.Props.Actions
import Verif.Props.Load
import Verif.Props.Package

/-! # Lemmas about the link and the hint at the declaration of the schema -/

namespace Styx.Lsp

open Styx Styx.Spec Styx.Cli Styx.Props

attribute [local irreducible] Cst.formatSource parseTree

variable {F : Type}

/-! ## The declaration -/

theorem declared_ref {v w : Value} (hd : DeclaredBy v w) (hc : Complete w) :
    (∃ path, w.asStr = some path ∧ findSchemaDeclaration v = some (.external path)) ∨
    (∃ id cli, NamesProgram w id cli ∧ findSchemaDeclaration v = some (.embedded id cli)) := by
  obtain ⟨t, es, sp, s, bef, k, doc, aft, rfl, rfl, hk, hb⟩ := hd
  have hk' : isSchemaTag k = true := (isSchemaTag_name _).2 hk
  have hl : findSchemaDeclaration (.mk t (some (.object (bef ++ .mk k w doc :: aft) sp)) s) =
      (declaredBy (.mk k w doc)).or (aft.findSome? declaredBy) := by
    show (bef ++ Entry.mk k w doc :: aft).findSome? declaredBy = _
    rw [List.findSome?_append]
    have : bef.findSome? declaredBy = none := by
      rw [List.findSome?_eq_none_iff]
      intro e he
      unfold declaredBy
      rw [if_neg]
      intro h
      exact hb e he ((isSchemaTag_name _).1 h)
    rw [this, Option.none_or, List.findSome?_cons]
    cases declaredBy (.mk k w doc) <;> rfl
  rw [hl]
  rcases hc with ⟨path, hp⟩ | ⟨hn, es, i, id, c, cli, h1, h2, h3, h4, h5⟩
  · refine .inl ⟨path, hp, ?_⟩
    have hu : w.isUnit = false := by
      obtain ⟨tg, p, sp'⟩ := w
      cases tg <;> cases p <;> first | rfl | cases hp
    have : declaredBy (.mk k w doc) = some (.external path) := by
      unfold declaredBy
      rw [if_pos (show isSchemaTag (Entry.mk k w doc).key = true from hk')]
      simp [Entry.value, hu, hp]
    rw [this]; rfl
  · refine .inr ⟨id, cli, ⟨hn, es, i, c, h1, h2, h3, h4, h5⟩, ?_⟩
    have hu : w.isUnit = false := by
      obtain ⟨tg, p, sp'⟩ := w
      cases tg <;> cases p <;> first | rfl | cases h1
    have : declaredBy (.mk k w doc) = some (.embedded id cli) := by
      unfold declaredBy
      rw [if_pos (show isSchemaTag (Entry.mk k w doc).key = true from hk')]
      simp [Entry.value, hu, hn, embeddedRef, h1, h2, h3, h4, h5]
    rw [this]; rfl

theorem declared_range {content : List Char} {v w : Value} (hd : DeclaredBy v w) :
    declarationRange content v = w.span.map (rangeOf content) := by
  obtain ⟨t, es, sp, s, bef, k, doc, aft, rfl, rfl, hk, hb⟩ := hd
  have hk' : isSchemaTag k = true := (isSchemaTag_name _).2 hk
  show ((bef ++ Entry.mk k w doc :: aft).find? fun e => isSchemaTag e.key).bind _ = _
  rw [List.find?_append, List.find?_eq_none.2, Option.none_or, List.find?_cons_of_pos]
  · rfl
  · exact hk'
  · intro e he h
    exact hb e he ((isSchemaTag_name _).1 h)

theorem declared_node {v w : Value} (hd : DeclaredBy v w) : Node w v ∧ Child w v := by
  obtain ⟨t, es, sp, s, bef, k, doc, aft, rfl, rfl, hk, hb⟩ := hd
  have : Child w (.mk t (some (.object (bef ++ .mk k w doc :: aft) sp)) s) := .value (k := k) (d := doc) (by simp)
  exact ⟨.inside this .self, this⟩

theorem not_root {content : List Char} {v w : Value} (hp : parseTree content = some (.ok v)) (hd : DeclaredBy v w) :
    w ≠ v := by
  rintro rfl
  obtain ⟨t, es, sp, s, bef, k, doc, aft, h, rfl, -, -⟩ := hd
  have := congrArg sizeOf h
  simp only [Value.mk.sizeOf_spec, Option.some.sizeOf_spec, Payload.object.sizeOf_spec] at this
  have h2 : sizeOf (Entry.mk k w doc) < sizeOf (bef ++ Entry.mk k w doc :: aft) :=
    List.sizeOf_lt_of_mem (by simp)
  simp only [Entry.mk.sizeOf_spec] at h2
  omega

theorem range_cuts {content : List Char} {v w : Value} (hs : ∀ c ∈ content, c ≠ '\r' ∧ utf16Units c = 1)
    (hp : parseTree content = some (.ok v)) (hd : DeclaredBy v w) :
    ∃ r text sp, declarationRange content v = some r ∧ CutsOut content r.start r.stop text ∧ w.span = some sp ∧
      Covers content sp text := by
  obtain ⟨hn, hc⟩ := declared_node hd
  obtain ⟨⟨sp, hsp, -⟩, -⟩ := C72_noted content v w hp hn (not_root hp hd)
  obtain ⟨text, hcov⟩ := C72_in_source content v sp hp ⟨w, hn, .inl hsp⟩
  refine ⟨rangeOf content sp, text, sp, by rw [declared_range hd, hsp]; rfl, ?_, hsp, hcov⟩
  obtain ⟨a, b, rfl, h1, h2⟩ := hcov
  rw [← utf8Len_append] at h2
  refine ⟨a, b, rfl, ?_, ?_⟩
  · show fromPosition _ (offsetToPosition _ sp.start) = _
    rw [h1, List.append_assoc]
    exact C51_send_partial a (text ++ b) (by rw [← List.append_assoc]; exact hs)
  · show fromPosition _ (offsetToPosition _ sp.stop) = _
    rw [h2]
    exact C51_send_partial (a ++ text) b hs

/-! ## The text of the schema -/

theorem loadSource_iff {W : World F} {d : Disk} {doc : List Char} {v w : Value} (ht : TidyPath doc)
    (habs : doc.head? = some '/') (hd : DeclaredBy v w) (hc : Complete w) {r : SchemaRef}
    (hr : findSchemaDeclaration v = some r) (st : List Char) :
    loadSource W d doc r = .ok st ↔ SchemaText W d doc v none st := by
  obtain ⟨r', h1, h2⟩ := loadSchema_eq
    (W := { W with readSchema := fun t => if t = st then some [] else none }) (d := d) ht habs hd hc
  rw [hr] at h1
  cases h1
  have hl : loadSource { W with readSchema := fun t => if t = st then some [] else none } d doc r =
      loadSource W d doc r := by
    cases r <;> rfl
  have h3 := h2 []
  unfold loadSchema at h3
  rw [hl] at h3
  have tr : ∀ x, SchemaText { W with readSchema := fun t => if t = st then some [] else none } d doc v none x ↔
      SchemaText W d doc v none x := by
    intro x
    constructor
    · intro h
      cases h with
      | file a b c e f => exact .file a b c e f
      | first a b c e f g h => exact .first a b c e f g h
      | identified a b c e f g h i j k => exact .identified a b c e f g h i j k
    · intro h
      cases h with
      | file a b c e f => exact .file a b c e f
      | first a b c e f g h => exact .first a b c e f g h
      | identified a b c e f g h i j k => exact .identified a b c e f g h i j k
  simp only [tr] at h3
  constructor
  · intro h
    rw [h] at h3
    obtain ⟨x, hx, hy⟩ := h3.1 (by simp)
    have : x = st := by
      by_cases he : x = st
      · exact he
      · simp [he] at hy
    exact this ▸ hx
  · intro h
    have h4 := h3.2 ⟨st, h, by simp⟩
    cases hq : loadSource W d doc r with
    | error e => rw [hq] at h4; cases h4
    | ok t =>
      rw [hq] at h4
      dsimp only at h4
      by_cases he : t = st
      · rw [he]
      · simp [he] at h4

theorem pathJoin_absolute {a b : List Char} (h : a.head? = some '/') : (Cli.pathJoin a b).head? = some '/' := by
  unfold Cli.pathJoin
  cases a with
  | nil => cases h
  | cons c cs =>
    cases h
    rw [if_neg (by simp)]
    split <;> rfl

theorem resolvePath_absolute {doc path place : List Char} (ht : TidyPath doc) (habs : doc.head? = some '/')
    (h : resolvePath path doc = some place) : place.head? = some '/' := by
  unfold resolvePath at h
  split at h
  · cases h
  · split at h
    · cases h; assumption
    · cases ht with
      | plain hs =>
        exfalso
        cases doc with
        | nil => cases habs
        | cons c cs => cases habs; simp at hs
      | @under dir name h1 h2 h3 h4 h5 =>
        rw [parent_under h1 h2 h3 h4 h5] at h
        simp only [Option.map_some, Option.some.injEq] at h
        subst h
        refine pathJoin_absolute ?_
        split
        · rfl
        · cases dir with
          | nil => contradiction
          | cons c cs => simpa using habs

/-! ## The address -/

theorem write_holds {W : World F} {d : Disk} {path text : List Char} {f : Nat} (hf : W.lead path = some f)
    (hr : W.mayRead f = true) (hs : (W.writeFile path (Ffi.bytesOf text)).2 = .success) :
    HoldsText W (after d (W.writeFile path (Ffi.bytesOf text)).1) path text := by
  obtain ⟨ps, h1, h2, h3⟩ := writeFile_success hf hs
  refine ⟨f, hf, hr, ?_⟩
  have := after_write_same f ps d (writeOps f ps).length
  rw [List.take_of_length_le (by omega)] at this
  rw [h3, this, List.take_of_length_le, h1]
  · rfl
  · show ps.length ≤ ((ps.map _).length + 1)
    simp

/-- What a cache in order does for a schema. -/
theorem cache_works {W : World F} {C : CacheEnv} {d : Disk} {base cli id st : List Char} (hb : C.base = some base)
    (hw : CacheWorks W C.mkdirs d (cachedAt C.hash base cli id st) st) :
    (cacheSchema W C d (cli ++ '/' :: id) st).2 = some (cachedAt C.hash base cli id st) ∧
    HoldsText W (after d (cacheSchema W C d (cli ++ '/' :: id) st).1) (cachedAt C.hash base cli id st) st ∧
    ∀ g, W.lead (cachedAt C.hash base cli id st) ≠ some g →
      after d (cacheSchema W C d (cli ++ '/' :: id) st).1 g = d g := by
  unfold cacheSchema
  rw [hb]
  dsimp only
  rw [show embeddedCachePath C.hash base (cli ++ '/' :: id) st = cachedAt C.hash base cli id st from rfl]
  generalize cachedAt C.hash base cli id st = path at hw
  obtain ⟨-, ⟨f, h1, h2, h3⟩ | ⟨f, h1, h2, h3, h4, h5, h6⟩⟩ := hw
  · have he : fileExists W d path = true := by simp [fileExists, h1, h3]
    rw [if_pos he]
    exact ⟨rfl, ⟨f, h1, h2, h3⟩, fun _ _ => rfl⟩
  · have he : ¬ fileExists W d path = true := by simp [fileExists, h1, h2]
    have hs : (W.writeFile path (Ffi.bytesOf st)).2 = .success := by
      unfold World.writeFile
      rw [h1]
      dsimp only
      rw [if_pos h5]
      exact if_pos h6
    rw [if_neg he, if_pos h3]
    refine ⟨if_pos hs, write_holds h1 h4 hs, fun g hg => ?_⟩
    have := writeFile_other W path (Ffi.bytesOf st) d (W.writeFile path (Ffi.bytesOf st)).1.length g hg
    rwa [List.take_length] at this

theorem resolve_file {W : World F} {C : CacheEnv} {d : Disk} {doc st : List Char} {v w : Value}
    {sf : Schema.SchemaFile F} (ht : TidyPath doc) (habs : doc.head? = some '/') (hd : DeclaredBy v w) (hc : Complete w)
    (hst : SchemaText W d doc v none st) (hsf : W.readSchema st = some sf)
    (hcache : ∀ id cli, NamesProgram w id cli → ∃ base, C.base = some base ∧
      CacheWorks W C.mkdirs d (cachedAt C.hash base cli id st) st) :
    ∃ ops path, resolveTarget W C d doc v = (ops, .ok (st, .file path)) ∧ HoldsText W (after d ops) path st ∧
      (∀ p, w.asStr = some p → ops = [] ∧ NextTo doc p path) ∧
      ∀ id cli, NamesProgram w id cli → ∃ base, C.base = some base ∧ path = cachedAt C.hash base cli id st ∧
        ∀ g, W.lead path ≠ some g → after d ops g = d g := by
  rcases declared_ref hd hc with ⟨p, hp, hr⟩ | ⟨id, cli, hn, hr⟩
  · have hl := (loadSource_iff ht habs hd hc hr st).2 hst
    have hl' := hl
    unfold loadSource at hl'
    dsimp only at hl'
    cases hq : resolvePath p doc with
    | none => rw [hq] at hl'; cases hl'
    | some place =>
      rw [hq] at hl'
      dsimp only at hl'
      cases hx : W.readText d place with
      | error e => rw [hx] at hl'; cases hl'
      | ok t =>
        rw [hx] at hl'
        cases hl'
        have ha := resolvePath_absolute ht habs hq
        refine ⟨[], place, ?_, (readText_iff W d place st).1 hx, ?_, ?_⟩
        · unfold resolveTarget
          rw [hr]
          dsimp only
          rw [hl]
          dsimp only
          rw [hsf]
          dsimp only [toUri]
          rw [hq]
          simp only [Option.bind_some, fileUrl]
          rw [if_pos ha]
        · intro p' hp'
          rw [hp] at hp'
          cases hp'
          refine ⟨rfl, ?_⟩
          have hne : doc ≠ ['-'] := by rintro rfl; cases habs
          have hok := (resolvePath_eq ht habs place).1 hq
          have hu : ¬ IsUrl p := fun hu => by rw [resolve_url hu] at hok; cases hok
          exact (resolve_nextTo ht hne hu).1 hok
        · rintro id cli ⟨h, -⟩
          rw [hp] at h; cases h
  · have hl := (loadSource_iff ht habs hd hc hr st).2 hst
    obtain ⟨base, hb, hw⟩ := hcache id cli hn
    obtain ⟨h1, h2, h3⟩ := cache_works hb hw
    refine ⟨_, _, ?_, h2, ?_, ?_⟩
    · unfold resolveTarget
      rw [hr]
      dsimp only
      rw [hl]
      dsimp only
      rw [hsf]
      dsimp only [toUri]
      rw [h1]
      dsimp only [fileUrl]
      rw [if_pos hw.1]
    · intro p hp
      rw [hn.1] at hp; cases hp
    · intro id' cli' hn'
      obtain ⟨-, es, i, c, a1, a2, a3, a4, a5⟩ := hn
      obtain ⟨-, es', i', c', b1, b2, b3, b4, b5⟩ := hn'
      rw [a1] at b1; cases b1
      rw [a2] at b2; cases b2
      rw [a3] at b3; cases b3
      rw [a4] at b4; cases b4
      rw [a5] at b5; cases b5
      exact ⟨base, hb, rfl, h3⟩

theorem resolve_only {W : World F} {C : CacheEnv} {d : Disk} {doc st : List Char} {v w : Value} {ops : List Op}
    {target : Target} (ht : TidyPath doc) (habs : doc.head? = some '/') (hd : DeclaredBy v w) (hc : Complete w)
    (h : resolveTarget W C d doc v = (ops, .ok (st, target))) :
    SchemaText W d doc v none st ∧ ∃ sf, W.readSchema st = some sf := by
  have hr : ∃ r, findSchemaDeclaration v = some r := by
    rcases declared_ref hd hc with ⟨p, -, hr⟩ | ⟨id, cli, -, hr⟩ <;> exact ⟨_, hr⟩
  obtain ⟨r, hr⟩ := hr
  unfold resolveTarget at h
  rw [hr] at h
  dsimp only at h
  cases hl : loadSource W d doc r with
  | error e => rw [hl] at h; cases h
  | ok t =>
    rw [hl] at h
    dsimp only at h
    cases hs : W.readSchema t with
    | none => rw [hs] at h; cases h
    | some sf =>
      rw [hs] at h
      simp only [Prod.mk.injEq] at h
      obtain ⟨-, h⟩ := h
      split at h
      · cases h
        exact ⟨(loadSource_iff ht habs hd hc hr _).1 hl, sf, hs⟩
      · cases h

/-! ## The texts of the hint -/

theorem schemaMeta_says {st : List Char} {m : SchemaMeta} (h : schemaMeta st = some (some m)) :
    Says st (chars! "id") m.id ∧ Says st (chars! "version") m.version ∧ Says st (chars! "description") m.description := by
  unfold schemaMeta at h
  cases hp : parseTree st with
  | none => rw [hp] at h; cases h
  | some x =>
    cases x with
    | error e => rw [hp] at h; cases h
    | ok v =>
      rw [hp] at h
      simp only [Option.map_some, Option.some.injEq] at h
      obtain ⟨es, h1, h⟩ := Option.bind_eq_some_iff.1 h
      obtain ⟨e, h2, h⟩ := Option.bind_eq_some_iff.1 h
      obtain ⟨ms, h3, rfl⟩ := Option.map_eq_some_iff.1 h
      have hm : objGet es (chars! "meta") = some e.value := by
        unfold objGet; rw [h2]; rfl
      have key : ∀ k, Says st k ((objGet ms k).bind Value.asStr) := by
        intro k
        cases hk : (objGet ms k).bind Value.asStr with
        | some t =>
          obtain ⟨i, h4, h5⟩ := Option.bind_eq_some_iff.1 hk
          exact ⟨v, es, _, ms, i, hp, h1, hm, h3, h4, h5⟩
        | none =>
          rintro t ⟨v', es', m', ms', i', g1, g2, g3, g4, g5, g6⟩
          rw [hp] at g1; cases g1
          rw [h1] at g2; cases g2
          rw [hm] at g3; cases g3
          rw [h3] at g4; cases g4
          rw [g5] at hk
          simp only [Option.bind_some] at hk
          rw [g6] at hk; cases hk
      exact ⟨key _, key _, key _⟩

theorem schemaMeta_none {st : List Char} (h : schemaMeta st = some none) (k t : List Char) : ¬ SaysMeta st k t := by
  rintro ⟨v, es, m, ms, i, g1, g2, g3, g4, g5, g6⟩
  unfold schemaMeta at h
  rw [g1] at h
  simp only [Option.map_some, Option.some.injEq, g2, Option.bind_some] at h
  unfold objGet at g3
  obtain ⟨e, he, rfl⟩ := Option.map_eq_some_iff.1 g3
  rw [he] at h
  simp only [Option.bind_some] at h
  rw [g4] at h
  cases h

theorem trim_trimmed (l : List Char) : Trimmed l (trim l) := by
  obtain ⟨a, b, h1, h2, h3⟩ := trim_parts l
  refine ⟨a, b, h1, h2, h3, ?_, ?_⟩
  · intro c hc
    have : (trim l) <+: trimStart l := by
      unfold trim
      have := List.dropWhile_suffix (l := (trimStart l).reverse) isWhitespace
      simpa using List.reverse_prefix.2 this
    obtain ⟨z, hz⟩ := this
    have hh : (trimStart l).head? = some c := by
      rw [← hz]
      cases ht : trim l with
      | nil => rw [ht] at hc; cases hc
      | cons x xs => rw [ht] at hc; cases hc; rfl
    have := List.head?_dropWhile_not isWhitespace l
    unfold trimStart at hh
    rw [hh] at this
    simpa using this
  · intro c hc
    unfold trim at hc
    rw [List.getLast?_reverse] at hc
    have := List.head?_dropWhile_not isWhitespace (trimStart l).reverse
    rw [hc] at this
    simpa using this

theorem linesAux_cons (acc : List Char) (c : Char) (s : List Char) : linesAux acc (c :: s) = if c = '\n' then
    (match acc with
      | '\r' :: acc => acc.reverse
      | acc => acc.reverse) :: linesAux [] s
    else linesAux (c :: acc) s := by
  cases acc <;> rfl

theorem linesAux_first (s : List Char) : ∀ acc : List Char, '\n' ∉ acc → acc ≠ [] ∨ s ≠ [] →
    ∃ l, (linesAux acc s).head? = some l ∧ ∃ line, '\n' ∉ line ∧
      (acc.reverse ++ s = line ∨ ∃ rest, acc.reverse ++ s = line ++ '\n' :: rest) ∧ (line = l ∨ line = l ++ ['\r']) := by
  induction s with
  | nil =>
    intro acc ha h
    cases acc with
    | nil => simp at h
    | cons c cs => exact ⟨_, rfl, _, fun h => ha (List.mem_reverse.1 h), .inl (List.append_nil _), .inl rfl⟩
  | cons c s ih =>
    intro acc ha h
    rw [linesAux_cons]
    by_cases hc : c = '\n'
    · subst hc
      rw [if_pos rfl]
      refine ⟨_, rfl, acc.reverse, by simpa using ha, .inr ⟨s, rfl⟩, ?_⟩
      split
      · right; simp
      · left; rfl
    · rw [if_neg hc]
      obtain ⟨l, h1, line, h2, h3, h4⟩ := ih (c :: acc) (by simp [ha, Ne.symm hc]) (.inl (by simp))
      exact ⟨l, h1, line, h2, by simpa using h3, h4⟩

theorem trimmed_cr {line short : List Char} (h : Trimmed line short) : Trimmed (line ++ ['\r']) short := by
  obtain ⟨a, b, h1, h2, h3, h4, h5⟩ := h
  refine ⟨a, b ++ ['\r'], by rw [h1]; simp, h2, ?_, h4, h5⟩
  intro c hc
  rcases List.mem_append.1 hc with hc | hc
  · exact h3 c hc
  · simp only [List.mem_singleton] at hc
    subst hc; decide

theorem short_first (m : SchemaMeta) : FirstLine m.description (shortDescription m) := by
  unfold shortDescription
  cases hd : m.description with
  | none => trivial
  | some x =>
    cases x with
    | nil => trivial
    | cons c cs =>
      obtain ⟨l, h1, line, h2, h3, h4⟩ := linesAux_first (c :: cs) [] (by simp) (.inr (by simp))
      simp only [Option.bind_some]
      rw [show textLines (c :: cs) = linesAux [] (c :: cs) from rfl, h1]
      refine ⟨line, ?_, h2, by simpa using h3⟩
      rcases h4 with rfl | rfl
      · exact trim_trimmed _
      · exact trimmed_cr (trim_trimmed _)

theorem label_announces {m : SchemaMeta} (h : hintLabel m ≠ []) :
    Announces (shortDescription m) m.version (hintLabel m) := by
  unfold hintLabel at h ⊢
  cases h1 : shortDescription m with
  | some desc =>
    cases h2 : m.version with
    | some ver => exact .both _ _
    | none => exact .plain _
  | none =>
    cases h2 : m.version with
    | some ver => exact .version _
    | none => rw [h1, h2] at h; exact absurd rfl h

theorem label_empty {m : SchemaMeta} : hintLabel m = [] ↔ shortDescription m = none ∧ m.version = none := by
  unfold hintLabel
  split <;> simp_all

theorem tooltip_explains (m : SchemaMeta) : Explains m.id m.description (hintTooltip m) := by
  unfold hintTooltip tooltipParts
  cases hi : m.id with
  | none =>
    cases hd : m.description with
    | none => exact .nothing (by simp)
    | some x =>
      by_cases hx : '\n' ∈ x
      · simp only [hx, if_true]
        have := Explains.description x hx
        simpa [List.intercalate] using this
      · simp only [hx, if_false]
        exact .nothing (by simpa using hx)
  | some i =>
    cases hd : m.description with
    | none =>
      simp only [List.append_nil, List.cons_ne_nil, if_false]
      have := Explains.id i (desc := none) (by simp)
      simpa [List.intercalate] using this
    | some x =>
      by_cases hx : '\n' ∈ x
      · simp only [hx, if_true]
        have := Explains.both i x hx
        simpa [List.intercalate] using this
      · simp only [hx, if_false]
        have := Explains.id i (desc := some x) (by simpa using hx)
        simpa [List.intercalate] using this

end Styx.Lsp
