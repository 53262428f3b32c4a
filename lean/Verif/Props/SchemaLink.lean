import Verif.Lsp.SchemaLinkLemmas

/-! # Property theorems C130: the link and the hint at the declaration of the schema -/

namespace Styx.Props

open Styx Styx.Spec Styx.Cli Styx.Lsp

attribute [local irreducible] Cst.formatSource parseTree

variable {F : Type}

theorem bare_text {content path text : List Char} {v w : Value} {sp : Span} (hp : parseTree content = some (.ok v))
    (hd : DeclaredBy v w) (hsp : w.span = some sp) (hc : Covers content sp text) (psp osp : Option Span)
    (hw : w = .mk none (some (.scalar path .bare psp)) osp) : text = path := by
  subst hw
  cases hsp
  exact covers_unique hc ((C72_text content v path .bare sp psp hp (declared_node hd).1).1 rfl)

/-- **C130** (link), every document without carriage returns whose characters are all one UTF-16 unit, whose first
declaration is complete and leads to a schema that can be read, with a cache that is in order for it if the schema
comes from a program: the document gets a link.  It lies on the declaration, and it leads to a file that, once the
request is answered, holds the text of the very schema that the document is validated against.  If the declaration is
a path, this is the file next to the document and nothing is written; otherwise nothing but this file is. -/
theorem C130_link_partial {W : World F} {C : CacheEnv} {d : Disk} {doc content st : List Char} {v w : Value}
    {sf : Schema.SchemaFile F} (hs : ∀ c ∈ content, c ≠ '\r' ∧ utf16Units c = 1) (hp : parseTree content = some (.ok v))
    (ht : TidyPath doc) (habs : doc.head? = some '/') (hd : DeclaredBy v w) (hc : Complete w)
    (hst : SchemaText W d doc v none st) (hsf : W.readSchema st = some sf)
    (hcache : ∀ id cli, NamesProgram w id cli → ∃ base, C.base = some base ∧
      CacheWorks W C.mkdirs d (cachedAt C.hash base cli id st) st) :
    ∃ ops link path text sp, schemaLink W C d doc content v = some (ops, some link) ∧
      w.span = some sp ∧ Covers content sp text ∧ CutsOut content link.range.start link.range.stop text ∧
      (∀ p psp osp, w = .mk none (some (.scalar p .bare psp)) osp → text = p) ∧
      link.target = .file path ∧ HoldsText W (after d ops) path st ∧
      (∀ p, w.asStr = some p → ops = [] ∧ NextTo doc p path) ∧
      (w.asStr = none → ∀ g, W.lead path ≠ some g → after d ops g = d g) := by
  obtain ⟨r, text, sp, h1, h2, h3, h4⟩ := range_cuts hs hp hd
  obtain ⟨ops, path, g1, g2, g3, g4⟩ := resolve_file ht habs hd hc hst hsf hcache
  refine ⟨ops, ⟨r, .file path⟩, path, text, sp, ?_, h3, h4, h2, fun p psp osp hw => bare_text hp hd h3 h4 psp osp hw, rfl,
    g2, g3, ?_⟩
  · unfold schemaLink
    rw [h1]
    dsimp only
    rw [g1]
  · intro hn
    rcases hc with ⟨p, hq⟩ | ⟨hn', es, i, id, c, cli, a1, a2, a3, a4, a5⟩
    · rw [hq] at hn; cases hn
    · obtain ⟨_, _, _, h⟩ := g4 id cli ⟨hn', es, i, c, a1, a2, a3, a4, a5⟩
      exact h

/-- **C130** (link), converse: a document whose first declaration is complete gets a link only if the declared schema
is there and is a schema. -/
theorem C130_only_partial {W : World F} {C : CacheEnv} {d : Disk} {doc content : List Char} {v w : Value}
    {ops : List Op} {link : SchemaLink} (ht : TidyPath doc) (habs : doc.head? = some '/') (hd : DeclaredBy v w)
    (hc : Complete w) (h : schemaLink W C d doc content v = some (ops, some link)) :
    ∃ st sf, SchemaText W d doc v none st ∧ W.readSchema st = some sf := by
  unfold schemaLink at h
  split at h
  · cases h
  · split at h
    · cases h
    · cases h
    · rename_i _ hr
      obtain ⟨h1, sf, h2⟩ := resolve_only ht habs hd hc hr
      exact ⟨_, sf, h1, h2⟩

/-- **C130**: a document that declares no schema gets neither link nor hint, and nothing is written. -/
theorem C130_undeclared {W : World F} {C : CacheEnv} {d : Disk} {doc content : List Char} {v : Value}
    (h : ∀ w, ¬ DeclaredBy v w) :
    schemaLink W C d doc content v = some ([], none) ∧ schemaHint W C d doc content v = some ([], none) := by
  have hr : declarationRange content v = none := by
    cases hd : declarationRange content v with
    | none => rfl
    | some r =>
      exfalso
      unfold declarationRange at hd
      obtain ⟨es, h1, hd⟩ := Option.bind_eq_some_iff.1 hd
      obtain ⟨e, h2, hd⟩ := Option.bind_eq_some_iff.1 hd
      exact h e.value (find_declared.2 ⟨_, _, h1, h2, rfl⟩)
  unfold schemaLink schemaHint
  rw [hr]
  exact ⟨rfl, rfl⟩

/-- **C130** (hint), every document as above: a hint stands right after the declaration.  It shows the first line of
the description and the version of the very schema that the document is validated against; its tooltip shows the
identifier, and the description if it has several lines. -/
theorem C130_hint_partial {W : World F} {C : CacheEnv} {d : Disk} {doc content : List Char} {v w : Value}
    {ops : List Op} {hint : SchemaHint} (hs : ∀ c ∈ content, c ≠ '\r' ∧ utf16Units c = 1)
    (hp : parseTree content = some (.ok v)) (ht : TidyPath doc) (habs : doc.head? = some '/') (hd : DeclaredBy v w)
    (hc : Complete w) (h : schemaHint W C d doc content v = some (ops, some hint)) :
    ∃ st sf text sp start id version description short, SchemaText W d doc v none st ∧ W.readSchema st = some sf ∧
      w.span = some sp ∧ Covers content sp text ∧ CutsOut content start hint.position text ∧
      Says st (chars! "id") id ∧ Says st (chars! "version") version ∧ Says st (chars! "description") description ∧
      FirstLine description short ∧ Announces short version hint.label ∧ Explains id description hint.tooltip := by
  obtain ⟨r, text, sp, h1, h2, h3, h4⟩ := range_cuts hs hp hd
  unfold schemaHint at h
  rw [h1] at h
  dsimp only at h
  split at h
  · cases h
  · cases h
  · rename_i _ hr
    obtain ⟨g1, sf, g2⟩ := resolve_only ht habs hd hc hr
    obtain ⟨m, hm, h'⟩ := Option.map_eq_some_iff.1 h
    cases m with
    | none => cases h'
    | some m =>
      simp only [Prod.mk.injEq] at h'
      obtain ⟨-, h'⟩ := h'
      split at h'
      · cases h'
      · rename_i hl
        cases h'
        obtain ⟨a1, a2, a3⟩ := schemaMeta_says hm
        exact ⟨_, sf, text, sp, r.start, _, _, _, _, g1, g2, h3, h4, h2, a1, a2, a3, short_first m, label_announces hl,
          tooltip_explains m⟩

/-- **C130** (hint), converse: when there would be a link and the parser does not panic on the schema, the request is
answered, and there is no hint exactly if the schema says neither a version nor a description (or an empty one). -/
theorem C130_shown_partial {W : World F} {C : CacheEnv} {d : Disk} {doc content st : List Char} {v w : Value}
    {sf : Schema.SchemaFile F} (hp : parseTree content = some (.ok v)) (ht : TidyPath doc) (habs : doc.head? = some '/')
    (hd : DeclaredBy v w) (hc : Complete w) (hst : SchemaText W d doc v none st) (hsf : W.readSchema st = some sf)
    (hcache : ∀ id cli, NamesProgram w id cli → ∃ base, C.base = some base ∧
      CacheWorks W C.mkdirs d (cachedAt C.hash base cli id st) st) (hpan : parseTree st ≠ none) :
    ∃ ops hint, schemaHint W C d doc content v = some (ops, hint) ∧
      (hint = none ↔ Says st (chars! "version") none ∧
        (Says st (chars! "description") none ∨ SaysMeta st (chars! "description") [])) := by
  obtain ⟨hn, -⟩ := declared_node hd
  obtain ⟨⟨sp, hsp, -⟩, -⟩ := C72_noted content v w hp hn (not_root hp hd)
  obtain ⟨ops, path, g1, -, -, -⟩ := resolve_file ht habs hd hc hst hsf hcache
  unfold schemaHint
  rw [declared_range hd, hsp]
  dsimp only [Option.map_some]
  rw [g1]
  dsimp only
  cases hm : schemaMeta st with
  | none =>
    unfold schemaMeta at hm
    cases hq : parseTree st with
    | none => exact absurd hq hpan
    | some x => rw [hq] at hm; cases hm
  | some o =>
    cases o with
    | none =>
      exact ⟨ops, none, rfl, fun _ => ⟨schemaMeta_none hm _, .inl (schemaMeta_none hm _)⟩, fun _ => rfl⟩
    | some m =>
      refine ⟨ops, _, rfl, ?_⟩
      obtain ⟨-, a2, a3⟩ := schemaMeta_says hm
      have key : (if hintLabel m = [] then none else some (SchemaHint.mk (rangeOf content sp).stop (hintLabel m)
          (hintTooltip m))) = none ↔ shortDescription m = none ∧ m.version = none := by
        rw [← label_empty]
        split <;> simp_all
      rw [key]
      have hf := short_first m
      constructor
      · rintro ⟨h1, h2⟩
        rw [h2] at a2
        refine ⟨a2, ?_⟩
        rw [h1] at hf
        cases hx : m.description with
        | none => rw [hx] at a3; exact .inl a3
        | some x =>
          rw [hx] at a3 hf
          cases x with
          | nil => exact .inr a3
          | cons c cs => exact hf.elim
      · rintro ⟨h1, h2⟩
        constructor
        · cases hx : m.description with
          | none => unfold shortDescription; rw [hx]; rfl
          | some x =>
            rw [hx] at a3
            rcases h2 with h2 | h2
            · exact absurd a3 (h2 x)
            · have : x = [] := by
                obtain ⟨v1, e1, m1, s1, i1, b1, b2, b3, b4, b5, b6⟩ := a3
                obtain ⟨v2, e2, m2, s2, i2, c1, c2, c3, c4, c5, c6⟩ := h2
                rw [b1] at c1; cases c1
                rw [b2] at c2; cases c2
                rw [b3] at c3; cases c3
                rw [b4] at c4; cases c4
                rw [b5] at c5; cases c5
                rw [b6] at c6; cases c6
                rfl
              unfold shortDescription
              rw [hx, this]; rfl
        · cases hx : m.version with
          | none => rfl
          | some x => rw [hx] at a2; exact absurd a2 (h1 x)

/-! ## Witnesses -/

/-- The home directory is `/h`; every text has the same hash; every directory can be made. -/
def linkCache : CacheEnv := ⟨some (chars! "/h"), fun _ => chars! "0", fun _ => true, fun _ _ => true⟩

/-- The schema that the program `x` comes with. -/
def linkSchema : List Char := chars! "meta {id i, version 1, description \" Two\nlines\"}\n"

/-- The world of `editWorld` with the file 2 in the cache; the program `x` comes with `linkSchema`. -/
def linkWorld : World Unit := { editWorld with
  lead := fun p => if p = chars! "/h/styx/schemas/embedded/x/i/0.styx" then some 2 else editWorld.lead p
  readSchema := fun _ => some [(none, .any)]
  embedded := fun p => if p = chars! "x" then some [linkSchema] else none }

/-- The document of the examples. -/
def linkDoc : List Char := chars! "@schema {id i, cli x}\na 1\n"

section
attribute [local semireducible] parseTree

theorem link_declares : ∃ v w es i c, parseTree linkDoc = some (.ok v) ∧ DeclaredBy v w ∧ w.asStr = none ∧
    w.asObject = some es ∧ objGet es (chars! "id") = some i ∧ i.asStr = some (chars! "i") ∧
    objGet es (chars! "cli") = some c ∧ c.asStr = some (chars! "x") :=
  ⟨_, _, _, _, _, rfl, find_declared.2 ⟨_, _, rfl, rfl, rfl⟩, rfl, rfl, rfl, rfl, rfl, rfl⟩

theorem link_identified : Identified linkSchema (chars! "i") := ⟨_, _, _, _, _, rfl, rfl, rfl, rfl, rfl, rfl⟩

theorem link_says : SaysMeta linkSchema (chars! "version") (chars! "1") ∧ parseTree linkSchema ≠ none :=
  ⟨⟨_, _, _, _, _, rfl, rfl, rfl, rfl, rfl, rfl⟩, (nofun)⟩

theorem link_hint : ∃ v ops, parseTree linkDoc = some (.ok v) ∧
    schemaHint linkWorld linkCache (fun _ => none) (chars! "/p/a.styx") linkDoc v =
      some (ops, some ⟨⟨0, 21⟩, chars! " — Two (1)", some (chars! "Schema ID: i\n\n Two\nlines")⟩) :=
  ⟨_, _, rfl, rfl⟩

end

/-- The conditions are met: a document that declares a schema of a program, whose cache is empty. -/
example : ∃ v w, parseTree linkDoc = some (.ok v) ∧ (∀ c ∈ linkDoc, c ≠ '\r' ∧ utf16Units c = 1) ∧
    TidyPath (chars! "/p/a.styx") ∧ DeclaredBy v w ∧ Complete w ∧
    SchemaText linkWorld (fun _ => none) (chars! "/p/a.styx") v none linkSchema ∧ parseTree linkSchema ≠ none ∧
    linkWorld.readSchema linkSchema = some [(none, .any)] ∧
    ∀ id cli, NamesProgram w id cli → ∃ base, linkCache.base = some base ∧
      CacheWorks linkWorld linkCache.mkdirs (fun _ => none) (cachedAt linkCache.hash base cli id linkSchema) linkSchema := by
  obtain ⟨v, w, es, i, c, h1, h2, h3, h4, h5, h6, h7, h8⟩ := link_declares
  refine ⟨v, w, h1, by decide, edit_tidy, h2, .inr ⟨h3, es, i, _, c, _, h4, h5, h6, h7, h8⟩,
    .identified (before := []) (after := []) h2 h3 h4 h7 h8 h5 h6 rfl link_identified (by simp), link_says.2, rfl, ?_⟩
  rintro id cli ⟨-, es', i', c', b1, b2, b3, b4, b5⟩
  rw [h4] at b1; cases b1
  rw [h5] at b2; cases b2
  rw [h6] at b3; cases b3
  rw [h7] at b4; cases b4
  rw [h8] at b5; cases b5
  exact ⟨_, rfl, rfl, .inr ⟨2, by decide, rfl, rfl, rfl, rfl, List.append_nil _⟩⟩

section
attribute [local semireducible] parseTree

/-- **C130** is false: with a first declaration that is neither path nor object, the link lies on this one, but leads
to the schema of the second. -/
theorem C130_false_place : ∃ (W : World Unit) (d : Disk) (content : List Char) (v : Value) (link : SchemaLink),
    parseTree content = some (.ok v) ∧
    (∀ C, schemaLink W C d (chars! "/p/a.styx") content v = some ([], some link)) ∧
    CutsOut content link.range.start link.range.stop (chars! "(s)") ∧ link.target = .file (chars! "/p/s.styx") :=
  ⟨editWorld, editDisk [] (some (chars! "s")), chars! "@schema (s)\na 1\n@schema s.styx\n", _,
    ⟨⟨⟨0, 8⟩, ⟨0, 11⟩⟩, .file (chars! "/p/s.styx")⟩, rfl, fun _ => rfl,
    ⟨chars! "@schema ", chars! "\na 1\n@schema s.styx\n", rfl, rfl, rfl⟩, rfl⟩

/-- **C130** is false: when the file in the cache holds something else (a part of the schema after a crash, or another
schema with the same hash), the link leads to it and it stays as it is. -/
theorem C130_false_cache : ∃ (W : World Unit) (C : CacheEnv) (d : Disk) (v : Value) (link : SchemaLink)
    (path : List Char), parseTree linkDoc = some (.ok v) ∧
    schemaLink W C d (chars! "/p/a.styx") linkDoc v = some ([], some link) ∧ link.target = .file path ∧
    HoldsText W d path (chars! "me") ∧ SchemaText W d (chars! "/p/a.styx") v none linkSchema := by
  obtain ⟨v, w, es, i, c, h1, h2, h3, h4, h5, h6, h7, h8⟩ := link_declares
  refine ⟨linkWorld, linkCache, fun f => if f = 2 then some (utf8 (chars! "me")) else none, v,
    ⟨⟨⟨0, 8⟩, ⟨0, 21⟩⟩, .file (chars! "/h/styx/schemas/embedded/x/i/0.styx")⟩, _, h1, ?_, rfl, ⟨2, rfl, rfl, rfl⟩,
    .identified (before := []) (after := []) h2 h3 h4 h7 h8 h5 h6 rfl link_identified (by simp)⟩
  cases h1
  rfl

/-- **C130** is false of descriptions that begin with an empty line: the hint is a dash. -/
theorem C130_false_blank : ∃ (source : List Char) (m : SchemaMeta), schemaMeta source = some (some m) ∧
    m.description = some (chars! "\nText") ∧ hintLabel m = chars! " — " :=
  ⟨chars! "meta {description \"\nText\"}", _, rfl, rfl, rfl⟩

end

end Styx.Props
