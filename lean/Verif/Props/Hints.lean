import Verif.Lsp.HintsSpec

/-! # Property theorems C121: which schema is suggested for a file -/

namespace Styx.Props

open Styx Styx.Lsp Styx.Lsp.Hints

/-- The registry, as it is read from its text (`C121_registry`). -/
def registry : List Hint :=
  [⟨chars! "captain", [chars! "**/.config/captain/config.styx"], chars! "crate:captain-config@1", some (chars! "captain")⟩,
   ⟨chars! "dodeca", [chars! "**/.config/dodeca.styx"], chars! "crate:dodeca-config@1", some (chars! "ddc")⟩,
   ⟨chars! "tracey", [chars! "**/.config/tracey/config.styx"], chars! "crate:tracey-config@1", some (chars! "tracey")⟩,
   ⟨chars! "dibs", [chars! "**/.config/dibs.styx"], chars! "crate:dibs@1", some (chars! "dibs")⟩,
   ⟨chars! "dibs-queries", [chars! "**/.dibs-queries/*.styx"], chars! "crate:dibs-queries@1", some (chars! "dibs")⟩,
   ⟨chars! "styx-lsp", [chars! "{userconfig}/styx/config.styx"], chars! "crate:styx-lsp-config@1", some (chars! "styx")⟩,
   ⟨chars! "squiggles", [chars! "**/.config/squiggles/config.styx"], chars! "crate:squiggles-config@1",
     some (chars! "squiggles")⟩]

/-- **C121**: the registry that is built into the server can be read, and these are its hints. -/
theorem C121_registry : loadRegistry registrySource = some registry := by decide +kernel

/-! ## Patterns -/

/-- The tokens of a text without wildcards. -/
theorem globMatches_chars (x : List Char) : ∀ s, globMatches (x.map .char) s = true ↔ s = x := by
  induction x with
  | nil => intro s; cases s <;> simp [globMatches]
  | cons c x ih =>
    intro s
    cases s with
    | nil => simp [globMatches]
    | cons d s =>
      rw [List.map_cons, globMatches]
      simp only [Bool.and_eq_true, beq_iff_eq, ih, List.cons.injEq]
      grind

theorem globMatches_append (x : List Char) (ts : List Hints.Tok) : ∀ s,
    globMatches (x.map .char ++ ts) s = true ↔ ∃ r, s = x ++ r ∧ globMatches ts r = true := by
  induction x with
  | nil => intro s; simp
  | cons c x ih =>
    intro s
    cases s with
    | nil => simp [globMatches]
    | cons d s =>
      rw [List.map_cons, List.cons_append, globMatches]
      simp only [Bool.and_eq_true, beq_iff_eq, ih, List.cons_append, List.cons.injEq]
      grind

theorem dirsLoop_iff (k : List Char → Bool) : ∀ s,
    dirsLoop k s = true ↔ ∃ p r, s = p ++ '/' :: r ∧ k r = true := by
  intro s
  induction s with
  | nil => simp [dirsLoop]
  | cons c s ih =>
    rw [dirsLoop, Bool.or_eq_true, ih]
    constructor
    · rintro (h | ⟨p, r, rfl, h⟩)
      · simp only [Bool.and_eq_true, beq_iff_eq] at h
        exact ⟨[], s, by simp [h.1], h.2⟩
      · exact ⟨c :: p, r, rfl, h⟩
    · rintro ⟨p, r, hs, h⟩
      cases p with
      | nil => simp only [List.nil_append, List.cons.injEq] at hs; obtain ⟨rfl, rfl⟩ := hs; exact .inl (by simp [h])
      | cons d p => simp only [List.cons_append, List.cons.injEq] at hs; exact .inr ⟨p, r, hs.2, h⟩

theorem seqLoop_iff (k : List Char → Bool) : ∀ s,
    (k s || seqLoop k s) = true ↔ ∃ p r, s = p ++ r ∧ k r = true := by
  intro s
  induction s with
  | nil =>
    simp only [seqLoop, Bool.or_false]
    constructor
    · intro h; exact ⟨[], [], rfl, h⟩
    · rintro ⟨p, r, h, hk⟩
      rw [List.nil_eq, List.append_eq_nil_iff] at h
      rw [← h.2]; exact hk
  | cons c s ih =>
    rw [Bool.or_eq_true, seqLoop, ih]
    constructor
    · rintro (h | ⟨p, r, rfl, h⟩)
      · exact ⟨[], c :: s, rfl, h⟩
      · exact ⟨c :: p, r, rfl, h⟩
    · rintro ⟨p, r, hs, h⟩
      cases p with
      | nil => exact .inl (by rw [show c :: s = r from hs]; exact h)
      | cons d p => simp only [List.cons_append, List.cons.injEq] at hs; exact .inr ⟨p, r, hs.2, h⟩

/-- A pattern `**/x` matches an absolute path exactly when it ends with `/x`. -/
theorem dirs_iff {x : List Char} {file : List Char} (habs : file.head? = some '/') (hx : x.head? ≠ some '/') :
    globMatches (.dirs :: x.map .char) file = true ↔ ∃ dirs, file = dirs ++ '/' :: x := by
  rw [globMatches, Bool.or_eq_true, globMatches_chars, dirsLoop_iff]
  constructor
  · rintro (rfl | ⟨p, r, rfl, h⟩)
    · exact absurd habs hx
    · rw [globMatches_chars] at h
      exact ⟨p, by rw [h]⟩
  · rintro ⟨p, rfl⟩
    exact .inr ⟨p, x, rfl, (globMatches_chars x x).2 rfl⟩

/-- A pattern `**/x*y` matches an absolute path exactly when it is some text, `/x`, some text and `y`. -/
theorem dirs_seq_iff {x y : List Char} {file : List Char} (habs : file.head? = some '/')
    (hx : x ≠ [] ∧ x.head? ≠ some '/') :
    globMatches (.dirs :: (x.map .char ++ .seq :: y.map .char)) file = true ↔
      ∃ dirs rest, file = dirs ++ '/' :: x ++ rest ++ y := by
  have key : ∀ r, globMatches (x.map .char ++ .seq :: y.map .char) r = true ↔ ∃ rest, r = x ++ rest ++ y := by
    intro r
    rw [globMatches_append]
    constructor
    · rintro ⟨q, rfl, h⟩
      rw [globMatches, seqLoop_iff] at h
      obtain ⟨p, r, rfl, h⟩ := h
      rw [globMatches_chars] at h
      exact ⟨p, by rw [h, List.append_assoc]⟩
    · rintro ⟨rest, rfl⟩
      refine ⟨rest ++ y, by rw [List.append_assoc], ?_⟩
      rw [globMatches, seqLoop_iff]
      exact ⟨rest, y, rfl, (globMatches_chars y y).2 rfl⟩
  rw [globMatches, Bool.or_eq_true, key, dirsLoop_iff]
  constructor
  · rintro (⟨rest, rfl⟩ | ⟨p, r, rfl, h⟩)
    · exfalso
      cases x with
      | nil => exact hx.1 rfl
      | cons c x => exact hx.2 (by simpa using habs)
    · obtain ⟨rest, rfl⟩ := (key r).1 h
      exact ⟨p, rest, by simp⟩
  · rintro ⟨p, rest, rfl⟩
    exact .inr ⟨p, _, by simp, (key _).2 ⟨rest, rfl⟩⟩

theorem replaceGo_plain {pat rep : List Char} {c : Char} (hp : pat.head? = some c) : ∀ {s : List Char}, c ∉ s →
    replaceGo pat rep 0 s = s
  | [], _ => rfl
  | d :: s, h => by
    simp only [List.mem_cons, not_or] at h
    rw [replaceGo, if_neg, replaceGo_plain hp h.2]
    intro hpre
    cases pat with
    | nil => simp at hp
    | cons b pat =>
      simp only [List.head?_cons, Option.some.injEq] at hp
      subst hp
      simp only [List.isPrefixOf, Bool.and_eq_true, beq_iff_eq] at hpre
      exact h.1 hpre.1

theorem contains_plain {pat : List Char} {c : Char} (hp : pat.head? = some c) : ∀ {s : List Char}, c ∉ s →
    Hints.contains pat s = false
  | [], _ => by cases pat <;> simp_all [Hints.contains]
  | d :: s, h => by
    simp only [List.mem_cons, not_or] at h
    rw [Hints.contains, contains_plain hp h.2, Bool.or_false]
    cases pat with
    | nil => simp at hp
    | cons b pat =>
      simp only [List.head?_cons, Option.some.injEq] at hp
      subst hp
      simp only [List.isPrefixOf, Bool.and_eq_false_iff]
      exact .inl (by simpa using h.1)

/-- A pattern without variables stays as it is. -/
theorem expand_plain (env : Env) {p : List Char} (h : '{' ∉ p) : expand env p = p := by
  unfold expand Hints.replace
  have h1 : ∀ rep, replaceGo (chars! "{userconfig}") rep 0 p = p := fun _ => replaceGo_plain (c := '{') rfl h
  have h2 : ∀ rep, replaceGo (chars! "{home}") rep 0 p = p := fun _ => replaceGo_plain (c := '{') rfl h
  have h3 : ∀ rep, replaceGo (chars! "{git_root}") rep 0 p = p := fun _ => replaceGo_plain (c := '{') rfl h
  have h4 : Hints.contains (chars! "{git_root}") p = false := contains_plain (c := '{') rfl h
  obtain ⟨config, home, root⟩ := env
  cases config <;> cases home <;> cases root <;> simp [h1, h2, h3, h4]

/-- The pattern for the configuration of the server itself. -/
theorem expand_server {env : Env} (hc : ∀ d, env.config = some d → '{' ∉ d) :
    expand env (chars! "{userconfig}/styx/config.styx") =
      match env.config with
      | some d => d ++ chars! "/styx/config.styx"
      | none => chars! "{userconfig}/styx/config.styx" := by
  have h3 : ∀ rep, replaceGo (chars! "{git_root}") rep 0 (chars! "{userconfig}/styx/config.styx") =
      chars! "{userconfig}/styx/config.styx" := fun _ => rfl
  have h4 : Hints.contains (chars! "{git_root}") (chars! "{userconfig}/styx/config.styx") = false := rfl
  have h1 : ∀ d, replaceGo (chars! "{userconfig}") d 0 (chars! "{userconfig}/styx/config.styx") =
      d ++ chars! "/styx/config.styx" := fun _ => rfl
  have h2 : ∀ rep, replaceGo (chars! "{home}") rep 0 (chars! "{userconfig}/styx/config.styx") =
      chars! "{userconfig}/styx/config.styx" := fun _ => rfl
  unfold expand Hints.replace
  obtain ⟨config, home, root⟩ := env
  cases config with
  | none => cases home <;> cases root <;> simp only [h2, h3, h4] <;> rfl
  | some d =>
    have hd : '{' ∉ d ++ chars! "/styx/config.styx" := by
      rw [List.mem_append, not_or]
      exact ⟨hc d rfl, by decide⟩
    have h5 : ∀ rep, replaceGo (chars! "{home}") rep 0 (d ++ chars! "/styx/config.styx") =
        d ++ chars! "/styx/config.styx" := fun _ => replaceGo_plain (c := '{') rfl hd
    cases home <;> cases root <;> simp only [h1, h3, h4, h5] <;> rfl

theorem matches_glob (env : Env) {p : List Char} {ts : List Hints.Tok} (h : '{' ∉ p) (hs : '*' ∈ p)
    (hc : compile true p = some ts) (file : List Char) : matchesPattern env file p = globMatches ts file := by
  unfold matchesPattern
  simp only [expand_plain env h, if_pos hs, hc]

theorem pieces_append (a b : List Char) : pieces (a ++ '/' :: b) = pieces a ++ pieces b := by
  induction a with
  | nil => simp [pieces]
  | cons c a ih =>
    rw [List.cons_append, pieces, pieces]
    split
    · rw [ih]; rfl
    · rw [ih]
      cases h : pieces a with
      | nil =>
        exfalso
        revert h
        cases a with
        | nil => simp [pieces]
        | cons d a =>
          rw [pieces]
          split
          · simp
          · cases pieces a <;> simp
      | cons p ps => rfl

theorem pieces_plain : ∀ {p : List Char}, '/' ∉ p → pieces p = [p]
  | [], _ => rfl
  | c :: p, h => by
    rw [pieces, if_neg (by rintro rfl; simp at h), pieces_plain (p := p) (by simp_all)]

theorem pieces_spell : ∀ {ps : List (List Char)}, (∀ p ∈ ps, '/' ∉ p) → ∀ (q : List Char), '/' ∉ q →
    pieces (q ++ spell ps) = q :: ps
  | [], _, q, hq => by simp [spell, pieces_plain hq]
  | p :: ps, h, q, hq => by
    have e : spell (p :: ps) = '/' :: (p ++ spell ps) := by simp [spell]
    rw [e, pieces_append, pieces_plain hq, pieces_spell (fun p hp => h p (by simp [hp])) p (h p (by simp))]
    rfl

theorem pieces_mem : ∀ (s : List Char), ∀ p ∈ pieces s, '/' ∉ p
  | [], p, h => by simp [pieces] at h; subst h; simp
  | c :: s, p, h => by
    have ih := pieces_mem s
    rw [pieces] at h
    split at h
    · rcases List.mem_cons.1 h with rfl | h
      · simp
      · exact ih p h
    · rename_i hc
      split at h
      · simp at h; subst h; simp [Ne.symm hc]
      · rename_i q qs e
        rw [e] at ih
        rcases List.mem_cons.1 h with rfl | h
        · have := ih q (by simp)
          simp [Ne.symm hc, this]
        · exact ih p (by simp [h])

theorem pieces_join : ∀ (s : List Char), ∃ q qs, pieces s = q :: qs ∧ s = q ++ spell qs
  | [] => ⟨[], [], rfl, rfl⟩
  | c :: s => by
    obtain ⟨q, qs, e, h⟩ := pieces_join s
    rw [pieces]
    split
    · rename_i hc
      refine ⟨[], pieces s, rfl, ?_⟩
      rw [e, hc]
      simp only [spell, List.flatMap_cons, List.nil_append, List.cons_append, List.cons.injEq, true_and]
      exact h
    · rw [e]
      exact ⟨c :: q, qs, rfl, by rw [List.cons_append, ← h]⟩

theorem filter_names (ps : List (List Char)) :
    (ps.filter fun p => p ≠ [] && p ≠ ['.']) = ps.filter fun p => p ∉ [[], ['.']] := by
  congr 1
  funext p
  simp

theorem components_spell {ps : List (List Char)} (h : ∀ p ∈ ps, '/' ∉ p) :
    (components (spell ps)).2 = ps.filter fun p => p ∉ [[], ['.']] := by
  have := pieces_spell h [] (by simp)
  unfold components
  simp only [List.nil_append] at this ⊢
  rw [this, ← filter_names]
  rfl

theorem samePath_names {s t : List Char} (h : SamePath s t) : (components s).2 = (components t).2 := by
  obtain ⟨ps, qs, hp, rfl, rfl, e⟩ := h
  rw [components_spell (fun p h => hp p (by simp [h])), components_spell (fun p h => hp p (by simp [h])), e]

theorem head_spell {ps : List (List Char)} (h : spell ps ≠ []) : (spell ps).head? = some '/' := by
  cases ps with
  | nil => exact absurd rfl h
  | cons p ps => simp [spell]

theorem spell_of_head {s : List Char} (h : s.head? = some '/') : ∃ ps, (∀ p ∈ ps, '/' ∉ p) ∧ s = spell ps := by
  obtain ⟨q, qs, e, hs⟩ := pieces_join s
  have hm := pieces_mem s
  rw [e] at hm
  refine ⟨qs, fun p hp => hm p (by simp [hp]), ?_⟩
  cases q with
  | nil => exact hs
  | cons c q =>
    exfalso
    rw [hs] at h
    simp only [List.cons_append, List.head?_cons, Option.some.injEq] at h
    exact hm (c :: q) (by simp) (by simp [h])

/-- Rust compares paths by their components. -/
theorem samePath_iff {s t : List Char} (hs : s.head? = some '/') (ht : t ≠ []) :
    components s = components t ↔ SamePath s t := by
  constructor
  · intro h
    have h1 : t.head? = some '/' := by
      have := congrArg Prod.fst h
      simpa [components, hs] using this
    obtain ⟨ps, hp, rfl⟩ := spell_of_head hs
    obtain ⟨qs, hq, rfl⟩ := spell_of_head h1
    refine ⟨ps, qs, ?_, rfl, rfl, ?_⟩
    · intro p h
      rcases List.mem_append.1 h with h | h
      · exact hp p h
      · exact hq p h
    · rw [← components_spell hp, ← components_spell hq, h]
  · intro h
    have h2 := samePath_names h
    obtain ⟨ps, qs, _, rfl, rfl, _⟩ := h
    have h1 := head_spell ht
    refine Prod.ext ?_ h2
    show ((spell ps).head? == some '/') = ((spell qs).head? == some '/')
    rw [hs, h1]

/-- Which pattern of the registry matches which absolute paths. -/
theorem matches_iff {env : Env} (hc : ∀ d, env.config = some d → '{' ∉ d ∧ '*' ∉ d) {file : List Char}
    (habs : file.head? = some '/') {h : Hint} (hh : h ∈ registry) :
    (h.patterns.find? (matchesPattern env file)).isSome = true ↔ Belongs env.config h.tool file := by
  have one : ∀ p, (List.find? (matchesPattern env file) [p]).isSome = true ↔ matchesPattern env file p = true := by
    intro p
    rw [List.find?_cons]
    split <;> simp_all
  have inv : ∀ {tool : List Char}, Belongs env.config tool file →
      (tool = chars! "captain" ∧ ∃ dirs, file = dirs ++ chars! "/.config/captain/config.styx") ∨
      (tool = chars! "dodeca" ∧ ∃ dirs, file = dirs ++ chars! "/.config/dodeca.styx") ∨
      (tool = chars! "tracey" ∧ ∃ dirs, file = dirs ++ chars! "/.config/tracey/config.styx") ∨
      (tool = chars! "dibs" ∧ ∃ dirs, file = dirs ++ chars! "/.config/dibs.styx") ∨
      (tool = chars! "dibs-queries" ∧ ∃ dirs rest, file = dirs ++ chars! "/.dibs-queries/" ++ rest ++ chars! ".styx") ∨
      (tool = chars! "styx-lsp" ∧ ∃ dir, env.config = some dir ∧
        SamePath file (dir ++ chars! "/styx/config.styx")) ∨
      (tool = chars! "squiggles" ∧ ∃ dirs, file = dirs ++ chars! "/.config/squiggles/config.styx") := by
    intro tool h
    cases h with
    | captain d => exact .inl ⟨rfl, d, rfl⟩
    | dodeca d => exact .inr (.inl ⟨rfl, d, rfl⟩)
    | tracey d => exact .inr (.inr (.inl ⟨rfl, d, rfl⟩))
    | dibs d => exact .inr (.inr (.inr (.inl ⟨rfl, d, rfl⟩)))
    | queries d r => exact .inr (.inr (.inr (.inr (.inl ⟨rfl, d, r, rfl⟩))))
    | server h s => exact .inr (.inr (.inr (.inr (.inr (.inl ⟨rfl, _, h, s⟩)))))
    | squiggles d => exact .inr (.inr (.inr (.inr (.inr (.inr ⟨rfl, d, rfl⟩)))))
  unfold registry at hh
  simp only [List.mem_cons, List.not_mem_nil, or_false] at hh
  rcases hh with rfl | rfl | rfl | rfl | rfl | rfl | rfl
  · rw [one, matches_glob env (ts := .dirs :: (chars! ".config/captain/config.styx").map .char) (by decide) (by decide) (by rfl),
      dirs_iff habs (by decide)]
    constructor
    · rintro ⟨d, rfl⟩; exact .captain d
    · intro h
      have := inv h
      simp only [List.cons.injEq, true_and, false_and, or_false, Char.reduceEq, and_false] at this
      exact this
  · rw [one, matches_glob env (ts := .dirs :: (chars! ".config/dodeca.styx").map .char) (by decide) (by decide) (by rfl),
      dirs_iff habs (by decide)]
    constructor
    · rintro ⟨d, rfl⟩; exact .dodeca d
    · intro h
      have := inv h
      simp only [List.cons.injEq, true_and, false_and, false_or, or_false, Char.reduceEq, and_false] at this
      exact this
  · rw [one, matches_glob env (ts := .dirs :: (chars! ".config/tracey/config.styx").map .char) (by decide) (by decide) (by rfl),
      dirs_iff habs (by decide)]
    constructor
    · rintro ⟨d, rfl⟩; exact .tracey d
    · intro h
      have := inv h
      simp only [List.cons.injEq, true_and, false_and, false_or, or_false, Char.reduceEq, and_false] at this
      exact this
  · rw [one, matches_glob env (ts := .dirs :: (chars! ".config/dibs.styx").map .char) (by decide) (by decide) (by rfl),
      dirs_iff habs (by decide)]
    constructor
    · rintro ⟨d, rfl⟩; exact .dibs d
    · intro h
      have := inv h
      simp only [List.cons.injEq, true_and, false_and, false_or, or_false, Char.reduceEq, and_false, reduceCtorEq] at this
      exact this
  · rw [one, matches_glob env (ts := .dirs :: ((chars! ".dibs-queries/").map .char ++ .seq :: (chars! ".styx").map .char))
        (by decide) (by decide) (by rfl), dirs_seq_iff habs (by decide)]
    constructor
    · rintro ⟨d, r, rfl⟩; exact .queries d r
    · intro h
      have := inv h
      simp only [List.cons.injEq, true_and, false_and, false_or, or_false, Char.reduceEq, and_false, reduceCtorEq] at this
      exact this
  · rw [one]
    unfold matchesPattern
    simp only [expand_server (fun d hd => (hc d hd).1)]
    cases hcfg : env.config with
    | none =>
      simp only [hcfg] at inv ⊢
      rw [if_neg (by decide)]
      constructor
      · intro h
        exfalso
        have h1 : (components file).1 = (components (chars! "{userconfig}/styx/config.styx")).1 := by
          rw [beq_iff_eq] at h; rw [h]
        have h2 : (components file).1 = true := by simp [components, habs]
        rw [h2] at h1
        revert h1
        decide
      · intro h
        have := inv h
        simp at this
    | some d =>
      simp only [hcfg] at inv ⊢
      rw [if_neg (by rw [List.mem_append, not_or]; exact ⟨(hc d hcfg).2, by decide⟩), beq_iff_eq,
        samePath_iff habs (by simp)]
      constructor
      · intro h; exact .server rfl h
      · intro h
        have := inv h
        simp only [List.cons.injEq, true_and, false_and, false_or, or_false, Char.reduceEq, and_false, reduceCtorEq,
          Option.some.injEq, exists_eq_left'] at this
        exact this
  · rw [one, matches_glob env (ts := .dirs :: (chars! ".config/squiggles/config.styx").map .char) (by decide) (by decide) (by rfl),
      dirs_iff habs (by decide)]
    constructor
    · rintro ⟨d, rfl⟩; exact .squiggles d
    · intro h
      have := inv h
      simp only [List.cons.injEq, true_and, false_and, false_or, Char.reduceEq, and_false] at this
      exact this

/-! ## Uniqueness -/

/-- The last two components of a path, the last one first. -/
def lastTwo (s : List Char) : List (List Char) := (components s).2.reverse.take 2

theorem lastTwo_append {a b p q : List Char} {r : List (List Char)} (h : (components b).2.reverse = p :: q :: r) :
    lastTwo (a ++ '/' :: b) = [p, q] := by
  unfold components at h
  simp only at h
  unfold lastTwo components
  simp only
  rw [pieces_append, List.filter_append, List.reverse_append, h]
  rfl

/-- A file outside of directories `.dibs-queries` is one of at most one tool. -/
theorem belongs_unique {config : Option (List Char)} {file t1 t2 : List Char} (hq : ¬ chars! "/.dibs-queries/" <:+: file)
    (h1 : Belongs config t1 file) (h2 : Belongs config t2 file) : t1 = t2 := by
  have key : ∀ {t : List Char}, Belongs config t file →
      (t, lastTwo file) ∈ [(chars! "captain", [chars! "config.styx", chars! "captain"]),
        (chars! "dodeca", [chars! "dodeca.styx", chars! ".config"]),
        (chars! "tracey", [chars! "config.styx", chars! "tracey"]),
        (chars! "dibs", [chars! "dibs.styx", chars! ".config"]),
        (chars! "styx-lsp", [chars! "config.styx", chars! "styx"]),
        (chars! "squiggles", [chars! "config.styx", chars! "squiggles"])] := by
    intro t h
    cases h with
    | captain d => rw [lastTwo_append (b := chars! ".config/captain/config.styx") (by rfl)]; simp
    | dodeca d => rw [lastTwo_append (b := chars! ".config/dodeca.styx") (by rfl)]; simp
    | tracey d => rw [lastTwo_append (b := chars! ".config/tracey/config.styx") (by rfl)]; simp
    | dibs d => rw [lastTwo_append (b := chars! ".config/dibs.styx") (by rfl)]; simp
    | queries d r => exact absurd ⟨d, r ++ chars! ".styx", by simp⟩ hq
    | server hc hs =>
      rename_i dir
      have : lastTwo file = lastTwo (dir ++ chars! "/styx/config.styx") := by unfold lastTwo; rw [samePath_names hs]
      rw [this, lastTwo_append (b := chars! "styx/config.styx") (by rfl)]; simp
    | squiggles d => rw [lastTwo_append (b := chars! ".config/squiggles/config.styx") (by rfl)]; simp
  have k1 := key h1
  have k2 := key h2
  generalize lastTwo file = l at k1 k2
  simp only [List.mem_cons, List.not_mem_nil, or_false, Prod.mk.injEq] at k1 k2
  rcases k1 with ⟨rfl, rfl⟩ | ⟨rfl, rfl⟩ | ⟨rfl, rfl⟩ | ⟨rfl, rfl⟩ | ⟨rfl, rfl⟩ | ⟨rfl, rfl⟩ <;>
    simp at k2 <;> exact k2.symm

theorem belongs_registry {config : Option (List Char)} {file tool : List Char} (h : Belongs config tool file) :
    ∃ hint ∈ registry, hint.tool = tool := by
  unfold registry
  cases h <;> simp

theorem findIn_some {env : Env} {file : List Char} : ∀ {hs : List Hint} {h : Hint} {p : List Char},
    findIn env file hs = some (h, p) → h ∈ hs ∧ h.patterns.find? (matchesPattern env file) = some p
  | [], _, _, e => by simp [findIn] at e
  | x :: hs, h, p, e => by
    rw [findIn] at e
    split at e
    · rename_i q hq
      simp only [Option.some.injEq, Prod.mk.injEq] at e
      obtain ⟨rfl, rfl⟩ := e
      exact ⟨by simp, hq⟩
    · have := findIn_some e
      exact ⟨by simp [this.1], this.2⟩

theorem findIn_none {env : Env} {file : List Char} : ∀ {hs : List Hint}, findIn env file hs = none →
    ∀ h ∈ hs, h.patterns.find? (matchesPattern env file) = none
  | [], _ => by simp
  | x :: hs, e => by
    rw [findIn] at e
    split at e
    · cases e
    · rename_i hq
      intro h hm
      rcases List.mem_cons.1 hm with rfl | hm
      · exact hq
      · exact findIn_none e h hm

/-- **C121** is false: the hints are in a hash map with a random order, and a file can match the patterns of
two of them, since `*` also matches separators; then the suggestion changes from one time to the next. -/
theorem C121_false : ∃ (order : List Hint) (file : List Char) (env : Env) (h h' : Hint) (p p' : List Char),
    order.Perm registry ∧ findIn env file registry = some (h, p) ∧ findIn env file order = some (h', p') ∧
    h.id ≠ h'.id :=
  ⟨registry.reverse, chars! "/p/.dibs-queries/.config/dibs.styx", ⟨some (chars! "/home/u/.config"), some (chars! "/home/u"), none⟩,
    registry[3], registry[4], chars! "**/.config/dibs.styx", chars! "**/.dibs-queries/*.styx", List.reverse_perm _,
    by decide +kernel, by decide +kernel, by decide⟩

/-- **C121**, for every absolute path and every order of the hints, when the directory of the user's
configuration has no `{` and no `*` in its name: a schema is suggested exactly for the files of the tools; it
is the schema of a tool of the file; and outside of directories `.dibs-queries` it is always that of the one
tool of the file. -/
theorem C121_partial {env : Env} (hc : ∀ d, env.config = some d → '{' ∉ d ∧ '*' ∉ d) {file : List Char}
    (habs : file.head? = some '/') {order : List Hint} (ho : order.Perm registry) :
    (∀ h p, findIn env file order = some (h, p) → h ∈ registry ∧ p ∈ h.patterns ∧ Belongs env.config h.tool file) ∧
    (findIn env file order = none ↔ ∀ tool, ¬ Belongs env.config tool file) ∧
    (¬ chars! "/.dibs-queries/" <:+: file → ∀ tool, Belongs env.config tool file →
      ∃ h p, findIn env file order = some (h, p) ∧ h.tool = tool) := by
  have first : ∀ h p, findIn env file order = some (h, p) →
      h ∈ registry ∧ p ∈ h.patterns ∧ Belongs env.config h.tool file := by
    intro h p e
    obtain ⟨h1, h2⟩ := findIn_some e
    have h3 := ho.mem_iff.1 h1
    exact ⟨h3, List.mem_of_find?_eq_some h2, (matches_iff hc habs h3).1 (by rw [h2]; rfl)⟩
  have second : ∀ tool, Belongs env.config tool file → ∃ h p, findIn env file order = some (h, p) := by
    intro tool hb
    cases e : findIn env file order with
    | some x => exact ⟨x.1, x.2, rfl⟩
    | none =>
      obtain ⟨h, hm, rfl⟩ := belongs_registry hb
      have := (matches_iff hc habs hm).2 hb
      rw [findIn_none e h (ho.mem_iff.2 hm)] at this
      cases this
  refine ⟨first, ⟨?_, ?_⟩, ?_⟩
  · intro e tool hb
    obtain ⟨h, p, e'⟩ := second tool hb
    rw [e] at e'
    cases e'
  · intro hn
    cases e : findIn env file order with
    | none => rfl
    | some x => exact absurd (first x.1 x.2 e).2.2 (hn _)
  · intro hq tool hb
    obtain ⟨h, p, e⟩ := second tool hb
    exact ⟨h, p, e, belongs_unique hq (first h p e).2.2 hb⟩

/-- The conditions are met: a project's configuration of a tool, and the one of the server. -/
example : let env : Env := ⟨some (chars! "/home/u/.config"), some (chars! "/home/u"), some (chars! "/home/u/p")⟩
    (∀ d, env.config = some d → '{' ∉ d ∧ '*' ∉ d) ∧
    Belongs env.config (chars! "tracey") (chars! "/home/u/p/.config/tracey/config.styx") ∧
    Belongs env.config (chars! "styx-lsp") (chars! "/home/u/.config//styx/config.styx") ∧
    ¬ chars! "/.dibs-queries/" <:+: chars! "/home/u/p/.config/tracey/config.styx" := by
  refine ⟨?_, .tracey (chars! "/home/u/p"), .server rfl ((samePath_iff rfl (by simp)).1 (by decide)), by decide⟩
  intro d hd
  cases hd
  decide

end Styx.Props
