import Verif.Cli.FilesLemmas

/-! # Lemmas about paths and about the schema to validate against -/

namespace Styx.Cli

open Styx Styx.Spec

variable {F : Type}

theorem takeWhile_all {p : Char → Bool} : ∀ {l : List Char}, (∀ c ∈ l, p c = true) → l.takeWhile p = l
  | [], _ => rfl
  | c :: cs, h => by
    rw [List.takeWhile_cons, if_pos (h c (List.mem_cons_self ..)), takeWhile_all fun x hx => h x (List.mem_cons_of_mem _ hx)]

theorem dropWhile_all {p : Char → Bool} : ∀ {l : List Char}, (∀ c ∈ l, p c = true) → l.dropWhile p = []
  | [], _ => rfl
  | c :: cs, h => by
    rw [List.dropWhile_cons, if_pos (h c (List.mem_cons_self ..)), dropWhile_all fun x hx => h x (List.mem_cons_of_mem _ hx)]

theorem takeWhile_slash {l rest : List Char} (h : '/' ∉ l) : (l ++ '/' :: rest).takeWhile (· ≠ '/') = l := by
  induction l with
  | nil => rfl
  | cons c cs ih =>
    have hc : c ≠ '/' := fun e => h (e ▸ List.mem_cons_self ..)
    rw [List.cons_append, List.takeWhile_cons, if_pos (by simpa using hc), ih fun hm => h (List.mem_cons_of_mem _ hm)]

theorem dropWhile_slash {l rest : List Char} (h : '/' ∉ l) : (l ++ '/' :: rest).dropWhile (· ≠ '/') = '/' :: rest := by
  induction l with
  | nil => rfl
  | cons c cs ih =>
    have hc : c ≠ '/' := fun e => h (e ▸ List.mem_cons_self ..)
    rw [List.cons_append, List.dropWhile_cons, if_pos (by simpa using hc), ih fun hm => h (List.mem_cons_of_mem _ hm)]

theorem not_slash {l : List Char} (h : '/' ∉ l) : ∀ c ∈ l, decide (c ≠ '/') = true := by
  intro c hc
  have : c ≠ '/' := fun e => h (e ▸ hc)
  simpa using this

/-- The last component is neither empty nor `.`. -/
def Ends (r : List Char) : Prop := r.takeWhile (· ≠ '/') ≠ [] ∧ r.takeWhile (· ≠ '/') ≠ ['.']

theorem trimBack_ends {r : List Char} (h : Ends r) : ∀ n, trimBack n r = r
  | 0 => rfl
  | n + 1 => by
    unfold trimBack
    dsimp only
    rw [if_neg (by rintro (e | e); exact h.1 e; exact h.2 e)]

theorem trimBack_nil : ∀ n, trimBack n [] = []
  | 0 => rfl
  | _ + 1 => rfl

/-- The end of a reversed text without `/` or `/.` at the end: nothing, a single `.`, or a component. -/
theorem ends_cases {dir : List Char} (h1 : ¬ ['/'] <:+ dir) (h2 : ¬ ['/', '.'] <:+ dir) :
    dir = [] ∨ dir = ['.'] ∨ Ends dir.reverse := by
  by_cases hs : '/' ∈ dir
  · right; right
    obtain ⟨a, b, hd, hb⟩ : ∃ a b, dir = a ++ '/' :: b ∧ '/' ∉ b := by
      clear h1 h2
      induction dir with
      | nil => cases hs
      | cons c cs ih =>
        by_cases hc : '/' ∈ cs
        · obtain ⟨a, b, rfl, hb⟩ := ih hc
          exact ⟨c :: a, b, rfl, hb⟩
        · rcases List.mem_cons.1 hs with rfl | h
          · exact ⟨[], cs, rfl, hc⟩
          · exact absurd h hc
    subst hd
    have hr : (a ++ '/' :: b).reverse.takeWhile (· ≠ '/') = b.reverse := by
      rw [List.reverse_append, List.reverse_cons, List.append_assoc]
      exact takeWhile_slash (by simpa using hb)
    unfold Ends
    rw [hr]
    constructor
    · intro e
      have : b = [] := by simpa using e
      subst this
      exact h1 ⟨a, rfl⟩
    · intro e
      have : b = ['.'] := by
        have := congrArg List.reverse e; simpa using this
      subst this
      exact h2 ⟨a, rfl⟩
  · by_cases h : dir = []
    · exact .inl h
    · by_cases h' : dir = ['.']
      · exact .inr (.inl h')
      · right; right
        have hr : dir.reverse.takeWhile (· ≠ '/') = dir.reverse := takeWhile_all (not_slash (by simpa using hs))
        unfold Ends
        rw [hr]
        exact ⟨by simpa using h, fun e => h' (by have := congrArg List.reverse e; simpa using this)⟩

theorem parent_plain {s : List Char} (h : '/' ∉ s) : pathParent s = none ∨ pathParent s = some [] := by
  unfold pathParent
  dsimp only
  split
  · rename_i body; exact absurd (List.mem_cons_self ..) h
  · right; rfl
  · rename_i body; exact absurd (by simp) h
  · dsimp only
    split
    · simp
    · right
      have : ∀ n, ∀ r : List Char, '/' ∉ r → (trimBack n r).dropWhile (· ≠ '/') = [] := by
        intro n r hr
        cases n with
        | zero => exact dropWhile_all (not_slash hr)
        | succ n =>
          unfold trimBack
          dsimp only
          split
          · rw [dropWhile_all (not_slash hr)]; rfl
          · exact dropWhile_all (not_slash hr)
      rw [this _ _ (by simpa using h)]
      simp [trimBack_nil]

/-- `pathParent` behind its choice of what stands in front. -/
def parentOf (pre body : List Char) (n : Nat) : Option (List Char) :=
  let back := trimBack n body.reverse
  if back = [] then
    if pre = ['.'] then some [] else none
  else
    let rest := match back.dropWhile (· ≠ '/') with
      | [] => []
      | _ :: rest => rest
    some (pre ++ (trimBack n rest).reverse)

theorem parentOf_under {pre b name : List Char} {n : Nat} (hb : b = [] ∨ Ends b.reverse) (h1 : '/' ∉ name)
    (h2 : name ≠ []) (h3 : name ≠ ['.']) : parentOf pre (b ++ '/' :: name) n = some (pre ++ b) := by
  have hr : (b ++ '/' :: name).reverse = name.reverse ++ '/' :: b.reverse := by simp
  have hn : '/' ∉ name.reverse := by simpa using h1
  have he : Ends (b ++ '/' :: name).reverse := by
    unfold Ends
    rw [hr, takeWhile_slash hn]
    exact ⟨by simpa using h2, fun e => h3 (by have := congrArg List.reverse e; simpa using this)⟩
  unfold parentOf
  dsimp only
  rw [trimBack_ends he, if_neg (by simp), hr, dropWhile_slash hn]
  dsimp only
  rcases hb with rfl | hb
  · simp [trimBack_nil]
  · rw [trimBack_ends hb]; simp

theorem parent_under {dir name : List Char} (h1 : '/' ∉ name) (h2 : name ≠ []) (h3 : name ≠ ['.'])
    (h4 : ¬ ['/'] <:+ dir) (h5 : ¬ ['/', '.'] <:+ dir) :
    pathParent (dir ++ '/' :: name) = some (if dir = [] then ['/'] else dir) := by
  have key : ∀ {x y : List Char}, ¬ ['/'] <:+ x ++ y → ¬ ['/', '.'] <:+ x ++ y → ¬ ['/'] <:+ y ∧ ¬ ['/', '.'] <:+ y := by
    intro x y ha hb
    exact ⟨fun ⟨z, hz⟩ => ha ⟨x ++ z, by rw [← hz]; simp⟩, fun ⟨z, hz⟩ => hb ⟨x ++ z, by rw [← hz]; simp⟩⟩
  match dir, h4, h5 with
  | [], _, _ =>
    show parentOf ['/'] name _ = _
    have hn : '/' ∉ name.reverse := by simpa using h1
    have ht : name.reverse.takeWhile (· ≠ '/') = name.reverse := takeWhile_all (not_slash hn)
    have he : Ends name.reverse := by
      unfold Ends
      rw [ht]
      exact ⟨by simpa using h2, fun e => h3 (by have := congrArg List.reverse e; simpa using this)⟩
    unfold parentOf
    dsimp only
    rw [trimBack_ends he, if_neg (by simpa using h2), dropWhile_all (not_slash hn)]
    simp [trimBack_nil]
  | c :: cs, h4, h5 =>
    by_cases hc : c = '/'
    · subst hc
      obtain ⟨h6, h7⟩ := key (x := ['/']) h4 h5
      show parentOf ['/'] (cs ++ '/' :: name) _ = _
      rcases ends_cases h6 h7 with rfl | rfl | he
      · exact absurd ⟨[], rfl⟩ h4
      · exact absurd ⟨[], rfl⟩ h5
      · rw [parentOf_under (.inr he) h1 h2 h3]; rfl
    · by_cases hdot : c = '.' ∧ (cs = [] ∨ ∃ t, cs = '/' :: t)
      · obtain ⟨rfl, rfl | ⟨t, rfl⟩⟩ := hdot
        · show parentOf ['.'] ([] ++ '/' :: name) _ = _
          rw [parentOf_under (.inl rfl) h1 h2 h3]; rfl
        · obtain ⟨h6, h7⟩ := key (x := ['.']) h4 h5
          show parentOf ['.'] ('/' :: t ++ '/' :: name) _ = _
          rcases ends_cases h6 h7 with h | h | he
          · cases h
          · cases h
          · rw [parentOf_under (.inr he) h1 h2 h3]; rfl
      · have hd : pathParent (c :: cs ++ '/' :: name) =
            parentOf [] (c :: cs ++ '/' :: name) (c :: cs ++ '/' :: name).length := by
          unfold pathParent parentOf
          dsimp only
          split
          · rename_i heq
            simp only [List.cons_append, List.cons.injEq] at heq
            exact absurd heq.1 hc
          · rename_i heq
            simp at heq
          · rename_i heq
            simp only [List.cons_append, List.cons.injEq] at heq
            refine absurd ⟨heq.1, ?_⟩ hdot
            cases cs with
            | nil => exact .inl rfl
            | cons x xs =>
              have := heq.2
              simp only [List.cons_append, List.cons.injEq] at this
              exact .inr ⟨xs, by rw [this.1]⟩
          · rfl
        rw [hd]
        rcases ends_cases h4 h5 with h | h | he
        · cases h
        · cases h
          exact absurd ⟨rfl, .inl rfl⟩ hdot
        · rw [parentOf_under (.inr he) h1 h2 h3]; rfl

theorem resolve_nextTo {doc path place : List Char} (ht : TidyPath doc) (hd : doc ≠ ['-']) (hu : ¬ IsUrl path) :
    resolveSchemaPath path doc = .ok place ↔ NextTo doc path place := by
  have hu' : ¬ ((chars! "http://").isPrefixOf path = true ∨ (chars! "https://").isPrefixOf path = true) := by
    rw [List.isPrefixOf_iff_prefix, List.isPrefixOf_iff_prefix]; exact hu
  unfold resolveSchemaPath
  rw [if_neg hu']
  by_cases ha : path.head? = some '/'
  · rw [if_pos ha]
    obtain ⟨rest, rfl⟩ : ∃ rest, path = '/' :: rest := by
      cases path with
      | nil => cases ha
      | cons c cs => cases ha; exact ⟨cs, rfl⟩
    constructor
    · intro h; cases h; exact .absolute
    · intro h
      generalize hg : '/' :: rest = p at h
      cases h with
      | absolute => rfl
      | plain h1 => subst hg; exact absurd rfl h1
      | under h1 => subst hg; exact absurd rfl h1
  · rw [if_neg ha, if_pos hd]
    have fin : ∀ r, NextTo doc path r → (NextTo doc path place ↔ place = r) := by
      intro r hr
      constructor
      · intro h
        cases h with
        | absolute => exact absurd rfl ha
        | plain h1 h2 =>
          cases hr with
          | absolute => exact absurd rfl ha
          | plain => rfl
          | under => exact absurd (by simp) h2
        | @under dir name _ h1 h2 =>
          generalize hg : dir ++ '/' :: name = dd at hr
          cases hr with
          | absolute => exact absurd rfl ha
          | plain _ h3 => subst hg; exact absurd (by simp) h3
          | @under dir' name' _ _ h3 =>
            have h := congrArg (fun l => l.reverse.dropWhile (· ≠ '/')) hg
            simp only [List.reverse_append, List.reverse_cons, List.append_assoc, List.singleton_append] at h
            rw [dropWhile_slash (by simpa using h2), dropWhile_slash (by simpa using h3)] at h
            have : dir = dir' := by
              simp only [List.cons.injEq, true_and] at h
              have := congrArg List.reverse h; simpa using this
            rw [this]
      · rintro rfl; exact hr
    cases ht with
    | plain hs =>
      rw [fin path (.plain ha hs)]
      rcases parent_plain hs with h | h
      · rw [h]; simp [eq_comm]
      · rw [h]; simp [pathJoin, eq_comm]
    | @under dir name h1 h2 h3 h4 h5 =>
      rw [fin (dir ++ '/' :: path) (.under ha h1), parent_under h1 h2 h3 h4 h5]
      by_cases he : dir = []
      · subst he; simp [pathJoin, eq_comm]
      · have : dir.getLast? ≠ some '/' := by
          intro h
          obtain ⟨ys, hy⟩ := List.getLast?_eq_some_iff.1 h
          exact h4 ⟨ys, hy.symm⟩
        simp [pathJoin, he, this, eq_comm]

theorem resolve_url {doc path : List Char} (hu : IsUrl path) : resolveSchemaPath path doc = .error (.failed .usage) := by
  unfold resolveSchemaPath
  rw [if_pos (by rw [List.isPrefixOf_iff_prefix, List.isPrefixOf_iff_prefix]; exact hu)]

/-! ## The schema -/

theorem parseSchema_iff {W : World F} {t : List Char} {sf : Schema.SchemaFile F} :
    W.parseSchema t = .ok sf ↔ W.readSchema t = some sf := by
  unfold World.parseSchema
  cases W.readSchema t <;> simp

theorem loadSchema_iff {W : World F} {d : Disk} {path : List Char} {sf : Schema.SchemaFile F} :
    W.loadSchema d path = .ok sf ↔ ∃ t, HoldsText W d path t ∧ W.readSchema t = some sf := by
  unfold World.loadSchema
  cases h : W.readText d path with
  | error e =>
    simp only [reduceCtorEq, false_iff]
    rintro ⟨t, ht, _⟩
    rw [(readText_iff W d path t).2 ht] at h; cases h
  | ok t =>
    dsimp only
    rw [parseSchema_iff]
    constructor
    · intro hr; exact ⟨t, (readText_iff W d path t).1 h, hr⟩
    · rintro ⟨t', h1, h2⟩
      rw [(readText_iff W d path t').2 h1] at h; cases h; exact h2

theorem isSchemaTag_name (k : Value) : isSchemaTag k = true ↔ k.tagName = some (chars! "schema") := by
  simp [isSchemaTag]

theorem find_declared {v w : Value} : DeclaredBy v w ↔
    ∃ es e, v.asObject = some es ∧ es.find? (fun e => isSchemaTag e.key) = some e ∧ e.value = w := by
  constructor
  · rintro ⟨t, es, sp, s, bef, k, doc, aft, rfl, rfl, hk, hb⟩
    refine ⟨_, .mk k w doc, rfl, ?_, rfl⟩
    rw [List.find?_append, List.find?_eq_none.2, Option.none_or, List.find?_cons_of_pos]
    · exact (isSchemaTag_name _).2 hk
    · intro e he h
      exact hb e he ((isSchemaTag_name _).1 h)
  · rintro ⟨es, e, ho, hf, rfl⟩
    obtain ⟨h1, bef, aft, h2, h3⟩ := List.find?_eq_some_iff_append.1 hf
    obtain ⟨k, w, doc⟩ := e
    obtain ⟨t, p, s⟩ := v
    cases p with
    | none => cases ho
    | some p =>
      cases p with
      | scalar => cases ho
      | sequence => cases ho
      | object es' sp =>
        cases ho
        refine ⟨t, es, sp, s, bef, k, doc, aft, rfl, h2, (isSchemaTag_name _).1 h1, fun e he h => ?_⟩
        have := h3 e he
        rw [(isSchemaTag_name _).2 h] at this; cases this

theorem declared_unique {v w w' : Value} (h : DeclaredBy v w) (h' : DeclaredBy v w') : w = w' := by
  obtain ⟨es, e, h1, h2, rfl⟩ := find_declared.1 h
  obtain ⟨es', e', h1', h2', rfl⟩ := find_declared.1 h'
  rw [h1] at h1'; cases h1'
  rw [h2] at h2'; cases h2'; rfl

theorem findDeclaration_iff {v : Value} {r : SchemaRef} :
    findSchemaDeclaration v = .ok r ↔ ∃ w, DeclaredBy v w ∧ declarationOf w = .ok r := by
  unfold findSchemaDeclaration
  constructor
  · intro h
    cases ho : v.asObject with
    | none => rw [ho] at h; cases h
    | some es =>
      rw [ho] at h
      dsimp only at h
      cases hf : es.find? fun e => isSchemaTag e.key with
      | none => rw [hf] at h; cases h
      | some e =>
        rw [hf] at h
        exact ⟨e.value, find_declared.2 ⟨es, e, ho, hf, rfl⟩, h⟩
  · rintro ⟨w, hd, h⟩
    obtain ⟨es, e, h1, h2, rfl⟩ := find_declared.1 hd
    rw [h1]; dsimp only; rw [h2]; exact h

theorem identified_iff {t id : List Char} :
    Identified t id ↔ ∃ v, parseTree t = some (.ok v) ∧ metaId v = some id := by
  constructor
  · rintro ⟨v, es, m, ms, i, h1, h2, h3, h4, h5, h6⟩
    exact ⟨v, h1, by simp [metaId, h2, h3, h4, h5, h6]⟩
  · rintro ⟨v, h1, h⟩
    simp only [metaId, Option.bind_eq_some_iff] at h
    obtain ⟨i, ⟨m, ⟨es, h2, h3⟩, ms, h4, h5⟩, h6⟩ := h
    exact ⟨v, es, m, ms, i, h1, h2, h3, h4, h5, h6⟩

theorem findEmbedded_iff {id t : List Char} : ∀ {ss : List (List Char)}, findEmbedded id ss = .ok t ↔
    ∃ bef aft, ss = bef ++ t :: aft ∧ Identified t id ∧ ∀ s ∈ bef, ¬ Identified s id ∧ parseTree s ≠ none
  | [] => by
    simp only [findEmbedded, reduceCtorEq, false_iff]
    rintro ⟨bef, aft, h, _⟩
    cases bef <;> cases h
  | s :: ss => by
    have ih := findEmbedded_iff (id := id) (t := t) (ss := ss)
    have next : ¬ Identified s id → parseTree s ≠ none → ((∃ bef aft, s :: ss = bef ++ t :: aft ∧ Identified t id ∧
        ∀ s ∈ bef, ¬ Identified s id ∧ parseTree s ≠ none) ↔
        ∃ bef aft, ss = bef ++ t :: aft ∧ Identified t id ∧ ∀ s ∈ bef, ¬ Identified s id ∧ parseTree s ≠ none) := by
      intro hs hp
      constructor
      · rintro ⟨bef, aft, h1, h2, h3⟩
        cases bef with
        | nil => cases h1; exact absurd h2 hs
        | cons b bef => cases h1; exact ⟨bef, aft, rfl, h2, fun x hx => h3 x (List.mem_cons_of_mem _ hx)⟩
      · rintro ⟨bef, aft, rfl, h2, h3⟩
        refine ⟨s :: bef, aft, rfl, h2, fun x hx => ?_⟩
        rcases List.mem_cons.1 hx with rfl | hx
        · exact ⟨hs, hp⟩
        · exact h3 x hx
    unfold findEmbedded
    cases hp : parseTree s with
    | none =>
      simp only [reduceCtorEq, false_iff]
      rintro ⟨bef, aft, h1, h2, h3⟩
      cases bef with
      | nil =>
        cases h1
        obtain ⟨v, h, _⟩ := identified_iff.1 h2
        rw [hp] at h; cases h
      | cons b bef => cases h1; exact (h3 s (List.mem_cons_self ..)).2 hp
    | some r =>
      cases r with
      | error e =>
        dsimp only
        rw [ih, next _ (by simp [hp])]
        intro h
        obtain ⟨v, h, _⟩ := identified_iff.1 h
        rw [hp] at h; cases h
      | ok v =>
        dsimp only
        by_cases hm : metaId v = some id
        · rw [if_pos hm]
          have hi : Identified s id := identified_iff.2 ⟨v, hp, hm⟩
          constructor
          · intro h; cases h; exact ⟨[], ss, rfl, hi, nofun⟩
          · rintro ⟨bef, aft, h1, h2, h3⟩
            cases bef with
            | nil => cases h1; rfl
            | cons b bef => cases h1; exact absurd hi (h3 s (List.mem_cons_self ..)).1
        · rw [if_neg hm, ih, next _ (by simp [hp])]
          intro h
          obtain ⟨v', h, h'⟩ := identified_iff.1 h
          rw [hp] at h; cases h; exact hm h'

theorem embedded_text {W : World F} {cli : List Char} {id : Option (List Char)} {sf : Schema.SchemaFile F} :
    W.extract cli id = .ok sf ↔ ∃ ss t, W.embedded cli = some ss ∧ W.readSchema t = some sf ∧
      ((id = none ∧ ∃ ts, ss = t :: ts) ∨ ∃ i bef aft, id = some i ∧ ss = bef ++ t :: aft ∧ Identified t i ∧
        ∀ s ∈ bef, ¬ Identified s i ∧ parseTree s ≠ none) := by
  unfold World.extract
  cases he : W.embedded cli with
  | none => simp
  | some ss =>
    cases ss with
    | nil =>
      simp only [reduceCtorEq, Option.some.injEq, false_iff]
      rintro ⟨ss, t, rfl, _, ⟨_, ts, h⟩ | ⟨i, bef, aft, _, h, _⟩⟩
      · cases h
      · cases bef <;> cases h
    | cons s ss =>
      dsimp only
      cases id with
      | none =>
        dsimp only
        rw [parseSchema_iff]
        constructor
        · intro h; exact ⟨_, s, rfl, h, .inl ⟨rfl, ss, rfl⟩⟩
        · rintro ⟨ss', t, h1, h2, ⟨_, ts, h3⟩ | ⟨i, bef, aft, h3, _⟩⟩
          · cases h1; cases h3; exact h2
          · cases h3
      | some i =>
        dsimp only
        cases hf : findEmbedded i (s :: ss) with
        | error e =>
          simp only [reduceCtorEq, false_iff]
          rintro ⟨ss', t, h1, h2, ⟨h3, _⟩ | ⟨i', bef, aft, h3, h4⟩⟩
          · cases h3
          · cases h1; cases h3
            rw [findEmbedded_iff.2 ⟨bef, aft, h4⟩] at hf; cases hf
        | ok t =>
          dsimp only
          rw [parseSchema_iff]
          constructor
          · intro h
            obtain ⟨bef, aft, h4⟩ := findEmbedded_iff.1 hf
            exact ⟨_, t, rfl, h, .inr ⟨i, bef, aft, rfl, h4⟩⟩
          · rintro ⟨ss', t', h1, h2, ⟨h3, _⟩ | ⟨i', bef, aft, h3, h4⟩⟩
            · cases h3
            · cases h1; cases h3
              rw [findEmbedded_iff.2 ⟨bef, aft, h4⟩] at hf; cases hf; exact h2

/-- The name under which the document is known. -/
def docName (a : List Char) : List Char := if a = ['-'] then chars! "<stdin>" else a

theorem nextTo_docName {a path place : List Char} : NextTo (docName a) path place ↔ NextTo a path place := by
  unfold docName
  split
  · rename_i h
    subst h
    constructor
    · intro h
      generalize hg : chars! "<stdin>" = dd at h
      cases h with
      | absolute => exact .absolute
      | plain h1 _ => exact .plain h1 (by simp)
      | @under dir name _ h1 h2 =>
        exact absurd (show '/' ∈ (chars! "<stdin>") from hg ▸ by simp) (by decide)
    · intro h
      generalize hg : ['-'] = dd at h
      cases h with
      | absolute => exact .absolute
      | plain h1 _ => exact .plain h1 (by decide)
      | @under dir name _ h1 h2 =>
        exact absurd (show '/' ∈ ['-'] from hg ▸ by simp) (by decide)
  · rfl

theorem tidy_docName {a : List Char} (h : TidyPath a) : TidyPath (docName a) ∧ docName a ≠ ['-'] := by
  unfold docName
  split
  · exact ⟨.plain (by decide), by decide⟩
  · rename_i h'; exact ⟨h, h'⟩

theorem schemaFor_iff {W : World F} {d : Disk} {a : List Char} {v : Value} {o : Option (List Char)}
    {sf : Schema.SchemaFile F} (ht : TidyPath a) :
    W.schemaFor d v (docName a) o = .ok sf ↔ ∃ t, SchemaText W d a v o t ∧ W.readSchema t = some sf := by
  obtain ⟨ht1, ht2⟩ := tidy_docName ht
  unfold World.schemaFor
  cases o with
  | some path =>
    dsimp only
    rw [loadSchema_iff]
    constructor
    · rintro ⟨t, h1, h2⟩; exact ⟨t, .given h1, h2⟩
    · rintro ⟨t, h1, h2⟩
      cases h1 with
      | given h => exact ⟨t, h, h2⟩
  | none =>
    dsimp only
    constructor
    · intro h
      cases hf : findSchemaDeclaration v with
      | error e => rw [hf] at h; cases h
      | ok r =>
        rw [hf] at h
        obtain ⟨w, hw, hr⟩ := findDeclaration_iff.1 hf
        unfold declarationOf at hr
        cases hs : w.asStr with
        | some path =>
          rw [hs] at hr
          cases hr
          dsimp only at h
          cases hres : resolveSchemaPath path (docName a) with
          | error e => rw [hres] at h; cases h
          | ok place =>
            rw [hres] at h
            obtain ⟨t, h1, h2⟩ := loadSchema_iff.1 h
            have hu : ¬ IsUrl path := fun hu => by rw [resolve_url hu] at hres; cases hres
            exact ⟨t, .file hw hs hu (nextTo_docName.1 ((resolve_nextTo ht1 ht2 hu).1 hres)) h1, h2⟩
        | none =>
          rw [hs] at hr
          dsimp only at hr
          cases ho : w.asObject with
          | none => rw [ho] at hr; cases hr
          | some es =>
            rw [ho] at hr
            dsimp only at hr
            cases hc : (objGet es (chars! "cli")).bind Value.asStr with
            | none => rw [hc] at hr; cases hr
            | some cli =>
              rw [hc] at hr
              cases hr
              obtain ⟨c, hc1, hc2⟩ := Option.bind_eq_some_iff.1 hc
              obtain ⟨ss, t, h1, h2, ⟨h3, ts, rfl⟩ | ⟨i, bef, aft, h3, rfl, h4, h5⟩⟩ := embedded_text.1 h
              · exact ⟨t, .first hw hs ho hc1 hc2 h3 h1, h2⟩
              · obtain ⟨iv, hi1, hi2⟩ := Option.bind_eq_some_iff.1 h3
                exact ⟨t, .identified hw hs ho hc1 hc2 hi1 hi2 h1 h4 h5, h2⟩
    · rintro ⟨t, h, h2⟩
      cases h with
      | @file w path place _ hw hs hu hn hh =>
        rw [findDeclaration_iff.2 ⟨w, hw, show declarationOf w = .ok (.external path) by simp [declarationOf, hs]⟩]
        dsimp only
        rw [(resolve_nextTo ht1 ht2 hu).2 (nextTo_docName.2 hn)]
        exact loadSchema_iff.2 ⟨t, hh, h2⟩
      | @first w es c cli _ ts hw hs ho hc1 hc2 hi he =>
        rw [findDeclaration_iff.2 ⟨w, hw, show declarationOf w = .ok (.embedded none cli) by
          simp [declarationOf, hs, ho, hc1, hc2, hi]⟩]
        exact embedded_text.2 ⟨_, t, he, h2, .inl ⟨rfl, ts, rfl⟩⟩
      | @identified w es c cli i id bef _ aft hw hs ho hc1 hc2 hi1 hi2 he h4 h5 =>
        rw [findDeclaration_iff.2 ⟨w, hw, show declarationOf w = .ok (.embedded (some id) cli) by
          simp [declarationOf, hs, ho, hc1, hc2, hi1, hi2]⟩]
        exact embedded_text.2 ⟨_, t, he, h2, .inr ⟨id, bef, aft, rfl, rfl, h4, h5⟩⟩

theorem loadSchema_error {W : World F} {d : Disk} {path : List Char} {e : Exit} (h : W.loadSchema d path = .error e) :
    e = .failed .io ∨ e = .failed .parse := by
  unfold World.loadSchema at h
  cases hr : W.readText d path with
  | error e' => rw [hr] at h; cases h; exact .inl (readText_error hr)
  | ok t =>
    rw [hr] at h
    dsimp only [World.parseSchema] at h
    split at h
    · cases h
    · cases h; exact .inr rfl

theorem findEmbedded_error {id : List Char} {e : Exit} : ∀ {ss : List (List Char)}, findEmbedded id ss = .error e →
    e = .failed .validation ∨ e = .panics
  | [], h => by cases h; exact .inl rfl
  | s :: ss, h => by
    unfold findEmbedded at h
    split at h
    · cases h; exact .inr rfl
    · split at h
      · cases h
      · exact findEmbedded_error h
    · exact findEmbedded_error h

theorem schemaFor_error {W : World F} {d : Disk} {v : Value} {doc : List Char} {o : Option (List Char)} {e : Exit}
    (h : W.schemaFor d v doc o = .error e) : e ≠ .success := by
  rintro rfl
  have load : ∀ path, W.loadSchema d path ≠ .error .success := by
    intro path h
    rcases loadSchema_error h with h | h <;> cases h
  unfold World.schemaFor at h
  split at h
  · exact load _ h
  · split at h
    · rename_i hf
      cases h
      unfold findSchemaDeclaration declarationOf at hf
      split at hf
      · cases hf
      · split at hf
        · split at hf
          · cases hf
          · split at hf
            · split at hf <;> cases hf
            · cases hf
        · cases hf
    · split at h
      · rename_i hr
        cases h
        unfold resolveSchemaPath at hr
        split at hr
        · cases hr
        · split at hr
          · cases hr
          · split at hr <;> cases hr
      · exact load _ h
    · unfold World.extract at h
      split at h
      · cases h
      · cases h
      · split at h
        · rename_i he
          cases h
          split at he
          · rcases findEmbedded_error he with h | h <;> cases h
          · cases he
        · unfold World.parseSchema at h
          split at h <;> cases h

end Styx.Cli
