import Verif.Lsp.Complete
import Verif.Lsp.TokenLemmas
import Verif.Props.Navigate
import Verif.Props.Lsp

/-!
# C83: completion offers the fields that are missing, and accepting one replaces the word before the cursor
-/

namespace Styx.Props

open Styx Styx.Spec Styx.Lsp

/-! ## The word before the cursor -/

/-- A character of a word: no whitespace and no brace. -/
def WordChar (c : Char) : Prop := isWhitespace c = false ∧ c ≠ '{' ∧ c ≠ '}'

/-- What stands before a word: nothing, or something that ends with a blank, a line break or a brace. -/
def EndsWord (pre : List Char) : Prop :=
  pre = [] ∨ ∃ q c, pre = q ++ [c] ∧ (c = ' ' ∨ c = '\t' ∨ c = '\n' ∨ c = '{' ∨ c = '}')

theorem isBreak_word {c : Char} (h : WordChar c) : isBreak c = false := by
  simp [isBreak, h.1, h.2.1, h.2.2]

theorem rfindBreak_word {w : List Char} (h : ∀ c ∈ w, WordChar c) : ∀ i, rfindBreak i w = none := by
  induction w with
  | nil => intro i; rfl
  | cons c w ih =>
    intro i
    rw [rfindBreak, ih (fun x hx => h x (List.mem_cons_of_mem _ hx)), isBreak_word (h c (List.mem_cons_self ..))]
    rfl

theorem rfindBreak_at {w : List Char} (h : ∀ c ∈ w, WordChar c) {b : Char} (hb : isBreak b = true) (q : List Char) :
    ∀ i, rfindBreak i (q ++ b :: w) = some (i + utf8Len q) := by
  induction q with
  | nil => intro i; rw [List.nil_append, rfindBreak, rfindBreak_word h, hb]; simp [utf8Len]
  | cons c q ih => intro i; rw [List.cons_append, rfindBreak, ih]; simp only [utf8Len]; congr 1; omega

theorem wordStart_at {pre w : List Char} (hp : EndsWord pre) (h : ∀ c ∈ w, WordChar c) :
    wordStart (pre ++ w) = utf8Len pre := by
  rcases hp with rfl | ⟨q, c, rfl, hc⟩
  · rw [wordStart, List.nil_append, rfindBreak_word h]; rfl
  · have hb : isBreak c = true := by rcases hc with rfl | rfl | rfl | rfl | rfl <;> decide
    have hl : c.utf8Size = 1 := by rcases hc with rfl | rfl | rfl | rfl | rfl <;> decide
    rw [wordStart, List.append_assoc, List.singleton_append, rfindBreak_at h hb]
    simp [utf8Len_append, utf8Len, hl]

theorem applyEdit_replace {doc pre w post text : List Char} {a b : Position} (hd : doc = pre ++ w ++ post)
    (ha : fromPosition doc a = w ++ post) (hb : fromPosition doc b = post) :
    applyEdit doc ⟨a, b, text⟩ = pre ++ text ++ post := by
  rw [applyEdit, ha, hb, hd]
  simp

/-- The word before the cursor is found, and an edit of its range replaces it and nothing else. -/
theorem word_at {pre w post : List Char} (hs : ∀ c ∈ pre ++ w ++ post, c ≠ '\r' ∧ utf16Units c = 1)
    (hp : EndsWord pre) (hw : ∀ c ∈ w, WordChar c) {p : Position} (hpos : fromPosition (pre ++ w ++ post) p = post) :
    ∃ r, wordRange (pre ++ w ++ post) p = .done r ∧ r.map (·.1) = (if w = [] then none else some w) ∧
      ∀ text, applyEdit (pre ++ w ++ post) ⟨((r.map (·.2)).getD (p, p)).1, ((r.map (·.2)).getD (p, p)).2, text⟩ =
        pre ++ text ++ post := by
  have hoff : positionToOffset (pre ++ w ++ post) p = utf8Len (pre ++ w) := by
    have := positionToOffset_fromPosition _ hs p
    rw [hpos, utf8Len_append (a := pre ++ w)] at this
    omega
  by_cases hn : w = []
  · subst hn
    refine ⟨none, ?_, rfl, fun text => applyEdit_replace (w := []) rfl (by simpa using hpos) hpos⟩
    rw [wordRange]
    by_cases h0 : positionToOffset (pre ++ [] ++ post) p = 0
    · rw [if_pos h0]
    · rw [if_neg h0, hoff, takeBytes_app]
      simp only [wordStart_at hp hw]
      rw [dropBytes_app]
  · refine ⟨some (w, offsetToPosition (pre ++ w ++ post) (utf8Len pre), p), ?_, by simp [hn], fun text => ?_⟩
    · rw [wordRange, if_neg, hoff, takeBytes_app]
      · simp only [wordStart_at hp hw]
        rw [dropBytes_app]
        cases w with
        | nil => exact absurd rfl hn
        | cons c w => rfl
      · intro h0
        rw [hoff] at h0
        have := utf8Len_eq_zero.1 h0
        simp [hn] at this
    · refine applyEdit_replace rfl ?_ hpos
      have := C51_send_partial pre (w ++ post) (by simpa using hs)
      simpa using this

/-! ## Sorting -/

theorem mem_insertByKey {α : Type} {key : α → Nat} {x y : α} {l : List α} :
    y ∈ insertByKey key x l ↔ y = x ∨ y ∈ l := by
  induction l with
  | nil => simp [insertByKey]
  | cons z l ih =>
    rw [insertByKey]
    split
    · simp
    · simp only [List.mem_cons, ih]; grind

theorem length_insertByKey {α : Type} {key : α → Nat} {x : α} {l : List α} :
    (insertByKey key x l).length = l.length + 1 := by
  induction l with
  | nil => rfl
  | cons z l ih => rw [insertByKey]; split <;> simp [ih]

theorem sorted_insertByKey {α : Type} {key : α → Nat} {x : α} {l : List α} (h : l.Pairwise (key · ≤ key ·)) :
    (insertByKey key x l).Pairwise (key · ≤ key ·) := by
  induction l with
  | nil => simp [insertByKey]
  | cons z l ih =>
    rw [insertByKey]
    rw [List.pairwise_cons] at h
    split
    · rename_i hxz
      refine List.pairwise_cons.2 ⟨fun y hy => ?_, List.pairwise_cons.2 h⟩
      rcases List.mem_cons.1 hy with rfl | hy
      · exact hxz
      · exact Nat.le_trans hxz (h.1 y hy)
    · rename_i hxz
      refine List.pairwise_cons.2 ⟨fun y hy => ?_, ih h.2⟩
      rcases mem_insertByKey.1 hy with rfl | hy
      · omega
      · exact h.1 y hy

theorem mem_sortByKey {α : Type} {key : α → Nat} {y : α} {l : List α} : y ∈ sortByKey key l ↔ y ∈ l := by
  induction l with
  | nil => rfl
  | cons x l ih => rw [sortByKey, mem_insertByKey, ih, List.mem_cons]

theorem length_sortByKey {α : Type} {key : α → Nat} {l : List α} : (sortByKey key l).length = l.length := by
  induction l with
  | nil => rfl
  | cons x l ih => rw [sortByKey, length_insertByKey, ih, List.length_cons]

theorem sorted_sortByKey {α : Type} {key : α → Nat} {l : List α} : (sortByKey key l).Pairwise (key · ≤ key ·) := by
  induction l with
  | nil => exact .nil
  | cons x l ih => exact sorted_insertByKey ih

/-- What is first in the order is taken, unless enough others are. -/
theorem take_first {α : Type} {key : α → Nat} {l : List α} {n : Nat} {x : α} (hx : x ∈ l) :
    x ∈ (sortByKey key l).take n ∨
      (((sortByKey key l).take n).length = n ∧ ∀ y ∈ (sortByKey key l).take n, key y ≤ key x) := by
  have hs := sorted_sortByKey (key := key) (l := l)
  have hm := mem_sortByKey (key := key).2 hx
  generalize sortByKey key l = s at hs hm ⊢
  by_cases h : x ∈ s.take n
  · exact .inl h
  · right
    rw [← List.take_append_drop n s] at hm hs
    rcases List.mem_append.1 hm with hm | hm
    · exact absurd hm h
    · refine ⟨?_, fun y hy => (List.pairwise_append.1 hs).2.2 y hy x hm⟩
      rw [List.length_take]
      have := List.length_pos_of_mem hm
      rw [List.length_drop] at this
      omega

/-! ## The fields -/

variable {F : Type}

/-- A declared field that the object does not have. -/
def MissingField (fields : List (SchemaField F)) (es : List Entry) (f : SchemaField F) : Prop :=
  f ∈ fields ∧ ∀ e ∈ es, e.key.asStr ≠ some f.name

/-- The text begins with another, without regard to case. -/
def BeginsWith (lower : List Char → List Char) (s p : List Char) : Prop := ∃ r, lower s = lower p ++ r

/-- Neither optional nor with a default. -/
def RequiredField (f : SchemaField F) : Prop := f.optional = false ∧ f.defaultValue = none

theorem startsWith_iff {s p : List Char} : startsWith s p = true ↔ ∃ r, s = p ++ r := by
  have : ∀ p s : List Char, (stripPrefix p s).isSome = true ↔ ∃ r, s = p ++ r := by
    intro p
    induction p with
    | nil => intro s; simp [stripPrefix]
    | cons c p ih =>
      intro s
      cases s with
      | nil => simp [stripPrefix]
      | cons d s =>
        rw [stripPrefix]
        split
        · rename_i h
          have h : c = d := by simpa using h
          subst h
          rw [ih]; simp
        · rename_i h
          simp only [Option.isSome_none, Bool.false_eq_true, false_iff]
          rintro ⟨r, hr⟩
          simp only [List.cons_append, List.cons.injEq] at hr
          exact h (by simp [hr.1])
  exact this p s

theorem available_iff {fields : List (SchemaField F)} {es : List Entry} {x : List Char × List Char} :
    x ∈ ((fields.map fun f => (f.name, fieldDetail f)).filter fun f => !(existingNames es).contains f.1) ↔
      ∃ f, MissingField fields es f ∧ x = (f.name, fieldDetail f) := by
  simp only [List.mem_filter, List.mem_map, existingNames, Bool.not_eq_true', List.contains_eq_mem,
    decide_eq_false_iff_not, List.mem_filterMap, MissingField]
  constructor
  · rintro ⟨⟨f, hf, rfl⟩, h⟩
    exact ⟨f, ⟨hf, fun e he h' => h ⟨e, he, h'⟩⟩, rfl⟩
  · rintro ⟨f, ⟨hf, h⟩, rfl⟩
    exact ⟨⟨f, hf, rfl⟩, fun ⟨e, he, h'⟩ => h e he h'⟩

theorem unwrap_inner (s : Schema.Schema F) : (∀ t, (unwrapModifiers s).2.2 ≠ .optional t) ∧
    ∀ d t, (unwrapModifiers s).2.2 ≠ .default d t := by
  induction s using unwrapModifiers.induct with
  | case1 s ih => simpa [unwrapModifiers] using ih
  | case2 v s ih => simpa [unwrapModifiers] using ih
  | case3 v s ih => simpa [unwrapModifiers] using ih
  | case4 s h1 h2 h3 =>
    rw [unwrapModifiers]
    · exact ⟨fun t => h1 t, fun d t => h2 d t⟩
    all_goals assumption

theorem collect_inner {sf : Schema.SchemaFile F} : ∀ {fuel : Nat} {s : Schema.Schema F} {fields : List (SchemaField F)},
    collectFields sf fuel s = .done fields → ∀ f ∈ fields, (∀ t, f.schema ≠ .optional t) ∧ ∀ d t, f.schema ≠ .default d t := by
  intro fuel
  induction fuel with
  | zero => intro s fields h; cases h
  | succ fuel ih =>
    intro s fields h
    have own : ∀ decl : List (Schema.ObjectKey × Schema.Schema F), ∀ f ∈ ownFields decl,
        (∀ t, f.schema ≠ .optional t) ∧ ∀ d t, f.schema ≠ .default d t := by
      intro decl f hf
      simp only [ownFields, List.mem_filterMap, Option.map_eq_some_iff] at hf
      obtain ⟨d, _, n, _, rfl⟩ := hf
      exact unwrap_inner d.2
    cases s with
    | object decl => cases h; exact own _
    | flatten i => exact ih h
    | type n =>
      cases n with
      | none => cases h; simp
      | some n =>
        rw [collectFields] at h
        cases hl : Schema.lookup (some n) sf with
        | none => rw [hl] at h; cases h; simp
        | some s' =>
          rw [hl] at h
          simp only at h
          cases hr : resolveType sf fuel s' with
          | done t => rw [hr] at h; exact ih h
          | panics => rw [hr] at h; cases h
          | runsOut => rw [hr] at h; cases h
    | _ => cases h; simp

theorem fields_inner {sf : Schema.SchemaFile F} {fuel : Nat} {path : List (List Char)} {fields : List (SchemaField F)}
    (h : fieldsAtPath sf fuel path = .done fields) :
    ∀ f ∈ fields, (∀ t, f.schema ≠ .optional t) ∧ ∀ d t, f.schema ≠ .default d t := by
  unfold fieldsAtPath at h
  cases hs : schemaAtPath sf fuel path with
  | panics => rw [hs] at h; cases h
  | runsOut => rw [hs] at h; cases h
  | done r =>
    rw [hs] at h
    cases r with
    | none => cases h; simp
    | some s =>
      simp only [Outcome.bind] at h
      cases hr : resolveType sf fuel s with
      | done t => rw [hr] at h; exact collect_inner h
      | panics => rw [hr] at h; cases h
      | runsOut => rw [hr] at h; cases h

theorem looksOptional_not {f : SchemaField F} (h : looksOptional (fieldDetail f) = false) : RequiredField f := by
  rw [fieldDetail] at h
  by_cases ho : f.optional = true
  · rw [if_pos ho] at h
    simp [looksOptional, startsWith, stripPrefix] at h
  · rw [if_neg ho] at h
    refine ⟨by simpa using ho, ?_⟩
    cases hd : f.defaultValue with
    | none => rfl
    | some d => rw [hd] at h; simp [looksOptional, startsWith, stripPrefix] at h

theorem looksOptional_required {f : SchemaField F} (h : RequiredField f) (h1 : ∀ t, f.schema ≠ .optional t)
    (h2 : ∀ d t, f.schema ≠ .default d t)
    (h3 : ∀ n, f.schema = .type (some n) → (∀ r, n ≠ (chars! "optional") ++ r) ∧ ∀ r, n ≠ (chars! "default") ++ r) :
    looksOptional (fieldDetail f) = false := by
  rw [fieldDetail, h.1, h.2]
  simp only [Bool.false_eq_true, if_false]
  cases hs : f.schema with
  | optional t => exact absurd hs (h1 t)
  | default d t => exact absurd hs (h2 d t)
  | type n =>
    cases n with
    | none => rfl
    | some n =>
      have := h3 n hs
      rw [typeStr, looksOptional, Bool.or_eq_false_iff]
      constructor
      · refine Bool.eq_false_iff.2 fun h => ?_
        obtain ⟨r, hr⟩ := startsWith_iff.1 h
        exact this.1 r (by simpa using hr)
      · refine Bool.eq_false_iff.2 fun h => ?_
        obtain ⟨r, hr⟩ := startsWith_iff.1 h
        exact this.2 r (by simpa using hr)
  | literal s => simp [typeStr, looksOptional, startsWith, stripPrefix]
  | deprecated s t => simp [typeStr, looksOptional, startsWith, stripPrefix]
  | tuple ss => simp [typeStr, looksOptional, startsWith, stripPrefix]
  | _ => simp [typeStr, looksOptional, startsWith, stripPrefix]

/-- **C83**: only missing fields are offered; all of them when there are at most fifty; else, when a word was
typed, first those that begin with it, and without a word first those that are required.  Missing: a required
field whose type has a name that begins with `optional` or `default` counts as optional (`C83_required_false`). -/
theorem C83_fields_partial (lower : List Char → List Char) (sf : Schema.SchemaFile F) (fuel : Nat)
    (content : List Char) (tree : Value) (p : Position) (ctx : ObjectContext) (fields : List (SchemaField F))
    (word : Option (List Char × Position × Position))
    (h1 : findObject (positionToOffset content p) [] tree = some ctx) (h2 : fieldsAtPath sf fuel ctx.path = .done fields)
    (h3 : wordRange content p = .done word) :
    ∃ items, completion lower sf fuel content tree p = .done items ∧
      (∀ it ∈ items, ∃ f, MissingField fields ctx.entries f ∧ it.label = f.name) ∧
      (fields.length ≤ 50 → ∀ f, MissingField fields ctx.entries f → ∃ it ∈ items, it.label = f.name) ∧
      (∀ w range, word = some (w, range) → ∀ f, MissingField fields ctx.entries f → BeginsWith lower f.name w →
        (∃ it ∈ items, it.label = f.name) ∨ (items.length = 50 ∧ ∀ it ∈ items, BeginsWith lower it.label w)) ∧
      (word = none → ∀ f, MissingField fields ctx.entries f → RequiredField f →
        (∀ n, f.schema = .type (some n) → (∀ r, n ≠ (chars! "optional") ++ r) ∧ ∀ r, n ≠ (chars! "default") ++ r) →
        (∃ it ∈ items, it.label = f.name) ∨ (items.length = 50 ∧ ∀ it ∈ items, ∃ g, MissingField fields ctx.entries g ∧
          RequiredField g ∧ it.label = g.name)) := by
  refine ⟨_, by rw [completion, h1]; simp only [h2, h3, Outcome.bind]; rfl, ?_⟩
  generalize hav : ((fields.map fun f => (f.name, fieldDetail f)).filter
    fun f => !(existingNames ctx.entries).contains f.1) = av
  have hmem : ∀ {x}, x ∈ av ↔ ∃ f, MissingField fields ctx.entries f ∧ x = (f.name, fieldDetail f) := by
    intro x; rw [← hav]; exact available_iff
  have hlen : av.length ≤ fields.length := by
    rw [← hav]; exact Nat.le_trans (List.length_filter_le ..) (by simp)
  simp only [List.mem_map, List.length_map]
  refine ⟨?_, ?_, ?_, ?_⟩
  · rintro _ ⟨x, hx, rfl⟩
    have : x ∈ av := by
      unfold offered at hx
      split at hx
      · split at hx
        · simp only [List.mem_map] at hx
          obtain ⟨⟨y, n⟩, hy, rfl⟩ := hx
          have := mem_sortByKey.1 (List.mem_of_mem_take hy)
          simp only [List.mem_filterMap, Option.map_eq_some_iff] at this
          obtain ⟨z, hz, m, -, he⟩ := this
          cases he; exact hz
        · exact mem_sortByKey.1 (List.mem_of_mem_take hx)
      · exact hx
    obtain ⟨f, hf, rfl⟩ := hmem.1 this
    exact ⟨f, hf, rfl⟩
  · intro hle f hf
    refine ⟨_, ⟨(f.name, fieldDetail f), ?_, rfl⟩, rfl⟩
    unfold offered
    rw [if_neg (by omega)]
    exact hmem.2 ⟨f, hf, rfl⟩
  · rintro w range rfl f hf hb
    have hfa := hmem.2 ⟨f, hf, rfl⟩
    simp only [Option.map_some]
    rw [offered]
    by_cases hgt : av.length > 50
    · rw [if_pos hgt]
      have hin : ((f.name, fieldDetail f), 0) ∈ av.filterMap fun f => (score lower w f.1).map (f, ·) := by
        rw [List.mem_filterMap]
        refine ⟨_, hfa, ?_⟩
        rw [score, if_pos (startsWith_iff.2 hb)]
        rfl
      rcases take_first (key := (·.2)) (n := 50) hin with h | ⟨h, h'⟩
      · exact .inl ⟨_, ⟨_, List.mem_map_of_mem (f := (·.1)) h, rfl⟩, rfl⟩
      · refine .inr ⟨by rw [List.length_map]; exact h, ?_⟩
        rintro _ ⟨x, hx, rfl⟩
        obtain ⟨⟨y, n⟩, hy, rfl⟩ := List.mem_map.1 hx
        have hn := h' _ hy
        have := mem_sortByKey.1 (List.mem_of_mem_take hy)
        simp only [List.mem_filterMap, Option.map_eq_some_iff] at this
        obtain ⟨z, hz, m, hm, he⟩ := this
        cases he
        simp only at hn
        rw [score] at hm
        split at hm
        · rename_i hsw
          exact startsWith_iff.1 hsw
        · exfalso
          split at hm
          · cases hm; omega
          · simp only at hm
            split at hm
            · cases hm; omega
            · cases hm
    · rw [if_neg hgt]
      exact .inl ⟨_, ⟨_, hfa, rfl⟩, rfl⟩
  · rintro rfl f hf hr hn
    have hfa := hmem.2 ⟨f, hf, rfl⟩
    have hin := fields_inner h2 f hf.1
    have hlo := looksOptional_required hr hin.1 hin.2 hn
    simp only [Option.map_none]
    rw [offered]
    by_cases hgt : av.length > 50
    · rw [if_pos hgt]
      rcases take_first (key := fun f : List Char × List Char => if looksOptional f.2 then 1 else 0) (n := 50) hfa with h | ⟨h, h'⟩
      · exact .inl ⟨_, ⟨_, h, rfl⟩, rfl⟩
      · refine .inr ⟨h, ?_⟩
        rintro _ ⟨x, hx, rfl⟩
        obtain ⟨g, hg, rfl⟩ := hmem.1 (mem_sortByKey.1 (List.mem_of_mem_take hx))
        refine ⟨g, hg, looksOptional_not ?_, rfl⟩
        have := h' _ hx
        simp only [hlo] at this
        cases hl : looksOptional (fieldDetail g) with
        | false => rfl
        | true => simp [hl] at this
    · rw [if_neg hgt]
      exact .inl ⟨_, ⟨_, hfa, rfl⟩, rfl⟩

/-- **C83**, for documents without carriage returns whose characters are one UTF-16 unit: with the cursor behind
the word `w`, accepting an item replaces exactly `w` by the name of the field and a blank. -/
theorem C83_accept_partial (lower : List Char → List Char) (sf : Schema.SchemaFile F) (fuel : Nat)
    (tree : Value) {pre w post : List Char} (hs : ∀ c ∈ pre ++ w ++ post, c ≠ '\r' ∧ utf16Units c = 1)
    (hp : EndsWord pre) (hw : ∀ c ∈ w, WordChar c) {p : Position} (hpos : fromPosition (pre ++ w ++ post) p = post)
    {items : List CompletionItem} (h : completion lower sf fuel (pre ++ w ++ post) tree p = .done items) :
    ∀ it ∈ items, applyEdit (pre ++ w ++ post) it.edit = pre ++ it.label ++ ' ' :: post := by
  obtain ⟨r, hr, -, he⟩ := word_at hs hp hw hpos
  rw [completion] at h
  cases hf : findObject (positionToOffset (pre ++ w ++ post) p) [] tree with
  | none => rw [hf] at h; cases h; simp
  | some ctx =>
    rw [hf] at h
    simp only [hr, Outcome.bind] at h
    split at h
    · cases h
      simp only [List.mem_map]
      rintro _ ⟨f, -, rfl⟩
      rw [he]
      simp
    · cases h
    · cases h

/-! ## What does not hold -/

/-- The items of a completion in a document, as labels with the document that accepting them gives; `none` when
there is no answer. -/
def completions (sf : Schema.SchemaFile Nat) (content : List Char) (p : Position) :
    Option (List (List Char × List Char)) :=
  match parseTree content with
  | some (.ok t) =>
    match completion id sf 20 content t p with
    | .done items => some (items.map fun it => (it.label, applyEdit content it.edit))
    | _ => none
  | _ => none

/-- A schema with the field `x`, an object with a number `a` and a string `name`. -/
def smallSchema : Schema.SchemaFile Nat :=
  [(none, .object [(.named ['x'], .object [(.named ['a'], .int none), (.named (chars! "name"), .string none)])])]

/-- With a blank before the word all is well. -/
example : completions smallSchema (chars! "x {a 1, na}") ⟨0, 10⟩ =
    some [(chars! "name", chars! "x {a 1, name }")] := by decide +kernel

/-- The hypotheses of `C83_accept_partial` and `C83_fields_partial` are met by it. -/
example : (∀ c ∈ (chars! "x {a 1, ") ++ (chars! "na") ++ ['}'], c ≠ '\r' ∧ utf16Units c = 1) ∧
    EndsWord (chars! "x {a 1, ") ∧ (∀ c ∈ chars! "na", WordChar c) ∧
    fromPosition ((chars! "x {a 1, ") ++ (chars! "na") ++ ['}']) ⟨0, 10⟩ = ['}'] :=
  ⟨by decide, .inr ⟨chars! "x {a 1,", ' ', rfl, .inl rfl⟩, by unfold WordChar; decide, by decide +kernel⟩

/-- A comma does not end a word: with `x {a 1,na}` accepting `name` also removes the `1` and the comma, the value
of another entry. -/
theorem C83_comma_false : completions smallSchema (chars! "x {a 1,na}") ⟨0, 9⟩ =
    some [(chars! "name", chars! "x {a name }")] := by decide +kernel

/-- Nor does a parenthesis: the start of a sequence is removed. -/
theorem C83_paren_false :
    completions [(none, .object [(.named (chars! "ab"), .int none)])] (chars! "x (a)") ⟨0, 4⟩ =
      some [(chars! "ab", chars! "x ab )")] := by decide +kernel

theorem dropBytes_inside {c : Char} (hc : 1 < c.utf8Size) (w : List Char) :
    ∀ q : List Char, Styx.dropBytes (utf8Len q + 1) (q ++ c :: w) = none := by
  intro q
  induction q with
  | nil =>
    simp only [utf8Len, List.nil_append, Nat.zero_add, Styx.dropBytes]
    rw [if_neg (by omega)]
  | cons d q ih =>
    simp only [utf8Len, List.cons_append, Styx.dropBytes]
    rw [if_pos (by omega), show d.utf8Size + utf8Len q + 1 - d.utf8Size = utf8Len q + 1 by omega, ih]

/-- A request for completion panics whenever the last character before the word is whitespace of more than one
byte, such as a no-break space, for every document, schema and tree. -/
theorem C83_space_false (lower : List Char → List Char) (sf : Schema.SchemaFile F) (fuel : Nat)
    (tree : Value) {q w post : List Char} {c : Char} (hc : isWhitespace c = true) (h1 : 1 < c.utf8Size)
    (hs : ∀ x ∈ q ++ c :: w ++ post, x ≠ '\r' ∧ utf16Units x = 1) (hw : ∀ x ∈ w, WordChar x)
    {p : Position} (hpos : fromPosition (q ++ c :: w ++ post) p = post) (ctx : ObjectContext)
    (h2 : findObject (positionToOffset (q ++ c :: w ++ post) p) [] tree = some ctx) (fields : List (SchemaField F))
    (h3 : fieldsAtPath sf fuel ctx.path = .done fields) :
    completion lower sf fuel (q ++ c :: w ++ post) tree p = .panics := by
  have hoff : positionToOffset (q ++ c :: w ++ post) p = utf8Len (q ++ c :: w) := by
    have := positionToOffset_fromPosition _ hs p
    rw [hpos, utf8Len_append (a := q ++ c :: w)] at this
    omega
  have hpanic : wordRange (q ++ c :: w ++ post) p = .panics := by
    rw [wordRange, if_neg, hoff, takeBytes_app]
    · have hst : wordStart (q ++ c :: w) = utf8Len q + 1 := by
        rw [wordStart, rfindBreak_at hw (by simp [isBreak, hc])]
        simp
      simp only [hst, dropBytes_inside h1]
    · intro h0
      rw [hoff] at h0
      have := utf8Len_eq_zero.1 h0
      simp at this
  rw [completion, h2]
  simp only [h3, hpanic, Outcome.bind]

/-- A document with a no-break space in a string. -/
example : (match parseTree (chars! "x \"a\u00a0b\"") with | some (.ok t) => some (completion id smallSchema 20 (chars! "x \"a\u00a0b\"") t ⟨0, 6⟩) | _ => none) = some .panics := by
  decide +kernel

/-- Fifty optional fields, and a required one whose type is called `optional-settings`. -/
def manyFields : Schema.SchemaFile Nat :=
  [(none, .object (((List.range 50).map fun i => (.named (List.replicate (i + 1) 'a'), .optional .bool)) ++
    [(.named ['z'], .type (some (chars! "optional-settings")))])),
   (some (chars! "optional-settings"), .bool)]

/-- The required field is the one that is not offered. -/
theorem C83_required_false :
    ((completions manyFields [] ⟨0, 0⟩).map fun l => (l.length, l.any fun x => x.1 == ['z'])) = some (50, false) := by
  decide +kernel

end Styx.Props
