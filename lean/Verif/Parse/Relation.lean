import Verif.Parse.Events

/-!
# Big-step relations for the parser

`AtomR`, `ObjR`, `SeqR`, `AttrsR`, `CollectR`, `RestR` and `RunR` describe the possible runs of the
functions of `Verif.Parse.Parser` and `Verif.Parse.Events` without fuel.  `parse_total` and
`run_total` show that the functions always succeed with the fuel they are given and that what they
compute is related.  Invariants of the parser are then proved by induction on these relations.
-/

namespace Styx

/-- The atom of a lexeme that makes an atom on its own. -/
def leafAtom (input : List Char) : Lexeme → Option Atom
  | .scalar sp v k => some (.scalar sp v k)
  | .error sp msg =>
    if msg.containsEscape then
      match sliceBytes input sp.start sp.stop with
      | some raw => some (.invalidEscapeScalar sp (stripQuotes raw))
      | none => some (.panic sp)
    else some (.error sp msg)
  | .objectEnd sp | .seqEnd sp | .comma sp | .newline sp | .comment sp _ | .docComment sp _ =>
    some (.error sp .unexpectedToken)
  | .eof => some (.error ⟨utf8Len input, utf8Len input⟩ .unexpectedEof)
  | .panic sp => some (.panic sp)
  | _ => none

/-- Lexemes skipped between the entries of an object. -/
def Lexeme.objSkip : Lexeme → Bool
  | .newline _ | .comma _ | .comment _ _ => true
  | _ => false

/-- Lexemes skipped between the elements of a sequence. -/
def Lexeme.seqSkip : Lexeme → Bool
  | .newline _ | .comment _ _ | .docComment _ _ => true
  | _ => false

/-- Lexemes that begin an entry in `parseObject`. -/
def Lexeme.startsEntry : Lexeme → Bool
  | .eof | .objectEnd _ | .newline _ | .comma _ | .comment _ _ | .docComment _ _ => false
  | _ => true

/-- Lexemes that begin an element in `parseSequence`. -/
def Lexeme.startsElem : Lexeme → Bool
  | .eof | .seqEnd _ | .newline _ | .comma _ | .comment _ _ | .docComment _ _ => false
  | _ => true

/-- Lexemes that end an entry. -/
def Lexeme.endsEntry : Lexeme → Bool
  | .eof | .newline _ | .comma _ | .objectEnd _ | .seqEnd _ => true
  | _ => false

/-- Lexemes that begin a further atom of an entry. -/
def Lexeme.startsAtom : Lexeme → Bool
  | .eof | .newline _ | .comma _ | .objectEnd _ | .seqEnd _ | .comment _ _ | .docComment _ _ => false
  | _ => true

/-- The warning `collectRest` emits before the further atom beginning with a lexeme. -/
def missingSpace (first : Atom) (only : Bool) : Lexeme → List Event
  | .objectStart sp | .seqStart sp =>
    if only = true ∧ first.isBare = true ∧ first.span.stop = sp.start then
      [⟨sp, .error .missingWhitespaceBeforeBlock⟩]
    else []
  | _ => []

/-- The bookkeeping of keys in `parseObject`. -/
def noteKey (key : Atom) (seen : List (KeyValue × Span)) (dups : List (Span × Span)) :
    List (KeyValue × Span) × List (Span × Span) :=
  match lookupKey (KeyValue.fromAtom key) seen with
  | some original => (seen, (original, key.span) :: dups)
  | none => ((KeyValue.fromAtom key, key.span) :: seen, dups)

mutual
/-- Runs of `parseAtom`. -/
inductive AtomR (input : List Char) :
    Lexeme → List Lexeme → Atom → List Event → List Lexeme → Prop
  | leaf {l ls a} : leafAtom input l = some a → AtomR input l ls a [] ls
  | unit {sp ls} : AtomR input (.unit sp) ls (.unit sp) [] ls
  | unitBare {sp sp' v ls} : sp'.start = sp.stop →
      AtomR input (.unit sp) (.scalar sp' v .bare :: ls)
        (.tag ⟨sp.start, sp'.stop⟩ [] (some (.scalar sp' v .bare)) true (some sp')) [] ls
  | tag {sp name hp ls} : (hp = false ∨ 1 < (splitChainedTagName name sp.start).length) →
      AtomR input (.tag sp name hp) ls (buildTagChain (splitChainedTagName name sp.start) none) [] ls
  | tagPayload {sp name hp ls nxt ls' p evs ls''} : nextLex ls = (nxt, ls') →
      (hp = true ∧ (splitChainedTagName name sp.start).length ≤ 1 ∨
        nxt.span.start = sp.stop ∧ nxt.canBeTagPayload = true) →
      AtomR input nxt ls' p evs ls'' →
      AtomR input (.tag sp name hp) ls
        (buildTagChain (splitChainedTagName name sp.start) (some p)) evs ls''
  | tagDot {sp name hp sp' v ls} : sp'.start = sp.stop → v.head? = some '.' →
      AtomR input (.tag sp name hp) (.scalar sp' v .bare :: ls)
        (.tag ⟨sp.start, sp'.stop⟩ name none true (some ⟨sp.start + 1, sp'.stop⟩)) [] ls
  | object {sp ls a evs ls'} : ObjR input sp [] [] [] [] ls a evs ls' →
      AtomR input (.objectStart sp) ls a evs ls'
  | sequence {sp ls a evs ls'} : SeqR input sp [] [] ls a evs ls' →
      AtomR input (.seqStart sp) ls a evs ls'
  | attrs {sp ks key ls nxt ls' v evs ls'' attrs evs' ls'''} : nextLex ls = (nxt, ls') →
      AtomR input nxt ls' v evs ls'' → AttrsR input ls'' attrs evs' ls''' →
      AtomR input (.attrKey sp ks key) ls
        (.attributes ⟨ks.start, attrsEnd ks.stop (.mk key ks v :: attrs)⟩ (.mk key ks v :: attrs))
        (evs ++ evs') ls'''

/-- Runs of `parseObject`. -/
inductive ObjR (input : List Char) :
    Span → List ObjEntry → List (KeyValue × Span) → List (Span × Span) →
    List (Span × List Char) → List Lexeme → Atom → List Event → List Lexeme → Prop
  | eof {start entries seen dups docs} :
      ObjR input start entries seen dups docs []
        (.object ⟨start.start, start.stop⟩ entries.reverse dups.reverse (docs.reverse.map (·.1)) true)
        [] []
  | close {start entries seen dups docs sp ls} :
      ObjR input start entries seen dups docs (.objectEnd sp :: ls)
        (.object ⟨start.start, sp.stop⟩ entries.reverse dups.reverse (docs.reverse.map (·.1)) false)
        [] ls
  | skip {start entries seen dups docs l ls a evs ls'} : l.objSkip = true →
      ObjR input start entries seen dups docs ls a evs ls' →
      ObjR input start entries seen dups docs (l :: ls) a evs ls'
  | doc {start entries seen dups docs sp text ls a evs ls'} :
      ObjR input start entries seen dups ((sp, text) :: docs) ls a evs ls' →
      ObjR input start entries seen dups docs (.docComment sp text :: ls) a evs ls'
  | entry {start entries seen dups docs l ls key rest evs ls' a evs' ls''} : l.startsEntry = true →
      CollectR input l ls key rest evs ls' →
      ObjR input start
        (.mk key (entryValue key rest).1 (combineDocs docs.reverse) (entryValue key rest).2 :: entries)
        (noteKey key seen dups).1 (noteKey key seen dups).2 [] ls' a evs' ls'' →
      ObjR input start entries seen dups docs (l :: ls) a (evs ++ evs') ls''

/-- Runs of `parseSequence`. -/
inductive SeqR (input : List Char) :
    Span → List Atom → List Span → List Lexeme → Atom → List Event → List Lexeme → Prop
  | eof {start elems commas} :
      SeqR input start elems commas []
        (.sequence ⟨start.start, start.stop⟩ elems.reverse true commas.reverse) [] []
  | close {start elems commas sp ls} :
      SeqR input start elems commas (.seqEnd sp :: ls)
        (.sequence ⟨start.start, sp.stop⟩ elems.reverse false commas.reverse) [] ls
  | skip {start elems commas l ls a evs ls'} : l.seqSkip = true →
      SeqR input start elems commas ls a evs ls' →
      SeqR input start elems commas (l :: ls) a evs ls'
  | comma {start elems commas sp ls a evs ls'} :
      SeqR input start elems (sp :: commas) ls a evs ls' →
      SeqR input start elems commas (.comma sp :: ls) a evs ls'
  | elem {start elems commas l ls e evs ls' a evs' ls''} : l.startsElem = true →
      AtomR input l ls e evs ls' → SeqR input start (e :: elems) commas ls' a evs' ls'' →
      SeqR input start elems commas (l :: ls) a (evs ++ evs') ls''

/-- Runs of `parseAttrs`. -/
inductive AttrsR (input : List Char) :
    List Lexeme → List AttrEntry → List Event → List Lexeme → Prop
  | stop {ls} : (∀ s k key r, ls ≠ .attrKey s k key :: r) → AttrsR input ls [] [] ls
  | attr {sp ks key ls nxt ls' v evs ls'' attrs evs' ls'''} : nextLex ls = (nxt, ls') →
      AtomR input nxt ls' v evs ls'' → AttrsR input ls'' attrs evs' ls''' →
      AttrsR input (.attrKey sp ks key :: ls) (.mk key ks v :: attrs) (evs ++ evs') ls'''

/-- Runs of `collectEntryAtoms`. -/
inductive CollectR (input : List Char) :
    Lexeme → List Lexeme → Atom → List Atom → List Event → List Lexeme → Prop
  | mk {l ls a evs ls' rest evs' ls''} : AtomR input l ls a evs ls' →
      RestR input a true ls' rest evs' ls'' → CollectR input l ls a rest (evs ++ evs') ls''

/-- Runs of `collectRest`. -/
inductive RestR (input : List Char) :
    Atom → Bool → List Lexeme → List Atom → List Event → List Lexeme → Prop
  | stop {first only ls} : (∀ l r, ls = l :: r → l.endsEntry = true) →
      RestR input first only ls [] [] ls
  | comment {first only sp text ls} :
      RestR input first only (.comment sp text :: ls) [] [⟨sp, .comment text⟩] ls
  | doc {first only sp text ls} :
      RestR input first only (.docComment sp text :: ls) [] [⟨sp, .docComment [stripDoc text]⟩] ls
  | more {first only l ls a evs ls' rest evs' ls''} : l.startsAtom = true →
      AtomR input l ls a evs ls' → RestR input first false ls' rest evs' ls'' →
      RestR input first only (l :: ls) (a :: rest) (missingSpace first only l ++ evs ++ evs') ls''
end

/-! ## The functions succeed and compute related results -/

theorem stash_next {ls : List Lexeme} (h : .eof ∉ ls) : stashLex (nextLex ls).1 (nextLex ls).2 = ls := by
  cases ls with
  | nil => rfl
  | cons l ls =>
    have : l ≠ .eof := fun e => h (by simp [e])
    cases l <;> simp_all [nextLex, stashLex]

theorem nextLex_suffix (ls : List Lexeme) : (nextLex ls).2 <:+ ls := by
  cases ls with
  | nil => exact List.suffix_refl _
  | cons l ls => exact List.suffix_cons l ls

theorem eof_suffix {ls ls' : List Lexeme} (h : ls' <:+ ls) (he : .eof ∉ ls) : .eof ∉ ls' :=
  fun hm => he (h.subset hm)

/-- Success of the six parsing functions at fuel `n`. -/
structure TotalAt (input : List Char) (n : Nat) : Prop where
  atom : ∀ l ls, .eof ∉ ls → 4 * ls.length + 4 ≤ n → ∃ a evs ls',
    parseAtom input n l ls = some (a, evs, ls') ∧ AtomR input l ls a evs ls' ∧ ls' <:+ ls
  obj : ∀ start entries seen dups docs ls, .eof ∉ ls → 4 * ls.length + 3 ≤ n → ∃ a evs ls',
    parseObject input n start entries seen dups docs ls = some (a, evs, ls') ∧
      ObjR input start entries seen dups docs ls a evs ls' ∧ ls' <:+ ls
  seq : ∀ start elems commas ls, .eof ∉ ls → 4 * ls.length + 3 ≤ n → ∃ a evs ls',
    parseSequence input n start elems commas ls = some (a, evs, ls') ∧
      SeqR input start elems commas ls a evs ls' ∧ ls' <:+ ls
  attrs : ∀ ls, .eof ∉ ls → 4 * ls.length + 3 ≤ n → ∃ as evs ls',
    parseAttrs input n ls = some (as, evs, ls') ∧ AttrsR input ls as evs ls' ∧ ls' <:+ ls
  collect : ∀ l ls, .eof ∉ ls → 4 * ls.length + 5 ≤ n → ∃ a rest evs ls',
    collectEntryAtoms input n l ls = some (a, rest, evs, ls') ∧
      CollectR input l ls a rest evs ls' ∧ ls' <:+ ls
  rest : ∀ first only ls, .eof ∉ ls → 4 * ls.length + 3 ≤ n → ∃ rest evs ls',
    collectRest input n first only ls = some (rest, evs, ls') ∧
      RestR input first only ls rest evs ls' ∧ ls' <:+ ls

theorem parseAtom_leaf {input : List Char} {l : Lexeme} {a : Atom} (h : leafAtom input l = some a)
    (n : Nat) (ls : List Lexeme) : parseAtom input (n + 1) l ls = some (a, [], ls) := by
  cases l <;> simp only [leafAtom, reduceCtorEq, Option.some.injEq] at h <;>
    simp only [parseAtom] <;> try (subst h; rfl)
  split at h
  · rename_i hc
    rw [if_pos hc]
    split at h <;> rename_i hs <;> rw [hs] <;> simp only [Option.some.injEq] at h <;> subst h <;> rfl
  · rename_i hc
    rw [if_neg hc]
    simp only [Option.some.injEq] at h
    subst h; rfl

theorem atom_next {input : List Char} {n : Nat} (t : TotalAt input n) {ls : List Lexeme}
    (he : .eof ∉ ls) (hn : 4 * ls.length + 4 ≤ n + 1) : ∃ a evs ls',
    parseAtom input n (nextLex ls).1 (nextLex ls).2 = some (a, evs, ls') ∧
      AtomR input (nextLex ls).1 (nextLex ls).2 a evs ls' ∧ ls' <:+ ls := by
  cases ls with
  | nil =>
    obtain ⟨m, rfl⟩ : ∃ m, n = m + 1 := ⟨n - 1, by simp at hn; omega⟩
    exact ⟨_, _, _, parseAtom_leaf rfl m [], .leaf rfl, List.suffix_refl _⟩
  | cons l ls =>
    obtain ⟨a, evs, ls', h1, h2, h3⟩ := t.atom l ls (by simp_all) (by simp at hn; omega)
    exact ⟨a, evs, ls', h1, h2, h3.trans (List.suffix_cons _ _)⟩

theorem totalAt (input : List Char) (n : Nat) : TotalAt input n := by
  induction n with
  | zero => constructor <;> intros <;> omega
  | succ n t =>
    constructor
    · intro l ls he hn
      cases hl : leafAtom input l with
      | some a => exact ⟨a, [], ls, parseAtom_leaf hl n ls, .leaf hl, List.suffix_refl _⟩
      | none =>
        have hst := stash_next he
        have hsuf := nextLex_suffix ls
        cases l with
        | unit sp =>
          rw [parseAtom]
          simp only
          split
          · rename_i sp' v heq
            split
            · rename_i hadj
              obtain ⟨ls', rfl⟩ : ∃ r, ls = .scalar sp' v .bare :: r := by
                cases ls <;> simp_all [nextLex]
              exact ⟨_, _, _, rfl, .unitBare hadj, List.suffix_cons _ _⟩
            · exact ⟨_, _, _, by rw [hst], .unit, List.suffix_refl _⟩
          · exact ⟨_, _, _, by rw [hst], .unit, List.suffix_refl _⟩
        | tag sp name hp =>
          obtain ⟨p, evs, ls'', h1, h2, h3⟩ := atom_next t he hn
          rw [parseAtom]
          simp only [h1]
          split
          · rename_i hch
            split
            · rename_i hadj
              exact ⟨_, _, _, rfl, .tagPayload rfl (Or.inr hadj) h2, h3⟩
            · exact ⟨_, _, _, by rw [hst], .tag (Or.inr hch), List.suffix_refl _⟩
          · rename_i hch
            split
            · rename_i hhp
              exact ⟨_, _, _, rfl, .tagPayload rfl (Or.inl ⟨hhp, by omega⟩) h2, h3⟩
            · rename_i hhp
              have hhp : hp = false := by simpa using hhp
              split
              · rename_i sp' v heq
                split
                · rename_i hd
                  obtain ⟨ls', rfl⟩ : ∃ r, ls = .scalar sp' v .bare :: r := by
                    cases ls <;> simp_all [nextLex]
                  exact ⟨_, _, _, rfl, .tagDot hd.1 hd.2, List.suffix_cons _ _⟩
                · exact ⟨_, _, _, by rw [hst], .tag (Or.inl hhp), List.suffix_refl _⟩
              · exact ⟨_, _, _, by rw [hst], .tag (Or.inl hhp), List.suffix_refl _⟩
        | objectStart sp =>
          obtain ⟨a, evs, ls', h1, h2, h3⟩ := t.obj sp [] [] [] [] ls he (by omega)
          exact ⟨a, evs, ls', by rw [parseAtom]; exact h1, .object h2, h3⟩
        | seqStart sp =>
          obtain ⟨a, evs, ls', h1, h2, h3⟩ := t.seq sp [] [] ls he (by omega)
          exact ⟨a, evs, ls', by rw [parseAtom]; exact h1, .sequence h2, h3⟩
        | attrKey sp ks key =>
          obtain ⟨v, evs, ls', h1, h2, h3⟩ := atom_next t he hn
          obtain ⟨as, evs', ls'', g1, g2, g3⟩ := t.attrs ls' (eof_suffix h3 he)
            (by have := h3.length_le; omega)
          refine ⟨_, _, _, ?_, .attrs rfl h2 g2, g3.trans h3⟩
          rw [parseAtom]
          simp only [h1, g1]
        | scalar => simp [leafAtom] at hl
        | objectEnd => simp [leafAtom] at hl
        | seqEnd => simp [leafAtom] at hl
        | comma => simp [leafAtom] at hl
        | newline => simp [leafAtom] at hl
        | comment => simp [leafAtom] at hl
        | docComment => simp [leafAtom] at hl
        | eof => simp [leafAtom] at hl
        | panic => simp [leafAtom] at hl
        | error sp msg =>
          simp only [leafAtom] at hl
          split at hl
          · split at hl <;> simp at hl
          · simp at hl
    · intro start entries seen dups docs ls he hn
      cases ls with
      | nil => exact ⟨_, _, _, rfl, .eof, List.suffix_refl _⟩
      | cons l ls =>
        have he' : .eof ∉ ls := by simp_all
        have hle : l ≠ .eof := fun e => he (by simp [e])
        have hn' : 4 * ls.length + 5 ≤ n := by simp at hn; omega
        have hskip : l.objSkip = true → parseObject input (n + 1) start entries seen dups docs (l :: ls) =
            parseObject input n start entries seen dups docs ls → ∃ a evs ls',
            parseObject input (n + 1) start entries seen dups docs (l :: ls) = some (a, evs, ls') ∧
            ObjR input start entries seen dups docs (l :: ls) a evs ls' ∧ ls' <:+ (l :: ls) := by
          intro hs heq
          obtain ⟨a, evs, ls', h1, h2, h3⟩ := t.obj start entries seen dups docs ls he' (by omega)
          exact ⟨a, evs, ls', heq.trans h1, ObjR.skip hs h2, h3.trans (List.suffix_cons _ _)⟩
        cases hse : l.startsEntry with
        | true =>
          obtain ⟨key, rest, evs, ls', h1, h2, h3⟩ := t.collect l ls he' hn'
          obtain ⟨a, evs', ls'', g1, g2, g3⟩ := t.obj start
            (.mk key (entryValue key rest).1 (combineDocs docs.reverse) (entryValue key rest).2 :: entries)
            (noteKey key seen dups).1 (noteKey key seen dups).2 [] ls' (eof_suffix h3 he')
            (by have := h3.length_le; omega)
          refine ⟨a, evs ++ evs', ls'', ?_, .entry hse h2 g2, (g3.trans h3).trans (List.suffix_cons _ _)⟩
          rw [parseObject]
          simp only [nextLex]
          cases l <;> simp only [Lexeme.startsEntry, Bool.false_eq_true] at hse <;>
            simp only [h1] <;> cases hlk : lookupKey (KeyValue.fromAtom key) seen <;>
            simp only [noteKey, hlk] at g1 ⊢ <;> simp only [g1]
        | false =>
          cases l with
          | eof => exact absurd rfl hle
          | objectEnd sp => exact ⟨_, _, _, rfl, .close, List.suffix_cons _ _⟩
          | docComment sp text =>
            obtain ⟨a, evs, ls', h1, h2, h3⟩ :=
              t.obj start entries seen dups ((sp, text) :: docs) ls he' (by omega)
            exact ⟨a, evs, ls', h1, ObjR.doc h2, h3.trans (List.suffix_cons _ _)⟩
          | newline sp => exact hskip rfl rfl
          | comma sp => exact hskip rfl rfl
          | comment sp text => exact hskip rfl rfl
          | _ => simp [Lexeme.startsEntry] at hse
    · intro start elems commas ls he hn
      cases ls with
      | nil => exact ⟨_, _, _, rfl, .eof, List.suffix_refl _⟩
      | cons l ls =>
        have he' : .eof ∉ ls := by simp_all
        have hle : l ≠ .eof := fun e => he (by simp [e])
        have hn' : 4 * ls.length + 5 ≤ n := by simp at hn; omega
        have hskip : l.seqSkip = true → parseSequence input (n + 1) start elems commas (l :: ls) =
            parseSequence input n start elems commas ls → ∃ a evs ls',
            parseSequence input (n + 1) start elems commas (l :: ls) = some (a, evs, ls') ∧
            SeqR input start elems commas (l :: ls) a evs ls' ∧ ls' <:+ (l :: ls) := by
          intro hs heq
          obtain ⟨a, evs, ls', h1, h2, h3⟩ := t.seq start elems commas ls he' (by omega)
          exact ⟨a, evs, ls', heq.trans h1, SeqR.skip hs h2, h3.trans (List.suffix_cons _ _)⟩
        cases hse : l.startsElem with
        | true =>
          obtain ⟨e, evs, ls', h1, h2, h3⟩ := t.atom l ls he' (by omega)
          obtain ⟨a, evs', ls'', g1, g2, g3⟩ := t.seq start (e :: elems) commas ls' (eof_suffix h3 he')
            (by have := h3.length_le; omega)
          refine ⟨a, evs ++ evs', ls'', ?_, .elem hse h2 g2, (g3.trans h3).trans (List.suffix_cons _ _)⟩
          rw [parseSequence]
          simp only [nextLex]
          cases l <;> simp only [Lexeme.startsElem, Bool.false_eq_true] at hse <;>
            simp only [h1, g1]
        | false =>
          cases l with
          | eof => exact absurd rfl hle
          | seqEnd sp => exact ⟨_, _, _, rfl, .close, List.suffix_cons _ _⟩
          | comma sp =>
            obtain ⟨a, evs, ls', h1, h2, h3⟩ := t.seq start elems (sp :: commas) ls he' (by omega)
            exact ⟨a, evs, ls', h1, SeqR.comma h2, h3.trans (List.suffix_cons _ _)⟩
          | newline sp => exact hskip rfl rfl
          | comment sp text => exact hskip rfl rfl
          | docComment sp text => exact hskip rfl rfl
          | _ => simp [Lexeme.startsElem] at hse
    · intro ls he hn
      have hst := stash_next he
      by_cases hk : ∃ s k key r, ls = .attrKey s k key :: r
      · obtain ⟨s, ks, key, r, rfl⟩ := hk
        have he' : .eof ∉ r := by simp_all
        obtain ⟨v, evs, ls', h1, h2, h3⟩ := atom_next t he' (by simp at hn; omega)
        obtain ⟨as, evs', ls'', g1, g2, g3⟩ := t.attrs ls' (eof_suffix h3 he')
          (by have := h3.length_le; simp at hn; omega)
        refine ⟨_, _, _, ?_, .attr rfl h2 g2, (g3.trans h3).trans (List.suffix_cons _ _)⟩
        rw [parseAttrs]
        simp only [nextLex] at h1 ⊢
        simp only [h1, g1]
      · refine ⟨[], [], ls, ?_, .stop (fun s k key r h => hk ⟨s, k, key, r, h⟩), List.suffix_refl _⟩
        rw [parseAttrs]
        simp only
        split
        · rename_i s k key heq
          exfalso
          cases ls with
          | nil => simp [nextLex] at heq
          | cons l r => simp [nextLex] at heq; exact hk ⟨s, k, key, r, by rw [heq]⟩
        · rw [hst]
    · intro l ls he hn
      obtain ⟨a, evs, ls', h1, h2, h3⟩ := t.atom l ls he (by omega)
      obtain ⟨rest, evs', ls'', g1, g2, g3⟩ := t.rest a true ls' (eof_suffix h3 he)
        (by have := h3.length_le; omega)
      refine ⟨a, rest, evs ++ evs', ls'', ?_, .mk h2 g2, g3.trans h3⟩
      rw [collectEntryAtoms]
      simp only [h1, g1]
    · intro first only ls he hn
      cases ls with
      | nil => exact ⟨_, _, _, rfl, .stop (by simp), List.suffix_refl _⟩
      | cons l ls =>
        have he' : .eof ∉ ls := by simp_all
        have hle : l ≠ .eof := fun e => he (by simp [e])
        have hn' : 4 * ls.length + 5 ≤ n := by simp at hn; omega
        cases hse : l.startsAtom with
        | true =>
          obtain ⟨a, evs, ls', h1, h2, h3⟩ := t.atom l ls he' (by omega)
          obtain ⟨rest, evs', ls'', g1, g2, g3⟩ := t.rest first false ls' (eof_suffix h3 he')
            (by have := h3.length_le; omega)
          refine ⟨a :: rest, missingSpace first only l ++ evs ++ evs', ls'', ?_, .more hse h2 g2,
            (g3.trans h3).trans (List.suffix_cons _ _)⟩
          rw [collectRest]
          simp only [nextLex]
          cases l <;> simp only [Lexeme.startsAtom, Bool.false_eq_true] at hse <;>
            simp only [h1, g1, missingSpace]
        | false =>
          cases l with
          | eof => exact absurd rfl hle
          | newline sp => exact ⟨_, _, _, rfl, .stop (by simp [Lexeme.endsEntry]), List.suffix_refl _⟩
          | comma sp => exact ⟨_, _, _, rfl, .stop (by simp [Lexeme.endsEntry]), List.suffix_refl _⟩
          | objectEnd sp => exact ⟨_, _, _, rfl, .stop (by simp [Lexeme.endsEntry]), List.suffix_refl _⟩
          | seqEnd sp => exact ⟨_, _, _, rfl, .stop (by simp [Lexeme.endsEntry]), List.suffix_refl _⟩
          | comment sp text => exact ⟨_, _, _, rfl, .comment, List.suffix_cons _ _⟩
          | docComment sp text => exact ⟨_, _, _, rfl, .doc, List.suffix_cons _ _⟩
          | _ => simp [Lexeme.startsAtom] at hse

/-! ## Runs of the whole parser -/

/-- Lexemes skipped at the top level. -/
def Lexeme.rootSkip : Lexeme → Bool
  | .newline _ | .comma _ => true
  | _ => false

/-- Lexemes that begin an entry at the document root (without `{`, which begins the explicit root
object). -/
def Lexeme.startsRootEntry : Lexeme → Bool
  | .eof | .newline _ | .comma _ | .comment _ _ | .docComment _ _ | .objectStart _ => false
  | _ => true

/-- Lexemes skipped before an expression. -/
def Lexeme.exprSkip : Lexeme → Bool
  | .newline _ | .comment _ _ => true
  | _ => false

/-- The error for a pending doc comment. -/
def danglingEv : Option Span → List Event
  | some sp => [errEv sp .danglingDocComment]
  | none => []

/-- The implicit `ObjectStart` of a document without braces. -/
def implicitStart (started : Bool) : List Event :=
  if started then [] else [⟨⟨0, 0⟩, .objectStart⟩]

/-- Runs of the parser from a state with the given remaining lexemes: all events still to come. -/
inductive RunR (input : List Char) : PState → List Lexeme → List Event → Prop
  | start {ls more} : RunR input (.documentRoot none [] false) ls more →
      RunR input .beforeDocument ls (⟨⟨0, 0⟩, .documentStart⟩ :: more)
  | rootEof {doc path started} :
      RunR input (.documentRoot doc path started) []
        (danglingEv doc ++ (if started then [⟨⟨0, 0⟩, .objectEnd⟩] else []) ++
          [⟨⟨utf8Len input, utf8Len input⟩, .documentEnd⟩])
  | rootSkip {doc path started l ls more} : l.rootSkip = true →
      RunR input (.documentRoot doc path started) ls more →
      RunR input (.documentRoot doc path started) (l :: ls) more
  | rootComment {doc path started sp text ls more} :
      RunR input (.documentRoot doc path started) ls more →
      RunR input (.documentRoot doc path started) (.comment sp text :: ls)
        (⟨sp, .comment text⟩ :: more)
  | rootDoc {doc path started sp text ls more} :
      RunR input (.documentRoot (some sp) path true) ls more →
      RunR input (.documentRoot doc path started) (.docComment sp text :: ls)
        (implicitStart started ++ ⟨sp, .docComment [stripDoc text]⟩ :: more)
  | rootBrace {doc path started sp ls more} :
      RunR input (.inObject sp [] none) ls more →
      RunR input (.documentRoot doc path started) (.objectStart sp :: ls)
        (⟨sp, .objectStart⟩ :: more)
  | rootEntry {doc path started l ls key rest evs ls' more} : l.startsRootEntry = true →
      CollectR input l ls key rest evs ls' →
      RunR input (.documentRoot none (emitEntryAtRoot input key rest path).2 true) ls' more →
      RunR input (.documentRoot doc path started) (l :: ls)
        (implicitStart started ++ evs ++ (emitEntryAtRoot input key rest path).1 ++ more)
  | objEof {start seen doc} :
      RunR input (.inObject start seen doc) []
        (danglingEv doc ++ [errEv start .unclosedObject, ⟨start, .objectEnd⟩,
          ⟨⟨utf8Len input, utf8Len input⟩, .documentEnd⟩])
  | objClose {start seen doc sp ls more} : RunR input .afterDocument ls more →
      RunR input (.inObject start seen doc) (.objectEnd sp :: ls)
        (⟨sp, .objectEnd⟩ :: danglingEv doc ++
          [⟨⟨utf8Len input, utf8Len input⟩, .documentEnd⟩] ++ more)
  | objSkip {start seen doc l ls more} : l.rootSkip = true →
      RunR input (.inObject start seen doc) ls more →
      RunR input (.inObject start seen doc) (l :: ls) more
  | objComment {start seen doc sp text ls more} :
      RunR input (.inObject start seen doc) ls more →
      RunR input (.inObject start seen doc) (.comment sp text :: ls) (⟨sp, .comment text⟩ :: more)
  | objDoc {start seen doc sp text ls more} :
      RunR input (.inObject start seen (some sp)) ls more →
      RunR input (.inObject start seen doc) (.docComment sp text :: ls)
        (⟨sp, .docComment [stripDoc text]⟩ :: more)
  | objEntry {start seen doc l ls key rest evs ls' more} : l.startsEntry = true →
      CollectR input l ls key rest evs ls' →
      RunR input (.inObject start (emitEntryInObject key rest seen).2 none) ls' more →
      RunR input (.inObject start seen doc) (l :: ls)
        (evs ++ (emitEntryInObject key rest seen).1 ++ more)
  | after {ls evs} : checkTrailing ls = some (evs, .afterDocument, []) →
      RunR input .afterDocument ls evs
  | exprEnd : RunR input .beforeExpression [] []
  | exprSkip {l ls more} : l.exprSkip = true → RunR input .beforeExpression ls more →
      RunR input .beforeExpression (l :: ls) more
  | expr {l ls a evs ls'} : l.exprSkip = false → AtomR input l ls a evs ls' →
      RunR input .beforeExpression (l :: ls) (evs ++ emitValue a)

theorem runParser_step {input : List Char} {n : Nat} {st st' : PState} {ls ls' : List Lexeme}
    {e : Event} {evs more : List Event} (h : advance input st ls = some (e :: evs, st', ls'))
    (hm : runParser input n st' ls' = some more) :
    runParser input (n + 1) st ls = some (e :: evs ++ more) := by
  rw [runParser, h]
  simp [hm]

theorem checkTrailing_total (ls : List Lexeme) :
    ∃ evs, checkTrailing ls = some (evs, .afterDocument, []) := by
  induction ls with
  | nil => exact ⟨_, rfl⟩
  | cons l ls ih =>
    unfold checkTrailing
    split <;> first | exact ih | exact ⟨_, rfl⟩ | skip
    all_goals simp_all

theorem emitSimpleEntry_cons (key : Atom) (rest : List Atom) :
    ∃ e es, emitSimpleEntry key rest = e :: es := ⟨_, _, rfl⟩

theorem emitDotted_ne (t : List Char) (sp : Span) (rest : List Atom) (path : Option PathState) :
    (emitDotted t sp rest path).1 ≠ [] := by
  have hs : splitDots t ≠ [] := by
    cases t with
    | nil => simp [splitDots]
    | cons c cs =>
      simp only [splitDots]
      split
      · simp
      · split <;> simp
  unfold emitDotted
  simp only
  split
  · simp
  · have : dottedOpen sp.start (splitDots t) ≠ [] := by
      cases h : splitDots t with
      | nil => exact absurd h hs
      | cons a b => simp [dottedOpen]
    split <;> simp [this]

theorem emitEntryAtRoot_ne (input : List Char) (key : Atom) (rest : List Atom) (path : PathState) :
    (emitEntryAtRoot input key rest path).1 ≠ [] := by
  unfold emitEntryAtRoot
  simp only
  split
  · split
    · exact emitDotted_ne _ _ _ _
    · simp [emitSimpleEntry]
  · simp [emitSimpleEntry]

theorem emitEntryInObject_ne (key : Atom) (rest : List Atom) (seen : List (KeyValue × Span)) :
    (emitEntryInObject key rest seen).1 ≠ [] := by
  unfold emitEntryInObject
  simp only
  split
  · split
    · exact emitDotted_ne _ _ _ _
    · split <;> simp [emitSimpleEntry]
  · split <;> simp [emitSimpleEntry]

/-- After the document: at most two more calls. -/
theorem run_after {input : List Char} {ls : List Lexeme} {n : Nat} (hn : 2 ≤ n) :
    ∃ evs, runParser input n .afterDocument ls = some evs ∧ RunR input .afterDocument ls evs := by
  obtain ⟨evs, h⟩ := checkTrailing_total ls
  obtain ⟨m, rfl⟩ : ∃ m, n = m + 2 := ⟨n - 2, by omega⟩
  refine ⟨evs, ?_, .after h⟩
  cases evs with
  | nil => rw [runParser, advance, h]
  | cons e es =>
    have : runParser input (m + 1) .afterDocument [] = some [] := rfl
    have := runParser_step (st := .afterDocument) h this
    simpa using this

theorem run_cong {input : List Char} {n : Nat} {st : PState} {ls ls' : List Lexeme}
    (h : advance input st ls = advance input st ls') :
    runParser input n st ls = runParser input n st ls' := by
  cases n with
  | zero => rfl
  | succ n => rw [runParser, runParser, h]

theorem lift_step {input : List Char} {n : Nat} {st st' : PState} {ls ls' : List Lexeme}
    {evs : List Event} (hne : evs ≠ []) (h : advance input st ls = some (evs, st', ls'))
    (hm : ∃ more, runParser input n st' ls' = some more ∧ RunR input st' ls' more) :
    ∃ more, runParser input (n + 1) st ls = some (evs ++ more) ∧ RunR input st' ls' more := by
  obtain ⟨more, h1, h2⟩ := hm
  cases evs with
  | nil => exact absurd rfl hne
  | cons e es => exact ⟨more, runParser_step h h1, h2⟩

theorem run_root {input : List Char} (k : Nat) : ∀ (ls : List Lexeme), ls.length ≤ k → .eof ∉ ls →
    ∀ n, ls.length + 3 ≤ n →
    (∀ doc path started, ∃ evs, runParser input n (.documentRoot doc path started) ls = some evs ∧
      RunR input (.documentRoot doc path started) ls evs) ∧
    (∀ start seen doc, ∃ evs, runParser input n (.inObject start seen doc) ls = some evs ∧
      RunR input (.inObject start seen doc) ls evs) := by
  induction k with
  | zero =>
    intro ls hl he n hn
    have : ls = [] := List.length_eq_zero_iff.mp (by omega)
    subst this
    obtain ⟨m, rfl⟩ : ∃ m, n = m + 3 := ⟨n - 3, by simp at hn; omega⟩
    have hend : runParser input (m + 2) .afterDocument [] = some [] := rfl
    refine ⟨fun doc path started => ⟨_, ?_, .rootEof⟩, fun start seen doc => ⟨_, ?_, .objEof⟩⟩
    · cases doc <;> cases started <;>
        (rw [runParser, advance]; unfold advanceRoot; simp [hend, danglingEv])
    · cases doc <;>
        (rw [runParser, advance]; unfold advanceInObject; simp [hend, danglingEv])
  | succ k ih =>
    intro ls hl he n hn
    cases ls with
    | nil => exact ih [] (by simp) he n hn
    | cons l ls =>
      have he' : .eof ∉ ls := by simp_all
      have hle : l ≠ .eof := fun e => he (by simp [e])
      have hl' : ls.length ≤ k := by simp at hl; omega
      have hn0 : ls.length + 3 ≤ n := by simp at hn; omega
      obtain ⟨m, rfl⟩ : ∃ m, n = m + 1 := ⟨n - 1, by omega⟩
      have hnm : ls.length + 3 ≤ m := by simp at hn; omega
      obtain ⟨key, rest, evs, ls', c1, c2, c3⟩ :=
        (totalAt input (parseFuel ls)).collect l ls he' (by unfold parseFuel; omega)
      have hc3 := c3.length_le
      have hrec := ih ls' (by omega) (eof_suffix c3 he') m (by omega)
      refine ⟨fun doc path started => ?_, fun start seen doc => ?_⟩
      · cases hs : l.startsRootEntry with
        | true =>
          have hadv : advance input (.documentRoot doc path started) (l :: ls) =
              some (implicitStart started ++ evs ++ (emitEntryAtRoot input key rest path).1,
                .documentRoot none (emitEntryAtRoot input key rest path).2 true, ls') := by
            rw [advance]
            cases l <;> simp only [Lexeme.startsRootEntry, Bool.false_eq_true] at hs <;>
              (unfold advanceRoot; simp only [c1]; rfl)
          obtain ⟨more, g1, g2⟩ := lift_step (by simp [emitEntryAtRoot_ne]) hadv (hrec.1 _ _ _)
          exact ⟨_, g1, .rootEntry hs c2 g2⟩
        | false =>
          have hskip : l.rootSkip = true →
              advance input (.documentRoot doc path started) (l :: ls) =
              advance input (.documentRoot doc path started) ls →
              ∃ evs, runParser input (m + 1) (.documentRoot doc path started) (l :: ls) = some evs ∧
                RunR input (.documentRoot doc path started) (l :: ls) evs := by
            intro hk heq
            obtain ⟨evs, g1, g2⟩ := (ih ls hl' he' (m + 1) (by omega)).1 doc path started
            exact ⟨evs, (run_cong heq).trans g1, RunR.rootSkip hk g2⟩
          cases l with
          | eof => exact absurd rfl hle
          | newline sp => exact hskip rfl rfl
          | comma sp => exact hskip rfl rfl
          | comment sp text =>
            obtain ⟨more, g1, g2⟩ := lift_step (st := .documentRoot doc path started)
              (ls := .comment sp text :: ls) (evs := [_]) (by simp) (by rfl)
              ((ih ls hl' he' m hnm).1 doc path started)
            exact ⟨_, g1, .rootComment g2⟩
          | docComment sp text =>
            obtain ⟨more, g1, g2⟩ := lift_step (st := .documentRoot doc path started)
              (ls := .docComment sp text :: ls) (evs := implicitStart started ++ [_]) (by simp) (by rfl)
              ((ih ls hl' he' m hnm).1 (some sp) path true)
            exact ⟨_, g1, by rw [List.append_assoc]; exact .rootDoc g2⟩
          | objectStart sp =>
            obtain ⟨more, g1, g2⟩ := lift_step (st := .documentRoot doc path started)
              (ls := .objectStart sp :: ls) (evs := [_]) (by simp) (by rfl)
              ((ih ls hl' he' m hnm).2 sp [] none)
            exact ⟨_, g1, .rootBrace g2⟩
          | _ => simp [Lexeme.startsRootEntry] at hs
      · cases hs : l.startsEntry with
        | true =>
          have hadv : advance input (.inObject start seen doc) (l :: ls) =
              some (evs ++ (emitEntryInObject key rest seen).1,
                .inObject start (emitEntryInObject key rest seen).2 none, ls') := by
            rw [advance]
            cases l <;> simp only [Lexeme.startsEntry, Bool.false_eq_true] at hs <;>
              (unfold advanceInObject; simp only [c1])
          obtain ⟨more, g1, g2⟩ := lift_step (by simp [emitEntryInObject_ne]) hadv (hrec.2 _ _ _)
          exact ⟨_, g1, .objEntry hs c2 g2⟩
        | false =>
          have hskip : l.rootSkip = true →
              advance input (.inObject start seen doc) (l :: ls) =
              advance input (.inObject start seen doc) ls →
              ∃ evs, runParser input (m + 1) (.inObject start seen doc) (l :: ls) = some evs ∧
                RunR input (.inObject start seen doc) (l :: ls) evs := by
            intro hk heq
            obtain ⟨evs, g1, g2⟩ := (ih ls hl' he' (m + 1) (by omega)).2 start seen doc
            exact ⟨evs, (run_cong heq).trans g1, RunR.objSkip hk g2⟩
          cases l with
          | eof => exact absurd rfl hle
          | newline sp => exact hskip rfl rfl
          | comma sp => exact hskip rfl rfl
          | comment sp text =>
            obtain ⟨more, g1, g2⟩ := lift_step (st := .inObject start seen doc)
              (ls := .comment sp text :: ls) (evs := [_]) (by simp) (by rfl)
              ((ih ls hl' he' m hnm).2 start seen doc)
            exact ⟨_, g1, .objComment g2⟩
          | docComment sp text =>
            obtain ⟨more, g1, g2⟩ := lift_step (st := .inObject start seen doc)
              (ls := .docComment sp text :: ls) (evs := [_]) (by simp) (by rfl)
              ((ih ls hl' he' m hnm).2 start seen (some sp))
            exact ⟨_, g1, .objDoc g2⟩
          | objectEnd sp =>
            obtain ⟨more, g1, g2⟩ := lift_step
              (st := .inObject start seen doc) (ls := .objectEnd sp :: ls)
              (evs := ⟨sp, .objectEnd⟩ :: danglingEv doc ++
                [⟨⟨utf8Len input, utf8Len input⟩, .documentEnd⟩]) (by simp) (by cases doc <;> rfl)
              (run_after (input := input) (ls := ls) (n := m) (by omega))
            exact ⟨_, g1, .objClose g2⟩
          | _ => simp [Lexeme.startsEntry] at hs

theorem run_expr {input : List Char} (ls : List Lexeme) (he : .eof ∉ ls) {n : Nat} (hn : 2 ≤ n) :
    ∃ evs, runParser input n .beforeExpression ls = some evs ∧ RunR input .beforeExpression ls evs := by
  induction ls with
  | nil =>
    obtain ⟨m, rfl⟩ : ∃ m, n = m + 1 := ⟨n - 1, by omega⟩
    exact ⟨[], rfl, .exprEnd⟩
  | cons l ls ih =>
    have he' : .eof ∉ ls := by simp_all
    cases hs : l.exprSkip with
    | true =>
      obtain ⟨evs, h1, h2⟩ := ih he'
      refine ⟨evs, (run_cong ?_).trans h1, .exprSkip hs h2⟩
      cases l <;> simp only [Lexeme.exprSkip, Bool.false_eq_true] at hs <;> rfl
    | false =>
      obtain ⟨a, evs, ls', h1, h2, _⟩ :=
        (totalAt input (parseFuel ls)).atom l ls he' (by unfold parseFuel; omega)
      refine ⟨_, ?_, .expr hs h2⟩
      have hadv : advance input .beforeExpression (l :: ls) =
          some (evs ++ emitValue a, .afterExpression, ls') := by
        rw [advance]
        cases l <;> simp only [Lexeme.exprSkip, Bool.true_eq_false] at hs <;>
          (unfold advanceExpression; simp only [h1])
      obtain ⟨m, rfl⟩ : ∃ m, n = m + 2 := ⟨n - 2, by omega⟩
      rw [runParser, hadv]
      cases hev : evs ++ emitValue a with
      | nil => rfl
      | cons e es =>
        have : runParser input (m + 1) .afterExpression ls' = some [] := rfl
        simp [this]

theorem lexRun_no_eof (n : Nat) (t : Tok) : .eof ∉ lexRun n t := by
  induction n generalizing t with
  | zero => simp [lexRun]
  | succ n ih =>
    rw [lexRun]
    simp only
    split
    · simp
    · rename_i h
      simp [ih, Ne.symm h]

/-- Parsing a document always succeeds, with the events of a run. -/
theorem parseEvents_run (source : List Char) :
    ∃ evs, parseEvents source = some evs ∧ RunR source .beforeDocument (lex source) evs := by
  have he : .eof ∉ lex source := lexRun_no_eof _ _
  obtain ⟨evs, h1, h2⟩ := (run_root (lex source).length (lex source) (Nat.le_refl _) he
    ((lex source).length + 4) (by omega)).1 none [] false
  refine ⟨_, ?_, .start h2⟩
  have := runParser_step (st := .beforeDocument) (ls := lex source) (evs := []) rfl h1
  exact this

/-- Parsing an expression always succeeds, with the events of a run. -/
theorem parseExprEvents_run (source : List Char) :
    ∃ evs, parseExprEvents source = some evs ∧ RunR source .beforeExpression (lex source) evs :=
  run_expr _ (lexRun_no_eof _ _) (by omega)

end Styx
