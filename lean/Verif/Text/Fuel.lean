import Verif.Parse.Relation

/-! # The parsing functions do not depend on the fuel once they succeed -/

namespace Styx

/-- Success at fuel `n` is success at fuel `n + 1` with the same result. -/
structure MonoAt (input : List Char) (n : Nat) : Prop where
  atom : ∀ l ls r, parseAtom input n l ls = some r → parseAtom input (n + 1) l ls = some r
  obj : ∀ start entries seen dups docs ls r, parseObject input n start entries seen dups docs ls = some r →
    parseObject input (n + 1) start entries seen dups docs ls = some r
  seq : ∀ start elems commas ls r, parseSequence input n start elems commas ls = some r →
    parseSequence input (n + 1) start elems commas ls = some r
  attrs : ∀ ls r, parseAttrs input n ls = some r → parseAttrs input (n + 1) ls = some r
  collect : ∀ l ls r, collectEntryAtoms input n l ls = some r → collectEntryAtoms input (n + 1) l ls = some r
  rest : ∀ first only ls r, collectRest input n first only ls = some r →
    collectRest input (n + 1) first only ls = some r

theorem monoAt (input : List Char) (n : Nat) : MonoAt input n := by
  induction n with
  | zero =>
    constructor <;> intros <;> rename_i h
    · rw [parseAtom] at h; cases h
    · rw [parseObject] at h; cases h
    · rw [parseSequence] at h; cases h
    · rw [parseAttrs] at h; cases h
    · rw [collectEntryAtoms] at h; cases h
    · rw [collectRest] at h; cases h
  | succ n t =>
    have hat : ∀ l ls r, parseAtom input (n + 1) l ls = some r → parseAtom input (n + 1 + 1) l ls = some r := by
      intro l ls r h
      unfold parseAtom at h ⊢
      cases l
      case objectStart => exact t.obj _ _ _ _ _ _ _ h
      case seqStart => exact t.seq _ _ _ _ _ h
      case attrKey =>
        simp only at h ⊢
        split at h
        · cases h
        · rename_i h1
          rw [t.atom _ _ _ h1]
          simp only
          split at h
          · cases h
          · rename_i h2
            rw [t.attrs _ _ h2]
            exact h
      case tag =>
        simp only at h ⊢
        split at h
        · rename_i hc
          rw [if_pos hc]
          split at h
          · rename_i hd
            rw [if_pos hd]
            split at h
            · cases h
            · rename_i h1
              rw [t.atom _ _ _ h1]
              exact h
          · rename_i hd
            rw [if_neg hd]
            exact h
        · rename_i hc
          rw [if_neg hc]
          split at h
          · rename_i hd
            rw [if_pos hd]
            split at h
            · cases h
            · rename_i h1
              rw [t.atom _ _ _ h1]
              exact h
          · rename_i hd
            rw [if_neg hd]
            exact h
      all_goals exact h
    constructor
    · exact hat
    · intro start entries seen dups docs ls r h
      unfold parseObject at h ⊢
      simp only at h ⊢
      generalize hn : nextLex ls = x at h ⊢
      obtain ⟨l, ls'⟩ := x
      simp only at h ⊢
      cases l
      case eof => exact h
      case objectEnd => exact h
      case newline => exact t.obj _ _ _ _ _ _ _ h
      case comma => exact t.obj _ _ _ _ _ _ _ h
      case comment => exact t.obj _ _ _ _ _ _ _ h
      case docComment => exact t.obj _ _ _ _ _ _ _ h
      all_goals
        simp only at h ⊢
        split at h
        · cases h
        · rename_i h1
          rw [t.collect _ _ _ h1]
          simp only
          split at h
          · cases h
          · rename_i h2
            rw [t.obj _ _ _ _ _ _ _ h2]
            exact h
    · intro start elems commas ls r h
      unfold parseSequence at h ⊢
      simp only at h ⊢
      generalize hn : nextLex ls = x at h ⊢
      obtain ⟨l, ls'⟩ := x
      simp only at h ⊢
      cases l
      case eof => exact h
      case seqEnd => exact h
      case newline => exact t.seq _ _ _ _ _ h
      case comma => exact t.seq _ _ _ _ _ h
      case comment => exact t.seq _ _ _ _ _ h
      case docComment => exact t.seq _ _ _ _ _ h
      all_goals
        simp only at h ⊢
        split at h
        · cases h
        · rename_i h1
          rw [t.atom _ _ _ h1]
          simp only
          split at h
          · cases h
          · rename_i h2
            rw [t.seq _ _ _ _ _ h2]
            exact h
    · intro ls r h
      unfold parseAttrs at h ⊢
      simp only at h ⊢
      generalize hn : nextLex ls = x at h ⊢
      obtain ⟨l, ls'⟩ := x
      simp only at h ⊢
      cases l
      case attrKey =>
        simp only at h ⊢
        split at h
        · cases h
        · rename_i h1
          rw [t.atom _ _ _ h1]
          simp only
          split at h
          · cases h
          · rename_i h2
            rw [t.attrs _ _ h2]
            exact h
      all_goals exact h
    · intro l ls r h
      unfold collectEntryAtoms at h ⊢
      split at h
      · cases h
      · rename_i h1
        rw [t.atom _ _ _ h1]
        simp only
        split at h
        · cases h
        · rename_i h2
          rw [t.rest _ _ _ _ h2]
          exact h
    · intro first only ls r h
      unfold collectRest at h ⊢
      simp only at h ⊢
      generalize hn : nextLex ls = x at h ⊢
      obtain ⟨l, ls'⟩ := x
      simp only at h ⊢
      cases l
      case eof => exact h
      case newline => exact h
      case comma => exact h
      case objectEnd => exact h
      case seqEnd => exact h
      case comment => exact h
      case docComment => exact h
      all_goals
        simp only at h ⊢
        split at h
        · cases h
        · rename_i h1
          rw [t.atom _ _ _ h1]
          simp only
          split at h
          · cases h
          · rename_i h2
            rw [t.rest _ _ _ _ h2]
            exact h

section
variable {input : List Char} {n m : Nat}

theorem parseAtom_mono (hm : n ≤ m) {l ls r} (h : parseAtom input n l ls = some r) :
    parseAtom input m l ls = some r := by
  induction hm with
  | refl => exact h
  | step _ ih => exact (monoAt input _).atom _ _ _ ih

theorem parseObject_mono (hm : n ≤ m) {start entries seen dups docs ls r}
    (h : parseObject input n start entries seen dups docs ls = some r) :
    parseObject input m start entries seen dups docs ls = some r := by
  induction hm with
  | refl => exact h
  | step _ ih => exact (monoAt input _).obj _ _ _ _ _ _ _ ih

theorem parseSequence_mono (hm : n ≤ m) {start elems commas ls r}
    (h : parseSequence input n start elems commas ls = some r) :
    parseSequence input m start elems commas ls = some r := by
  induction hm with
  | refl => exact h
  | step _ ih => exact (monoAt input _).seq _ _ _ _ _ ih

theorem parseAttrs_mono (hm : n ≤ m) {ls r} (h : parseAttrs input n ls = some r) :
    parseAttrs input m ls = some r := by
  induction hm with
  | refl => exact h
  | step _ ih => exact (monoAt input _).attrs _ _ ih

theorem collectEntryAtoms_mono (hm : n ≤ m) {l ls r} (h : collectEntryAtoms input n l ls = some r) :
    collectEntryAtoms input m l ls = some r := by
  induction hm with
  | refl => exact h
  | step _ ih => exact (monoAt input _).collect _ _ _ ih

theorem collectRest_mono (hm : n ≤ m) {first only ls r} (h : collectRest input n first only ls = some r) :
    collectRest input m first only ls = some r := by
  induction hm with
  | refl => exact h
  | step _ ih => exact (monoAt input _).rest _ _ _ _ ih

theorem runParser_mono (hm : n ≤ m) {st ls r} (h : runParser input n st ls = some r) :
    runParser input m st ls = some r := by
  have step : ∀ k st ls r, runParser input k st ls = some r → runParser input (k + 1) st ls = some r := by
    intro k
    induction k with
    | zero => intro st ls r h; rw [runParser] at h; cases h
    | succ k ih =>
      intro st ls r h
      unfold runParser at h ⊢
      split at h
      · cases h
      · exact h
      · rename_i x1 x2 x3 hne heq
        split at h
        · cases h
        · rename_i h2
          rw [ih _ _ _ h2]
          exact h
  induction hm with
  | refl => exact h
  | step _ ih => exact step _ _ _ _ ih
end

/-! ## Fuel-free runs -/

/-- `parseAtom` gives `r` for some fuel. -/
def PAtom (input : List Char) (l : Lexeme) (ls : List Lexeme) (a : Atom) (evs : List Event)
    (ls' : List Lexeme) : Prop := ∃ n, parseAtom input n l ls = some (a, evs, ls')
/-- `parseObject` gives `r` for some fuel. -/
def PObj (input : List Char) (start : Span) (entries : List ObjEntry) (seen : List (KeyValue × Span))
    (dups : List (Span × Span)) (docs : List (Span × List Char)) (ls : List Lexeme) (a : Atom)
    (evs : List Event) (ls' : List Lexeme) : Prop :=
  ∃ n, parseObject input n start entries seen dups docs ls = some (a, evs, ls')
/-- `parseSequence` gives `r` for some fuel. -/
def PSeq (input : List Char) (start : Span) (elems : List Atom) (commas : List Span) (ls : List Lexeme)
    (a : Atom) (evs : List Event) (ls' : List Lexeme) : Prop :=
  ∃ n, parseSequence input n start elems commas ls = some (a, evs, ls')
/-- `parseAttrs` gives `r` for some fuel. -/
def PAttrs (input : List Char) (ls : List Lexeme) (as : List AttrEntry) (evs : List Event)
    (ls' : List Lexeme) : Prop := ∃ n, parseAttrs input n ls = some (as, evs, ls')
/-- `collectEntryAtoms` gives `r` for some fuel. -/
def PCollect (input : List Char) (l : Lexeme) (ls : List Lexeme) (a : Atom) (rest : List Atom)
    (evs : List Event) (ls' : List Lexeme) : Prop :=
  ∃ n, collectEntryAtoms input n l ls = some (a, rest, evs, ls')
/-- `collectRest` gives `r` for some fuel. -/
def PRest (input : List Char) (first : Atom) (only : Bool) (ls : List Lexeme) (rest : List Atom)
    (evs : List Event) (ls' : List Lexeme) : Prop :=
  ∃ n, collectRest input n first only ls = some (rest, evs, ls')
/-- `runParser` gives `evs` for some fuel. -/
def PRun (input : List Char) (st : PState) (ls : List Lexeme) (evs : List Event) : Prop :=
  ∃ n, runParser input n st ls = some evs

/-- A fuel-free run is the run with the fuel the parser uses for an entry. -/
theorem PCollect.fuel {input l ls a rest evs ls'} (h : PCollect input l ls a rest evs ls')
    (he : .eof ∉ ls) : collectEntryAtoms input (parseFuel ls) l ls = some (a, rest, evs, ls') := by
  obtain ⟨n, h⟩ := h
  obtain ⟨a', rest', evs', ls'', h', -, -⟩ :=
    (totalAt input (parseFuel ls)).collect l ls he (by unfold parseFuel; omega)
  have h1 := collectEntryAtoms_mono (Nat.le_max_left n (parseFuel ls)) h
  have h2 := collectEntryAtoms_mono (Nat.le_max_right n (parseFuel ls)) h'
  rw [h1] at h2
  cases h2
  exact h'

theorem PAtom.fuel {input l ls a evs ls'} (h : PAtom input l ls a evs ls')
    (he : .eof ∉ ls) : parseAtom input (parseFuel ls) l ls = some (a, evs, ls') := by
  obtain ⟨n, h⟩ := h
  obtain ⟨a', evs', ls'', h', -, -⟩ :=
    (totalAt input (parseFuel ls)).atom l ls he (by unfold parseFuel; omega)
  have h1 := parseAtom_mono (Nat.le_max_left n (parseFuel ls)) h
  have h2 := parseAtom_mono (Nat.le_max_right n (parseFuel ls)) h'
  rw [h1] at h2
  cases h2
  exact h'

theorem PRun.cons {input st ls st' ls' e evs more} (h : advance input st ls = some (e :: evs, st', ls'))
    (hm : PRun input st' ls' more) : PRun input st ls (e :: evs ++ more) := by
  obtain ⟨n, hm⟩ := hm
  exact ⟨n + 1, runParser_step h hm⟩

/-! ## Steps of the fuel-free runs -/

section
variable {input : List Char} {ls ls' ls'' : List Lexeme} {a : Atom} {evs evs' : List Event}

theorem PAtom.scalar (sp : Span) (v : List Char) (k : ScalarKind) :
    PAtom input (.scalar sp v k) ls (.scalar sp v k) [] ls := ⟨1, rfl⟩

theorem PAtom.object {sp} (h : PObj input sp [] [] [] [] ls a evs ls') :
    PAtom input (.objectStart sp) ls a evs ls' := by
  obtain ⟨n, h⟩ := h
  exact ⟨n + 1, by rw [parseAtom]; exact h⟩

theorem PAtom.sequence {sp} (h : PSeq input sp [] [] ls a evs ls') :
    PAtom input (.seqStart sp) ls a evs ls' := by
  obtain ⟨n, h⟩ := h
  exact ⟨n + 1, by rw [parseAtom]; exact h⟩

theorem PAtom.attrs {sp ks key l v attrs} (h : PAtom input l ls v evs ls')
    (h2 : PAttrs input ls' attrs evs' ls'') :
    PAtom input (.attrKey sp ks key) (l :: ls)
      (.attributes ⟨ks.start, attrsEnd ks.stop (.mk key ks v :: attrs)⟩ (.mk key ks v :: attrs))
      (evs ++ evs') ls'' := by
  obtain ⟨n, h⟩ := h
  obtain ⟨m, h2⟩ := h2
  refine ⟨max n m + 1, ?_⟩
  rw [parseAtom]
  simp only [nextLex, parseAtom_mono (Nat.le_max_left n m) h, parseAttrs_mono (Nat.le_max_right n m) h2]

theorem PAttrs.attr {sp ks key l v attrs} (h : PAtom input l ls v evs ls')
    (h2 : PAttrs input ls' attrs evs' ls'') :
    PAttrs input (.attrKey sp ks key :: l :: ls) (.mk key ks v :: attrs) (evs ++ evs') ls'' := by
  obtain ⟨n, h⟩ := h
  obtain ⟨m, h2⟩ := h2
  refine ⟨max n m + 1, ?_⟩
  rw [parseAttrs]
  simp only [nextLex, parseAtom_mono (Nat.le_max_left n m) h, parseAttrs_mono (Nat.le_max_right n m) h2]

theorem PAttrs.stop (he : .eof ∉ ls) (h : ∀ s k key r, ls ≠ .attrKey s k key :: r) :
    PAttrs input ls [] [] ls := by
  refine ⟨1, ?_⟩
  rw [parseAttrs]
  cases ls with
  | nil => rfl
  | cons l ls => cases l <;> first | rfl | exact absurd rfl (h _ _ _ _) | exact absurd (by simp) he

theorem PSeq.close {start elems commas sp} : PSeq input start elems commas (.seqEnd sp :: ls)
    (.sequence ⟨start.start, sp.stop⟩ elems.reverse false commas.reverse) [] ls := ⟨1, rfl⟩

theorem PSeq.skip {start elems commas l} (hl : l.seqSkip = true) (h : PSeq input start elems commas ls a evs ls') :
    PSeq input start elems commas (l :: ls) a evs ls' := by
  obtain ⟨n, h⟩ := h
  refine ⟨n + 1, ?_⟩
  rw [parseSequence]
  cases l <;> simp only [Lexeme.seqSkip, Bool.false_eq_true] at hl <;> exact h

theorem PSeq.elem {start elems commas l e} (hl : l.startsElem = true) (h : PAtom input l ls e evs ls')
    (h2 : PSeq input start (e :: elems) commas ls' a evs' ls'') :
    PSeq input start elems commas (l :: ls) a (evs ++ evs') ls'' := by
  obtain ⟨n, h⟩ := h
  obtain ⟨m, h2⟩ := h2
  refine ⟨max n m + 1, ?_⟩
  have h1 := parseAtom_mono (Nat.le_max_left n m) h
  have h3 := parseSequence_mono (Nat.le_max_right n m) h2
  rw [parseSequence]
  cases l <;> simp only [Lexeme.startsElem, Bool.false_eq_true] at hl <;> simp only [nextLex, h1, h3]

theorem PObj.close {start entries seen dups docs sp} :
    PObj input start entries seen dups docs (.objectEnd sp :: ls)
      (.object ⟨start.start, sp.stop⟩ entries.reverse dups.reverse (docs.reverse.map (·.1)) false) [] ls :=
  ⟨1, rfl⟩

theorem PObj.skip {start entries seen dups docs l} (hl : l.objSkip = true)
    (h : PObj input start entries seen dups docs ls a evs ls') :
    PObj input start entries seen dups docs (l :: ls) a evs ls' := by
  obtain ⟨n, h⟩ := h
  refine ⟨n + 1, ?_⟩
  rw [parseObject]
  cases l <;> simp only [Lexeme.objSkip, Bool.false_eq_true] at hl <;> exact h

theorem PObj.doc {start entries seen dups docs sp text}
    (h : PObj input start entries seen dups ((sp, text) :: docs) ls a evs ls') :
    PObj input start entries seen dups docs (.docComment sp text :: ls) a evs ls' := by
  obtain ⟨n, h⟩ := h
  exact ⟨n + 1, by rw [parseObject]; exact h⟩

theorem PObj.entry {start entries seen dups docs l key rest} (hl : l.startsEntry = true)
    (h : PCollect input l ls key rest evs ls')
    (h2 : PObj input start
        (.mk key (entryValue key rest).1 (combineDocs docs.reverse) (entryValue key rest).2 :: entries)
        (noteKey key seen dups).1 (noteKey key seen dups).2 [] ls' a evs' ls'') :
    PObj input start entries seen dups docs (l :: ls) a (evs ++ evs') ls'' := by
  obtain ⟨n, h⟩ := h
  obtain ⟨m, h2⟩ := h2
  refine ⟨max n m + 1, ?_⟩
  have h1 := collectEntryAtoms_mono (Nat.le_max_left n m) h
  have h3 := parseObject_mono (Nat.le_max_right n m) h2
  rw [parseObject]
  cases l <;> simp only [Lexeme.startsEntry, Bool.false_eq_true] at hl <;>
    simp only [nextLex, h1] <;> cases hlk : lookupKey (KeyValue.fromAtom key) seen <;>
    simp only [noteKey, hlk] at h3 ⊢ <;> simp only [h3]

theorem PCollect.mk {l rest} (h : PAtom input l ls a evs ls') (h2 : PRest input a true ls' rest evs' ls'') :
    PCollect input l ls a rest (evs ++ evs') ls'' := by
  obtain ⟨n, h⟩ := h
  obtain ⟨m, h2⟩ := h2
  refine ⟨max n m + 1, ?_⟩
  rw [collectEntryAtoms]
  simp only [parseAtom_mono (Nat.le_max_left n m) h, collectRest_mono (Nat.le_max_right n m) h2]

theorem PRest.stop {first only} (he : .eof ∉ ls) (h : ∀ l r, ls = l :: r → l.endsEntry = true) :
    PRest input first only ls [] [] ls := by
  refine ⟨1, ?_⟩
  rw [collectRest]
  cases ls with
  | nil => rfl
  | cons l ls =>
    have := h l ls rfl
    cases l
    case eof => exact absurd (by simp) he
    all_goals first | rfl | (simp [Lexeme.endsEntry] at this; done)

theorem PRest.comment {first only sp text} :
    PRest input first only (.comment sp text :: ls) [] [⟨sp, .comment text⟩] ls := ⟨1, rfl⟩

theorem PRest.more {first only l rest} (hl : l.startsAtom = true) (h : PAtom input l ls a evs ls')
    (h2 : PRest input first false ls' rest evs' ls'') :
    PRest input first only (l :: ls) (a :: rest) (missingSpace first only l ++ evs ++ evs') ls'' := by
  obtain ⟨n, h⟩ := h
  obtain ⟨m, h2⟩ := h2
  refine ⟨max n m + 1, ?_⟩
  have h1 := parseAtom_mono (Nat.le_max_left n m) h
  have h3 := collectRest_mono (Nat.le_max_right n m) h2
  rw [collectRest]
  cases l <;> simp only [Lexeme.startsAtom, Bool.false_eq_true] at hl <;>
    simp only [nextLex, h1, h3, missingSpace]

/-- What must not follow a unit directly. -/
theorem PAtom.unit {sp} (he : .eof ∉ ls) (h : ∀ sp' v r, ls = .scalar sp' v .bare :: r → sp'.start ≠ sp.stop) :
    PAtom input (.unit sp) ls (.unit sp) [] ls := by
  refine ⟨1, ?_⟩
  rw [parseAtom]
  cases ls with
  | nil => rfl
  | cons l ls =>
    cases l
    case scalar sp' v k =>
      cases k
      case bare => simp only [nextLex]; rw [if_neg (h _ _ _ rfl)]; rfl
      all_goals rfl
    case eof => exact absurd (by simp) he
    all_goals rfl

theorem PAtom.tag {sp name} (he : .eof ∉ ls) (hc : splitSlashAt name = [name]) (hv : isValidTagName name = true)
    (hs : sp.stop = sp.start + 1 + utf8Len name)
    (h : ∀ sp' v r, ls = .scalar sp' v .bare :: r → sp'.start ≠ sp.stop) :
    PAtom input (.tag sp name false) ls (.tag sp name none false none) [] ls := by
  refine ⟨1, ?_⟩
  have hch : splitChainedTagName name sp.start = [(name, sp)] := by
    simp only [splitChainedTagName, hc, chainSpans]
    rw [← hs]
  have hb : buildTagChain [(name, sp)] none = .tag sp name none false none := by
    simp [buildTagChain, hv]
  rw [parseAtom]
  simp only [hch]
  simp only [List.length_singleton, Nat.lt_irrefl, if_false, Bool.false_eq_true]
  cases ls with
  | nil => simp only [nextLex, hb]; rfl
  | cons l ls =>
    cases l
    case scalar sp' v k =>
      cases k
      case bare => simp only [nextLex]; rw [if_neg (fun hh => h _ _ _ rfl hh.1), hb]; rfl
      all_goals (simp only [nextLex, hb]; rfl)
    case eof => exact absurd (by simp) he
    all_goals (simp only [nextLex, hb]; rfl)

theorem PAtom.tagPayload {sp name l p} (hc : splitSlashAt name = [name]) (hv : isValidTagName name = true)
    (hs : sp.stop = sp.start + 1 + utf8Len name) (h : PAtom input l ls p evs ls') :
    PAtom input (.tag sp name true) (l :: ls) (.tag ⟨sp.start, p.span.stop⟩ name (some p) false none) evs ls' := by
  obtain ⟨n, h⟩ := h
  refine ⟨n + 1, ?_⟩
  have hch : splitChainedTagName name sp.start = [(name, sp)] := by
    simp only [splitChainedTagName, hc, chainSpans]
    rw [← hs]
  rw [parseAtom]
  simp only [hch]
  simp only [List.length_singleton, Nat.lt_irrefl, if_false, if_true, nextLex, h]
  simp [buildTagChain, hv]

end

end Styx
