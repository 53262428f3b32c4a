import Verif.Editor.Safe

/-!
# The tokens of the editor's scanner are pieces of the text
-/

namespace Styx.Editor

/-- The positions of the lexer lie in the text, those of the token not before its start. -/
structure Within (text : List Char) (l : Lexer) : Prop where
  start : l.start <:+ text
  here : l.here <:+ l.start
  mark : ∀ m, l.mark = some m → m <:+ l.start

theorem Within.at (text : List Char) : Within text (.at text) :=
  ⟨List.suffix_refl _, List.suffix_refl _, nofun⟩

theorem Within.advance {text : List Char} {l : Lexer} (h : Within text l) : Within text l.advance :=
  ⟨h.start, (List.tail_suffix _).trans h.here, h.mark⟩

theorem Within.advanceWhile {text : List Char} {l : Lexer} (h : Within text l) (p : Char → Bool) :
    Within text (l.advanceWhile p) := ⟨h.start, (List.dropWhile_suffix _).trans h.here, h.mark⟩

theorem Within.markEnd {text : List Char} {l : Lexer} (h : Within text l) : Within text l.markEnd :=
  ⟨h.start, h.here, fun m hm => by cases hm; exact h.here⟩

theorem Within.advanceIf {text : List Char} {l : Lexer} (h : Within text l) (c : Char) :
    Within text (l.advanceIf c) := by
  unfold Lexer.advanceIf; split
  · exact h.advance
  · exact h

theorem Within.skip {text : List Char} {l : Lexer} (h : Within text l) (hm : l.mark = none) :
    Within text l.skip :=
  ⟨((List.tail_suffix _).trans h.here).trans h.start, List.suffix_refl _,
    fun m hm' => by simp [Lexer.skip, hm] at hm'⟩

theorem Within.matchDelim {text : List Char} (d : List UInt8) : ∀ {l : Lexer}, Within text l →
    Within text (matchDelim d l).2 := by
  induction d with
  | nil => intro l h; exact h
  | cons b bs ih =>
    intro l h
    simp only [Editor.matchDelim]
    split
    · exact h
    · exact ih h.advance

theorem Within.stepHashes {text : List Char} (n : Nat) : ∀ {l : Lexer}, Within text l →
    Within text (stepHashes n l).2 := by
  induction n with
  | zero => intro l h; exact h
  | succ n ih =>
    intro l h
    simp only [Editor.stepHashes]
    split
    · exact ih h.advance
    · exact h

theorem heredocLoop_within {text : List Char} {s : Scanner} {d : List UInt8} : ∀ {f : Nat} {has : Bool} {l : Lexer}
    {y : Option Symbol} {s' : Scanner} {l' : Lexer}, Within text l →
    heredocLoop s d f has l = .ok (y, s', l') → Within text l' := by
  intro f
  induction f with
  | zero => intro has l y s' l' _ he; simp [heredocLoop] at he
  | succ f ih =>
    intro has l y s' l' h he
    simp only [heredocLoop] at he
    have hm := (h.markEnd.advanceWhile isBlank).matchDelim d
    generalize Editor.matchDelim d (l.markEnd.advanceWhile isBlank) = m at hm he
    obtain ⟨a, l1⟩ := m
    simp only at hm he
    have hl := ((hm.advanceWhile inLine).advanceIf '\r').advanceIf '\n'
    split at he
    · split at he
      · injection he with he; injection he with _ he; injection he with _ he; subst he; exact hm
      · injection he with he; injection he with _ he; injection he with _ he; subst he; exact hm.markEnd
    · split at he
      · injection he with he; injection he with _ he; injection he with _ he; subst he; exact hl.markEnd
      · exact ih hl.markEnd he

theorem rawLoop_within {text : List Char} {s : Scanner} : ∀ {f : Nat} {has : Bool} {l : Lexer}
    {y : Option Symbol} {s' : Scanner} {l' : Lexer}, Within text l →
    rawLoop s f has l = .ok (y, s', l') → Within text l' := by
  intro f
  induction f with
  | zero => intro has l y s' l' _ he; simp [rawLoop] at he
  | succ f ih =>
    intro has l y s' l' h he
    simp only [rawLoop] at he
    split at he
    · split at he
      · injection he with he; injection he with _ he; injection he with _ he; subst he; exact h.markEnd
      · injection he with he; injection he with _ he; injection he with _ he; subst he; exact h
    · split at he
      · have hm := h.markEnd.advance.stepHashes s.hashes
        generalize Editor.stepHashes s.hashes l.markEnd.advance = m at hm he
        obtain ⟨k, l1⟩ := m
        simp only at hm he
        split at he
        · split at he
          · injection he with he; injection he with _ he; injection he with _ he; subst he; exact hm
          · injection he with he; injection he with _ he; injection he with _ he; subst he; exact hm.markEnd
        · exact ih hm he
      · exact ih h.advance he

theorem readDelim_suffix (cs : List Char) : ∀ {buf : List UInt8} {len : Nat} {buf' : List UInt8} {len' : Nat}
    {r : List Char}, readDelim buf len cs = .ok (buf', len', r) → r <:+ cs := by
  induction cs with
  | nil => intro buf len buf' len' r h; simp only [readDelim] at h; injection h with h; simp_all
  | cons c cs ih =>
    intro buf len buf' len' r h
    simp only [readDelim] at h
    split at h
    · cases hp : put buf len (UInt8.ofNat c.toNat) with
      | error e => rw [hp] at h; cases h
      | ok b =>
        rw [hp] at h
        exact (ih h).trans (List.suffix_cons ..)
    · injection h with h; injection h with _ h; injection h with _ h; subst h; exact List.suffix_refl _

theorem scanHeredocStart_within {text : List Char} {s : Scanner} {l : Lexer} {y : Option Symbol}
    {s' : Scanner} {l' : Lexer} (h : Within text l) (he : scanHeredocStart s l = .ok (y, s', l')) :
    Within text l' := by
  simp only [scanHeredocStart] at he
  split at he
  · injection he with he; injection he with _ he; injection he with _ he; subst he; exact h
  split at he
  · injection he with he; injection he with _ he; injection he with _ he; subst he; exact h.advance
  split at he
  · injection he with he; injection he with _ he; injection he with _ he; subst he; exact h.advance.advance
  cases hr : readDelim s.buf 0 l.advance.advance.here with
  | error e => rw [hr] at he; cases he
  | ok q =>
    obtain ⟨buf, len, r⟩ := q
    rw [hr] at he
    change (put buf len 0 >>= _) = _ at he
    cases hp : put buf len 0 with
    | error e => rw [hp] at he; cases he
    | ok b =>
      rw [hp] at he
      have hw : Within text { l.advance.advance with here := r } :=
        ⟨h.start, (readDelim_suffix _ hr).trans h.advance.advance.here, h.mark⟩
      change (if _ then _ else _) = _ at he
      split at he
      · injection he with he; injection he with _ he; injection he with _ he; subst he; exact hw
      · injection he with he; injection he with _ he; injection he with _ he; subst he; exact hw

theorem scanHeredocLang_within {text : List Char} {s : Scanner} {l : Lexer} (h : Within text l)
    (hm : l.mark = none) : Within text (scanHeredocLang s l).2.2 := by
  simp only [scanHeredocLang]
  split
  · exact h
  split
  · exact h
  split
  · exact h.skip hm
  split
  · exact ((h.skip hm).advanceWhile _).markEnd
  · exact (((h.skip hm).advanceWhile _).markEnd.advanceIf _).advanceIf _

theorem scanRawStart_within {text : List Char} {s : Scanner} {l : Lexer} (h : Within text l) (y : Symbol) :
    Within text (scanRawStart s l y).2.2 := by
  simp only [scanRawStart]
  split
  · exact h
  · have hm := h.advance.stepHashes 255
    generalize Editor.stepHashes 255 l.advance = m at hm
    obtain ⟨k, l1⟩ := m
    simp only at hm ⊢
    split
    · exact hm
    · exact hm.advance

theorem scanAtToken_within {text : List Char} {l : Lexer} (h : Within text l) (v : Symbol → Bool) :
    Within text (scanAtToken v l).2 := by
  simp only [scanAtToken]
  split
  · exact h
  split
  · split
    · exact h.advance
    · exact h.advance.advanceWhile _
  · split <;> exact h.advance

theorem scanOther_within {text : List Char} {s : Scanner} {v : Symbol → Bool} {l : Lexer}
    {y : Option Symbol} {s' : Scanner} {l' : Lexer} (h : Within text l)
    (hm : l.mark = none ∨ s.inHeredoc = true) (he : scanOther v s l = .ok (y, s', l')) :
    Within text l' := by
  simp only [scanOther] at he
  split at he
  · split at he
    · injection he with he; injection he with _ he; injection he with _ he; subst he
      exact h.markEnd.advance.markEnd
    · injection he with he; injection he with _ he; injection he with _ he; subst he
      exact h.markEnd.advance
  split at he
  · have := scanRawStart_within (s := s) h .immediateRawStart
    injection he with he; rw [he] at this; exact this
  have hb : Within text (if (!s.inHeredoc && !s.inRaw) = true then
      (if l.here.dropWhile isBlank = l.here then l
        else ({ l with start := l.here.dropWhile isBlank, here := l.here.dropWhile isBlank } : Lexer)) else l) := by
    split
    · split
      · exact h
      · rename_i hs _
        refine ⟨((List.dropWhile_suffix _).trans h.here).trans h.start, List.suffix_refl _, ?_⟩
        intro m hm'
        rcases hm with hm | hm
        · simp [hm] at hm'
        · simp [hm] at hs
    · exact h
  generalize (if (!s.inHeredoc && !s.inRaw) = true then
      (if l.here.dropWhile isBlank = l.here then l
        else ({ l with start := l.here.dropWhile isBlank, here := l.here.dropWhile isBlank } : Lexer)) else l) = l1
    at hb he
  split at he
  · have := scanAtToken_within hb v
    injection he with he; injection he with _ he; injection he with _ he; subst he; exact this
  split at he
  · exact scanHeredocStart_within hb he
  split at he
  · have := scanRawStart_within (s := s) hb .rawStart
    injection he with he; rw [he] at this; exact this
  · injection he with he; injection he with _ he; injection he with _ he; subst he; exact hb

theorem scanInside_within {text : List Char} {s : Scanner} {v : Symbol → Bool} {l : Lexer}
    {y : Option Symbol} {s' : Scanner} {l' : Lexer} (h : Within text l)
    (hm : l.mark = none ∨ s.inHeredoc = true) (he : scanInside v s l = .ok (y, s', l')) :
    Within text l' := by
  simp only [scanInside] at he
  split at he
  · simp only [scanHeredocContentOrEnd] at he
    split at he
    · injection he with he; injection he with _ he; injection he with _ he; subst he; exact h
    · cases hg : get s.buf s.len with
      | error e => rw [hg] at he; cases he
      | ok d =>
        rw [hg] at he
        refine heredocLoop_within ?_ he
        split
        · exact (h.advanceIf _).advanceIf _
        · exact h
  split at he
  · simp only [scanRawContentOrEnd] at he
    split at he
    · injection he with he; injection he with _ he; injection he with _ he; subst he; exact h
    · exact rawLoop_within h he
  · exact scanOther_within h hm he

theorem scan_within {text : List Char} {s : Scanner} {v : Symbol → Bool} {y : Option Symbol}
    {s' : Scanner} {l' : Lexer} (hs : s.needsLang = true → s.inHeredoc = true)
    (he : scan v s (.at text) = .ok (y, s', l')) : Within text l' := by
  simp only [scan] at he
  split at he
  · rename_i hn
    simp only [Bool.and_eq_true] at hn
    have hw := scanHeredocLang_within (s := s) (Within.at text) rfl
    have hst : (scanHeredocLang s (.at text)).1 = none → (scanHeredocLang s (.at text)).2.1 = s := by
      simp only [scanHeredocLang]
      repeat' split
      all_goals first | exact fun _ => rfl | nofun
    generalize scanHeredocLang s (.at text) = q at hw hst he
    obtain ⟨y1, s1, l1⟩ := q
    simp only at hw hst
    cases y1 with
    | some y1 => injection he with he; injection he with _ he; injection he with _ he; subst he; exact hw
    | none =>
      have := hst rfl
      subst this
      exact scanInside_within hw (.inr (hs hn.1)) he
  · exact scanInside_within (Within.at text) (.inl rfl) he

theorem between_suffix {a b : List Char} (h : b <:+ a) : between a b ++ b = a := by
  obtain ⟨c, rfl⟩ := h
  simp [between]

end Styx.Editor
