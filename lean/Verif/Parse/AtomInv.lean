import Verif.Parse.Relation
import Verif.Parse.LexInv

/-!
# Invariants of the atoms built by the parser

`atomGood`: the spans inside an atom are character boundaries of the source, the texts it carries are
those of the source, and the payload of a tag starts where the tag's name ends.
-/

namespace Styx

open Spec

/-- The key of an entry. -/
def ObjEntry.key : ObjEntry → Atom
  | .mk key _ _ _ => key

/-- Bookkeeping of the keys `ks` seen so far in an object: what `seen` and `dups` hold. -/
structure DupInv (ks : List Atom) (seen : List (KeyValue × Span)) (dups : List (Span × Span)) : Prop where
  seen_mem : ∀ x ∈ seen, ∃ k ∈ ks, KeyValue.fromAtom k = x.1 ∧ k.span = x.2
  mem_seen : ∀ k ∈ ks, lookupKey (KeyValue.fromAtom k) seen ≠ none
  distinct : dups = [] → ks.Pairwise fun a b => KeyValue.fromAtom a ≠ KeyValue.fromAtom b
  dup_mem : ∀ d ∈ dups, ∃ k1 k2, [k1, k2].Sublist ks ∧
    KeyValue.fromAtom k1 = KeyValue.fromAtom k2 ∧ k1.span = d.1 ∧ k2.span = d.2

/-- The length of a tag without payload, and of a tag with an explicit unit as payload. -/
def TagLen (sp : Span) (name : List Char) (payload : Option Atom) (invalid : Bool) : Prop :=
  (payload = none → invalid = false → sp.stop = sp.start + 1 + utf8Len name) ∧
  (∀ u, payload = some (.unit u) → sp.stop = sp.start + 2 + utf8Len name)

/-- At byte `p` there is a character other than `{`. -/
def HasNoBrace (s : List Char) (p : Nat) : Prop := ∃ c, c ≠ '{' ∧ HasText s ⟨p, p + c.utf8Size⟩ [c]

mutual
/-- Facts about an atom parsed from `s`. -/
def AtomGood (s : List Char) : Atom → Prop
  | .scalar sp v k => LexOK s (.scalar sp v k)
  | .unit sp => SpanOK s sp
  | .tag sp name payload invalid errSpan => SpanOK s sp ∧ (∀ e, errSpan = some e → SpanOK s e) ∧
      HasText s ⟨sp.start, sp.start + 1 + utf8Len name⟩ ('@' :: name) ∧
      PayloadGood s sp name payload ∧ TagLen sp name payload invalid
  | .object sp entries dups dangling _ => SpanOK s sp ∧ EntriesGood s entries ∧
      (∀ d ∈ dups, SpanOK s d.1 ∧ SpanOK s d.2) ∧ (∀ d ∈ dangling, SpanOK s d) ∧
      ∃ seen, DupInv (entries.map ObjEntry.key) seen dups
  | .sequence sp elems _ commas => SpanOK s sp ∧ ElemsGood s elems ∧ (∀ d ∈ commas, SpanOK s d)
  | .attributes sp attrs => SpanOK s sp ∧ AttrsGood s attrs ∧ HasNoBrace s sp.start
  | .invalidEscapeScalar sp raw => HasText s sp ('"' :: raw ++ ['"']) ∧ ¬ ∃ v, Escaped raw v
  | .error sp _ => SpanOK s sp
  | .panic sp => LexOK s (.panic sp)
/-- The payload starts right after the tag's name, or after a `/` when it is the next tag of a
chain. -/
def PayloadGood (s : List Char) (sp : Span) (name : List Char) : Option Atom → Prop
  | none => True
  | some a => AtomGood s a ∧ a.span.stop = sp.stop ∧ (a.span.start = sp.start + 1 + utf8Len name ∨
      a.span.start = sp.start + 2 + utf8Len name ∧
        HasText s ⟨sp.start + 1 + utf8Len name, sp.start + 2 + utf8Len name⟩ ['/'] ∧
        ∃ sp' n p i e, a = .tag sp' n p i e)
/-- Facts about the entries of an object. -/
def EntriesGood (s : List Char) : List ObjEntry → Prop
  | [] => True
  | .mk key value doc tooMany :: rest => AtomGood s key ∧ AtomGood s value ∧
      (∀ d, doc = some d → SpanOK s d.1) ∧ (∀ d, tooMany = some d → SpanOK s d) ∧ EntriesGood s rest
/-- Facts about the elements of a sequence. -/
def ElemsGood (s : List Char) : List Atom → Prop
  | [] => True
  | a :: rest => AtomGood s a ∧ ElemsGood s rest
/-- Facts about attributes. -/
def AttrsGood (s : List Char) : List AttrEntry → Prop
  | [] => True
  | .mk key ks value :: rest => HasText s ks key ∧ AtomGood s value ∧ AttrsGood s rest
end

/-- Events queued while an entry is being collected. -/
def quietKind : EventKind → Bool
  | .comment _ | .docComment _ | .error .missingWhitespaceBeforeBlock => true
  | _ => false

/-- The events `evs` are of these kinds with good spans. -/
def EvsOK (s : List Char) (evs : List Event) : Prop :=
  ∀ e ∈ evs, SpanOK s e.span ∧ quietKind e.kind = true

theorem EvsOK.append {s : List Char} {a b : List Event} (ha : EvsOK s a) (hb : EvsOK s b) :
    EvsOK s (a ++ b) := by
  intro e he
  rcases List.mem_append.mp he with h | h
  · exact ha e h
  · exact hb e h

theorem evsOK_nil {s : List Char} : EvsOK s [] := by intro e he; cases he

theorem Chain.weaken {s : List Char} {p q : Nat} {ls : List Lexeme} (h : Chain s q ls) (hp : p ≤ q) :
    Chain s p ls := by
  cases ls with
  | nil => exact Nat.le_trans hp h
  | cons l ls => exact ⟨h.1, h.2.1, Nat.le_trans hp h.2.2.1, h.2.2.2⟩

theorem Chain.le {s : List Char} {p : Nat} {ls : List Lexeme} (h : Chain s p ls) : p ≤ utf8Len s := by
  cases ls with
  | nil => exact h
  | cons l ls => exact Nat.le_trans h.2.2.1 (h.2.1.spanOK h.1).2.1.le

theorem chain_nextLex {s : List Char} {p : Nat} {ls0 ls : List Lexeme} {l : Lexeme}
    (hn : nextLex ls0 = (l, ls)) (hc : Chain s p ls0) :
    (l = .eof ∧ ls0 = [] ∧ ls = [] ∧ p ≤ utf8Len s) ∨ (l ≠ .eof ∧ ls0 = l :: ls) := by
  cases ls0 with
  | nil => simp only [nextLex, Prod.mk.injEq] at hn; exact Or.inl ⟨hn.1.symm, rfl, hn.2.symm, hc⟩
  | cons l' ls' =>
    simp only [nextLex, Prod.mk.injEq] at hn
    obtain ⟨rfl, rfl⟩ := hn
    exact Or.inr ⟨hc.1, rfl⟩

theorem AtomGood.spanOK {s : List Char} {a : Atom} (h : AtomGood s a) : SpanOK s a.span := by
  cases a <;> simp only [AtomGood, LexOK, Atom.span] at h ⊢ <;>
    first | exact h | exact h.1 | exact h.1.spanOK

theorem HasText.left {s : List Char} {sp : Span} {a b : List Char} (h : HasText s sp (a ++ b)) :
    HasText s ⟨sp.start, sp.start + utf8Len a⟩ a := by
  obtain ⟨x, y, h1, h2, h3⟩ := h
  exact ⟨x, b ++ y, by simp [h1], h2, by simp [h2]⟩

theorem HasText.right {s : List Char} {sp : Span} {a b : List Char} (h : HasText s sp (a ++ b)) :
    HasText s ⟨sp.start + utf8Len a, sp.stop⟩ b := by
  obtain ⟨x, y, h1, h2, h3⟩ := h
  exact ⟨x ++ a, y, by simp [h1], by simp [h2], by simp [h3, Nat.add_assoc]⟩

theorem HasText.len {s : List Char} {sp : Span} {t : List Char} (h : HasText s sp t) :
    sp.stop = sp.start + utf8Len t := by
  obtain ⟨a, b, _, h1, h2⟩ := h; omega

theorem HasText.slice {s : List Char} {sp : Span} {t : List Char} (h : HasText s sp t) :
    sliceBytes s sp.start sp.stop = some t := by
  obtain ⟨a, b, rfl, h1, h2⟩ := h
  rw [sliceBytes_eq, h1, h2]
  exact slice_append a t b

/-- The segments of a chained tag name joined by `/@`. -/
def joinSlashAt : List (List Char) → List Char
  | [] => []
  | [seg] => seg
  | seg :: segs => seg ++ '/' :: '@' :: joinSlashAt segs

theorem splitSlashAt_ne (name : List Char) : splitSlashAt name ≠ [] := by
  fun_cases splitSlashAt name <;> simp_all

theorem join_split (name : List Char) : joinSlashAt (splitSlashAt name) = name := by
  fun_induction splitSlashAt name with
  | case1 => rfl
  | case2 cs ih =>
    cases h : splitSlashAt cs with
    | nil => exact absurd h (splitSlashAt_ne cs)
    | cons a b => rw [h] at ih; simp [joinSlashAt, ih]
  | case3 c cs _ h ih => exact absurd h (splitSlashAt_ne cs)
  | case4 c cs _ seg segs h ih =>
    rw [h] at ih
    cases segs <;> simp_all [joinSlashAt]

theorem chainSpans_length (n : Nat) (segs : List (List Char)) : (chainSpans n segs).length = segs.length := by
  induction segs generalizing n with
  | nil => rfl
  | cons a b ih => simp [chainSpans, ih]

theorem containsSlashAt_split (name : List Char) (h : (splitSlashAt name).length ≤ 1) :
    containsSlashAt name = false := by
  fun_induction splitSlashAt name with
  | case1 => rfl
  | case2 cs ih =>
    have := splitSlashAt_ne cs
    cases h2 : splitSlashAt cs <;> simp_all
  | case3 c cs _ h2 ih => exact absurd h2 (splitSlashAt_ne cs)
  | case4 c cs hne seg segs h2 ih =>
    rw [h2] at ih
    have ih := ih (by simpa using h)
    unfold containsSlashAt
    split
    · rename_i heq; cases heq; exact (hne _ rfl rfl).elim
    · simp_all
    · rfl

theorem utf8_slash : '/'.utf8Size = 1 := rfl
theorem utf8_at : '@'.utf8Size = 1 := rfl

theorem Atom.span_tag (sp : Span) (n : List Char) (p : Option Atom) (i : Bool) (e : Option Span) :
    (Atom.tag sp n p i e).span = sp := rfl

/-- End of a tag whose names end at `d`. -/
def trailStop (d : Nat) : Option Atom → Nat
  | some a => a.span.stop
  | none => d

theorem tagLen_of_tag {sp : Span} {name : List Char} {sp' : Span} {n : List Char} {p : Option Atom} {i : Bool}
    {e : Option Span} {inv : Bool} : TagLen sp name (some (.tag sp' n p i e)) inv :=
  ⟨by simp, by simp⟩

/-- The atom of a (chained) tag. -/
theorem buildTagChain_good {s : List Char} {sp : Span} {segs : List (List Char)} (hne : segs ≠ [])
    (ht : HasText s sp ('@' :: joinSlashAt segs)) (trailing : Option Atom)
    (hg : ∀ a, trailing = some a → AtomGood s a ∧ a.span.start = sp.stop ∧
      ∀ u, a = .unit u → u.stop = u.start + 1) :
    AtomGood s (buildTagChain (chainSpans sp.start segs) trailing) ∧
    (buildTagChain (chainSpans sp.start segs) trailing).span.start = sp.start ∧
    (buildTagChain (chainSpans sp.start segs) trailing).span.stop =
      trailStop sp.stop trailing ∧
    ∃ sp' n p i e, buildTagChain (chainSpans sp.start segs) trailing = .tag sp' n p i e := by
  induction segs generalizing sp with
  | nil => exact absurd rfl hne
  | cons seg segs ih =>
    have hlen := ht.len
    cases segs with
    | nil =>
      simp only [joinSlashAt, utf8Len_cons, utf8_at] at hlen ht
      have hst : sp.stop = sp.start + 1 + utf8Len seg := by omega
      have hok := ht.spanOK
      have hsp : (⟨sp.start, sp.start + 1 + utf8Len seg⟩ : Span) = sp := by
        cases sp; simp only [Span.mk.injEq]; exact ⟨trivial, hst.symm⟩
      simp only [chainSpans, buildTagChain, AtomGood, Atom.span_tag, hsp]
      refine ⟨⟨?_, ?_, ht, ?_, ?_, ?_⟩, trivial, ?_, ⟨_, _, _, _, _, rfl⟩⟩
      · cases trailing with
        | none => exact ht.spanOK
        | some a =>
          obtain ⟨g1, g2, _⟩ := hg a rfl
          have := g1.spanOK
          exact ⟨by have := this.1; have := hok.1; simp only; omega, hok.2.1, this.2.2⟩
      · intro e he
        split at he
        · cases he
        · cases he; exact hok
      · cases trailing with
        | none => trivial
        | some a =>
          obtain ⟨g1, g2, _⟩ := hg a rfl
          exact ⟨g1, rfl, Or.inl (by simp only; omega)⟩
      · rintro rfl _; exact hst
      · rintro u rfl
        obtain ⟨_, g2, g3⟩ := hg _ rfl
        have := g3 u rfl
        simp only [Atom.span] at g2 ⊢
        omega
      · cases trailing <;> rfl
    | cons seg2 segs2 =>
      have hj : '@' :: joinSlashAt (seg :: seg2 :: segs2) =
          ('@' :: seg) ++ (['/'] ++ ('@' :: joinSlashAt (seg2 :: segs2))) := by
        simp [joinSlashAt]
      rw [hj] at ht hlen
      have h1 := ht.left
      have h2 := ht.right.left
      have h3 := ht.right.right
      simp only [utf8Len_cons, utf8Len_append, utf8Len_nil, utf8_at, utf8_slash] at h1 h2 h3 hlen
      have e1 : sp.start + (1 + utf8Len seg) + (1 + 0) = sp.start + 1 + utf8Len seg + 1 := by omega
      rw [e1] at h2 h3
      obtain ⟨g1, g2, g3, sp', n, p, i, e, g4⟩ := ih (sp := ⟨sp.start + 1 + utf8Len seg + 1, sp.stop⟩)
        (by simp) h3 hg
      have hb : buildTagChain (chainSpans sp.start (seg :: seg2 :: segs2)) trailing =
          .tag ⟨sp.start, (buildTagChain (chainSpans (sp.start + 1 + utf8Len seg + 1) (seg2 :: segs2)) trailing).span.stop⟩
            seg (some (buildTagChain (chainSpans (sp.start + 1 + utf8Len seg + 1) (seg2 :: segs2)) trailing))
            (!isValidTagName seg)
            (if isValidTagName seg then none else some ⟨sp.start, sp.start + 1 + utf8Len seg⟩) := by
        rfl
      rw [hb]
      have gs := g1.spanOK
      have e2 : sp.start + (1 + utf8Len seg) = sp.start + 1 + utf8Len seg := by omega
      rw [e2] at h1 h2
      simp only [AtomGood, Atom.span_tag, PayloadGood]
      refine ⟨⟨⟨?_, h1.spanOK.2.1, gs.2.2⟩, ?_, h1, ⟨g1, trivial, Or.inr ⟨?_, ?_, _, _, _, _, _, g4⟩⟩, by rw [g4]; exact tagLen_of_tag⟩, trivial, g3, ⟨_, _, _, _, _, rfl⟩⟩
      · have h6 : (buildTagChain (chainSpans (sp.start + 1 + utf8Len seg + 1) (seg2 :: segs2)) trailing).span.start ≤ (buildTagChain (chainSpans (sp.start + 1 + utf8Len seg + 1) (seg2 :: segs2)) trailing).span.stop := gs.1
        have h5 : (buildTagChain (chainSpans (sp.start + 1 + utf8Len seg + 1) (seg2 :: segs2)) trailing).span.start = sp.start + 1 + utf8Len seg + 1 := g2
        simp only; omega
      · intro e he
        split at he
        · cases he
        · cases he; exact h1.spanOK
      · have h5 : (buildTagChain (chainSpans (sp.start + 1 + utf8Len seg + 1) (seg2 :: segs2)) trailing).span.start = sp.start + 1 + utf8Len seg + 1 := g2
        omega
      · have e3 : sp.start + 2 + utf8Len seg = sp.start + 1 + utf8Len seg + 1 := by omega
        rw [e3]; exact h2

theorem attrsEnd_cons (d : Nat) (key : List Char) (ks : Span) (v : Atom) (as : List AttrEntry) :
    attrsEnd d (.mk key ks v :: as) = attrsEnd v.span.stop as := by
  cases as with
  | nil => rfl
  | cons a as =>
    simp only [attrsEnd]
    induction as generalizing a with
    | nil => cases a; rfl
    | cons b bs ih => cases a; simp only [attrsEnd]; exact ih b

theorem entriesGood_reverse {s : List Char} {es : List ObjEntry} :
    EntriesGood s es ↔ ∀ e ∈ es, EntriesGood s [e] := by
  induction es with
  | nil => simp [EntriesGood]
  | cons e es ih =>
    cases e
    simp only [List.forall_mem_cons, EntriesGood] at ih ⊢
    rw [ih]
    simp only [and_true, and_assoc]

theorem elemsGood_iff {s : List Char} {es : List Atom} :
    ElemsGood s es ↔ ∀ e ∈ es, AtomGood s e := by
  induction es with
  | nil => simp [ElemsGood]
  | cons e es ih => simp [ElemsGood, ih]

/-- Pending doc comments (newest first) before byte `p`. -/
def DocsOK (s : List Char) (p : Nat) : List (Span × List Char) → Prop
  | [] => True
  | d :: ds => SpanOK s d.1 ∧ d.1.stop ≤ p ∧ DocsOK s d.1.start ds

theorem DocsOK.mem {s : List Char} {p : Nat} {ds : List (Span × List Char)} (h : DocsOK s p ds) :
    ∀ d ∈ ds, SpanOK s d.1 ∧ d.1.stop ≤ p := by
  induction ds generalizing p with
  | nil => simp
  | cons d ds ih =>
    intro x hx
    rcases List.mem_cons.mp hx with rfl | hx
    · exact ⟨h.1, h.2.1⟩
    · have := ih h.2.2 x hx
      exact ⟨this.1, Nat.le_trans this.2 (Nat.le_trans h.1.1 h.2.1)⟩

theorem DocsOK.weaken {s : List Char} {p q : Nat} {ds : List (Span × List Char)} (h : DocsOK s p ds)
    (hp : p ≤ q) : DocsOK s q ds := by
  cases ds with
  | nil => trivial
  | cons d ds => exact ⟨h.1, Nat.le_trans h.2.1 hp, h.2.2⟩

theorem combineDocs_ok {s : List Char} {p : Nat} {ds : List (Span × List Char)} (h : DocsOK s p ds)
    {d : Span × List (List Char)} (hd : combineDocs ds.reverse = some d) : SpanOK s d.1 := by
  cases ds with
  | nil => cases hd
  | cons x xs =>
    rw [List.reverse_cons] at hd
    cases hr : xs.reverse with
    | nil =>
      rw [hr] at hd
      simp only [combineDocs, List.nil_append, Option.some.injEq] at hd
      subst hd
      exact h.1
    | cons y ys =>
      rw [hr] at hd
      simp only [combineDocs, List.cons_append, Option.some.injEq] at hd
      subst hd
      have hy : y ∈ xs := by
        have : y ∈ xs.reverse := by simp [hr]
        simpa using this
      have h2 := h.2.2.mem y hy
      have hl : ((y :: (ys ++ [x])).getLastD y) = x := by
        rw [← List.cons_append, List.getLastD_concat]
      rw [hl]
      exact ⟨by have := h2.1.1; have := h.1.1; simp only; omega, h2.1.2.1, h.1.2.2⟩

theorem lookupKey_mem {k : KeyValue} {seen : List (KeyValue × Span)} {sp : Span}
    (h : lookupKey k seen = some sp) : ∃ x ∈ seen, x.2 = sp := by
  induction seen with
  | nil => cases h
  | cons x xs ih =>
    simp only [lookupKey] at h
    split at h
    · cases h; exact ⟨x, by simp, rfl⟩
    · obtain ⟨y, h1, h2⟩ := ih h
      exact ⟨y, by simp [h1], h2⟩

theorem leafAtom_good {s : List Char} {l : Lexeme} {a : Atom} (hl : leafAtom s l = some a)
    (hok : LexOK s l) (hne : l ≠ .eof) : AtomGood s a ∧ a.span = l.span := by
  cases l <;> simp only [leafAtom, reduceCtorEq, Option.some.injEq] at hl <;>
    (try (subst hl; first | exact ⟨hok, rfl⟩ | exact ⟨hok.spanOK hne, rfl⟩))
  · exact absurd rfl hne
  · rename_i sp m
    split at hl
    · rename_i hm
      obtain ⟨raw, hr, hne⟩ := hok.2 hm
      rw [hr.slice] at hl
      simp only [Option.some.injEq] at hl
      subst hl
      have : stripQuotes ('"' :: raw ++ ['"']) = raw := by
        simp only [stripQuotes, List.cons_append, List.head?_cons, true_and]
        rw [← List.cons_append, List.getLast?_concat]
        simp
      rw [this]
      exact ⟨⟨hr, hne⟩, rfl⟩
    · simp only [Option.some.injEq] at hl
      subst hl
      exact ⟨hok.1, rfl⟩

theorem KeyValue.beq_iff (a b : KeyValue) : KeyValue.beq a b = true ↔ a = b := by
  fun_induction KeyValue.beq a b with
  | case1 a b => simp
  | case2 => simp
  | case3 a b => simp
  | case4 a p b q ih => simp [ih]
  | case5 a b h1 h2 h3 h4 =>
    simp only [Bool.false_eq_true, false_iff]
    rintro rfl
    cases a with
    | scalar t => exact h1 t t rfl rfl
    | unit => exact h2 rfl rfl
    | tagged n p =>
      cases p with
      | none => exact h3 n n rfl rfl
      | some p => exact h4 n p n p rfl rfl

theorem lookupKey_none {k : KeyValue} {seen : List (KeyValue × Span)} :
    lookupKey k seen = none ↔ ∀ x ∈ seen, x.1 ≠ k := by
  induction seen with
  | nil => simp [lookupKey]
  | cons x xs ih =>
    obtain ⟨k', sp⟩ := x
    rw [lookupKey]
    by_cases h : KeyValue.beq k k' = true
    · rw [if_pos h]
      have := (KeyValue.beq_iff k k').mp h
      simp [this]
    · rw [if_neg h, ih]
      have : k ≠ k' := fun e => h ((KeyValue.beq_iff k k').mpr e)
      simp [this.symm]

theorem lookupKey_some {k : KeyValue} {seen : List (KeyValue × Span)} {sp : Span}
    (h : lookupKey k seen = some sp) : (k, sp) ∈ seen := by
  induction seen with
  | nil => cases h
  | cons x xs ih =>
    obtain ⟨k', sp'⟩ := x
    rw [lookupKey] at h
    split at h
    · rename_i hb
      have := (KeyValue.beq_iff k k').mp hb
      cases h; simp [this]
    · exact List.mem_cons_of_mem _ (ih h)

theorem dupInv_nil : DupInv [] [] [] := ⟨by simp, by simp, by simp, by simp⟩

theorem DupInv.note {ks : List Atom} {seen : List (KeyValue × Span)} {dups : List (Span × Span)}
    (h : DupInv ks seen dups) (key : Atom) :
    DupInv (ks ++ [key]) (noteKey key seen dups).1 (noteKey key seen dups).2 := by
  unfold noteKey
  split
  · rename_i o ho
    have hm := lookupKey_some ho
    constructor
    · intro x hx
      obtain ⟨k, h1, h2⟩ := h.seen_mem x hx
      exact ⟨k, by simp [h1], h2⟩
    · intro k hk
      rcases List.mem_append.mp hk with hk | hk
      · exact h.mem_seen k hk
      · simp only [List.mem_singleton] at hk
        subst hk
        simp [ho]
    · intro hd; cases hd
    · intro d hd
      rcases List.mem_cons.mp hd with rfl | hd
      · obtain ⟨k, h1, h2, h3⟩ := h.seen_mem _ hm
        refine ⟨k, key, ?_, h2, h3, rfl⟩
        have h4 : [k].Sublist ks := List.singleton_sublist.mpr h1
        exact h4.append (List.Sublist.refl [key])
      · obtain ⟨k1, k2, h1, h2⟩ := h.dup_mem d hd
        exact ⟨k1, k2, h1.trans (List.sublist_append_left _ _), h2⟩
  · rename_i hn
    constructor
    · intro x hx
      rcases List.mem_cons.mp hx with rfl | hx
      · exact ⟨key, by simp, rfl, rfl⟩
      · obtain ⟨k, h1, h2⟩ := h.seen_mem x hx
        exact ⟨k, by simp [h1], h2⟩
    · intro k hk hnone
      rw [lookupKey_none] at hnone
      rcases List.mem_append.mp hk with hk | hk
      · apply h.mem_seen k hk
        rw [lookupKey_none]
        exact fun x hx => hnone x (List.mem_cons_of_mem _ hx)
      · simp only [List.mem_singleton] at hk
        subst hk
        exact hnone (KeyValue.fromAtom k, k.span) (by simp) rfl
    · intro hd
      rw [List.pairwise_append]
      refine ⟨h.distinct hd, by simp, ?_⟩
      intro a ha b hb heq
      simp only [List.mem_singleton] at hb
      subst hb
      rw [← heq] at hn
      exact h.mem_seen a ha hn
    · intro d hd
      obtain ⟨k1, k2, h1, h2⟩ := h.dup_mem d hd
      exact ⟨k1, k2, h1.trans (List.sublist_append_left _ _), h2⟩

theorem DupInv.reverse_dups {ks : List Atom} {seen : List (KeyValue × Span)} {dups : List (Span × Span)}
    (h : DupInv ks seen dups) : DupInv ks seen dups.reverse :=
  ⟨h.seen_mem, h.mem_seen, fun hd => h.distinct (by simpa using hd), fun d hd => h.dup_mem d (by simpa using hd)⟩

theorem noteKey_ok {s : List Char} {key : Atom} {seen : List (KeyValue × Span)}
    {dups : List (Span × Span)} (hk : SpanOK s key.span) (hs : ∀ x ∈ seen, SpanOK s x.2)
    (hd : ∀ d ∈ dups, SpanOK s d.1 ∧ SpanOK s d.2) :
    (∀ x ∈ (noteKey key seen dups).1, SpanOK s x.2) ∧
    (∀ d ∈ (noteKey key seen dups).2, SpanOK s d.1 ∧ SpanOK s d.2) := by
  unfold noteKey
  split
  · rename_i o ho
    obtain ⟨x, hx, rfl⟩ := lookupKey_mem ho
    refine ⟨hs, ?_⟩
    intro d hd'
    rcases List.mem_cons.mp hd' with rfl | h
    · exact ⟨hs x hx, hk⟩
    · exact hd d h
  · refine ⟨?_, hd⟩
    intro x hx
    rcases List.mem_cons.mp hx with rfl | h
    · exact hk
    · exact hs x h

theorem entryValue_good {s : List Char} {key : Atom} {rest : List Atom} (hk : AtomGood s key)
    (hr : ElemsGood s rest) : AtomGood s (entryValue key rest).1 ∧
      ∀ d, (entryValue key rest).2 = some d → SpanOK s d := by
  cases rest with
  | nil => exact ⟨hk.spanOK, by simp [entryValue]⟩
  | cons a r =>
    cases r with
    | nil => exact ⟨hr.1, by simp [entryValue]⟩
    | cons b r =>
      refine ⟨hr.1, ?_⟩
      simp only [entryValue, Option.some.injEq]
      rintro d rfl
      exact hr.2.1.spanOK

theorem objR_ne {s : List Char} {sp : Span} {es seen dups docs} {ls : List Lexeme} {a : Atom}
    {evs : List Event} {ls' : List Lexeme} (h : ObjR s sp es seen dups docs ls a evs ls') (u : Span) :
    a ≠ .unit u := by
  refine ObjR.rec
    (motive_1 := fun _ _ _ _ _ _ => True) (motive_2 := fun _ _ _ _ _ _ a _ _ _ => a ≠ .unit u)
    (motive_3 := fun _ _ _ _ _ _ _ _ => True) (motive_4 := fun _ _ _ _ _ => True)
    (motive_5 := fun _ _ _ _ _ _ _ => True) (motive_6 := fun _ _ _ _ _ _ _ => True)
    ?_ ?_ ?_ ?_ ?_ ?_ ?_ ?_ ?_ ?_ ?_ ?_ ?_ ?_ ?_ ?_ ?_ ?_ ?_ ?_ ?_ ?_ ?_ ?_ ?_ ?_ h
  all_goals intros
  all_goals first
    | trivial
    | assumption
    | simp

theorem seqR_ne {s : List Char} {sp : Span} {es cs} {ls : List Lexeme} {a : Atom}
    {evs : List Event} {ls' : List Lexeme} (h : SeqR s sp es cs ls a evs ls') (u : Span) :
    a ≠ .unit u := by
  refine SeqR.rec
    (motive_1 := fun _ _ _ _ _ _ => True) (motive_2 := fun _ _ _ _ _ _ _ _ _ _ => True)
    (motive_3 := fun _ _ _ _ a _ _ _ => a ≠ .unit u) (motive_4 := fun _ _ _ _ _ => True)
    (motive_5 := fun _ _ _ _ _ _ _ => True) (motive_6 := fun _ _ _ _ _ _ _ => True)
    ?_ ?_ ?_ ?_ ?_ ?_ ?_ ?_ ?_ ?_ ?_ ?_ ?_ ?_ ?_ ?_ ?_ ?_ ?_ ?_ ?_ ?_ ?_ ?_ ?_ ?_ h
  all_goals intros
  all_goals first
    | trivial
    | assumption
    | simp

theorem buildTagChain_ne_unit (c : List (List Char × Span)) (t : Option Atom) (u : Span) :
    buildTagChain c t ≠ .unit u := by
  cases c with
  | nil => intro h; cases h
  | cons x xs => obtain ⟨n, sp⟩ := x; cases xs <;> simp [buildTagChain]

theorem unit_len {s : List Char} {l : Lexeme} {ls ls0 : List Lexeme} {u : Span} {evs : List Event}
    {ls' : List Lexeme} {p : Nat} (h : AtomR s l ls (.unit u) evs ls') (hn : nextLex ls0 = (l, ls))
    (hc : Chain s p ls0) : u.stop = u.start + 1 := by
  generalize ha : Atom.unit u = a at h
  cases h with
  | leaf hl =>
    subst ha
    cases l <;> simp only [leafAtom, reduceCtorEq, Option.some.injEq] at hl
    split at hl
    · split at hl <;> cases hl
    · cases hl
  | unit =>
    cases ha
    rcases chain_nextLex hn hc with ⟨h, _⟩ | ⟨_, rfl⟩
    · cases h
    · have h1 : HasText s u ['@'] := hc.2.1
      have := h1.len
      simpa [utf8_at] using this
  | unitBare => cases ha
  | tag => exact absurd ha.symm (buildTagChain_ne_unit _ _ u)
  | tagPayload => exact absurd ha.symm (buildTagChain_ne_unit _ _ u)
  | tagDot => cases ha
  | object h => exact absurd ha.symm (objR_ne h u)
  | sequence h => exact absurd ha.symm (seqR_ne h u)
  | attrs => cases ha

theorem hasNoBrace {s : List Char} {ks : Span} {key : List Char} (h : HasText s ks key) (hne : key ≠ [])
    (hb : '{' ∉ key) : HasNoBrace s ks.start := by
  cases key with
  | nil => exact absurd rfl hne
  | cons c r =>
    have := HasText.left (a := [c]) (b := r) h
    exact ⟨c, fun e => hb (by simp [e]), by simpa using this⟩

theorem atomGood {s : List Char} {l : Lexeme} {ls : List Lexeme} {a : Atom} {evs : List Event}
    {ls' : List Lexeme} (h : AtomR s l ls a evs ls') :
    ∀ p ls0, nextLex ls0 = (l, ls) → Chain s p ls0 →
      AtomGood s a ∧ EvsOK s evs ∧ p ≤ a.span.start ∧ (l ≠ .eof → a.span.start = l.span.start) ∧
      ∃ q, a.span.stop ≤ q ∧ Chain s q ls' := by
  refine AtomR.rec
    (motive_1 := fun l ls a evs ls' _ => ∀ p ls0, nextLex ls0 = (l, ls) → Chain s p ls0 →
      AtomGood s a ∧ EvsOK s evs ∧ p ≤ a.span.start ∧ (l ≠ .eof → a.span.start = l.span.start) ∧
      ∃ q, a.span.stop ≤ q ∧ Chain s q ls')
    (motive_2 := fun start entries seen dups docs ls a evs ls' _ => ∀ p, SpanOK s start → start.stop ≤ p →
      Chain s p ls → EntriesGood s entries → (∀ x ∈ seen, SpanOK s x.2) →
      (∀ d ∈ dups, SpanOK s d.1 ∧ SpanOK s d.2) → DocsOK s p docs →
      DupInv (entries.reverse.map ObjEntry.key) seen dups →
      AtomGood s a ∧ EvsOK s evs ∧ a.span.start = start.start ∧ ∃ q, a.span.stop ≤ q ∧ Chain s q ls')
    (motive_3 := fun start elems commas ls a evs ls' _ => ∀ p, SpanOK s start → start.stop ≤ p →
      Chain s p ls → ElemsGood s elems → (∀ d ∈ commas, SpanOK s d) →
      AtomGood s a ∧ EvsOK s evs ∧ a.span.start = start.start ∧ ∃ q, a.span.stop ≤ q ∧ Chain s q ls')
    (motive_4 := fun ls attrs evs ls' _ => ∀ p, Chain s p ls → AttrsGood s attrs ∧ EvsOK s evs ∧
      ∃ q, p ≤ q ∧ Chain s q ls' ∧ ∀ d, Boundary s d → d ≤ p →
        Boundary s (attrsEnd d attrs) ∧ d ≤ attrsEnd d attrs ∧ attrsEnd d attrs ≤ q)
    (motive_5 := fun l ls key rest evs ls' _ => ∀ p ls0, nextLex ls0 = (l, ls) → Chain s p ls0 →
      AtomGood s key ∧ ElemsGood s rest ∧ EvsOK s evs ∧ p ≤ key.span.start ∧
      ∃ q, p ≤ q ∧ Chain s q ls')
    (motive_6 := fun first only ls rest evs ls' _ => ∀ p, Chain s p ls → ElemsGood s rest ∧
      EvsOK s evs ∧ ∃ q, p ≤ q ∧ Chain s q ls')
    ?leaf ?unit ?unitBare ?tag ?tagPayload ?tagDot ?object ?sequence ?attrs
    ?oeof ?oclose ?oskip ?odoc ?oentry ?seof ?sclose ?sskip ?scomma ?selem ?astop ?aattr ?cmk
    ?rstop ?rcomment ?rdoc ?rmore h
  case leaf =>
    intro l ls a hl p ls0 hn hc
    rcases chain_nextLex hn hc with ⟨rfl, rfl, rfl, hp⟩ | ⟨hne, rfl⟩
    · simp only [leafAtom, Option.some.injEq] at hl
      subst hl
      exact ⟨⟨Nat.le_refl _, boundary_end s, boundary_end s⟩, evsOK_nil, hp, fun h => absurd rfl h,
        utf8Len s, Nat.le_refl _, Nat.le_refl _⟩
    · obtain ⟨g1, g2⟩ := leafAtom_good hl hc.2.1 hne
      exact ⟨g1, evsOK_nil, by rw [g2]; exact hc.2.2.1, fun _ => by rw [g2], _, by rw [g2]; exact Nat.le_refl _, hc.2.2.2.1⟩
  case unit =>
    intro sp ls p ls0 hn hc
    rcases chain_nextLex hn hc with ⟨h, _⟩ | ⟨_, rfl⟩
    · cases h
    · exact ⟨hc.2.1.spanOK hc.1, evsOK_nil, hc.2.2.1, fun _ => rfl, _, Nat.le_refl _, hc.2.2.2.1⟩
  case unitBare =>
    intro sp sp' v ls hadj p ls0 hn hc
    rcases chain_nextLex hn hc with ⟨h, _⟩ | ⟨_, rfl⟩
    · cases h
    · have h1 : HasText s sp ['@'] := hc.2.1
      have hlen := h1.len
      simp only [utf8Len_cons, utf8Len_nil, utf8_at] at hlen
      have h2 := hc.2.2.2.1
      have h3 : LexOK s (.scalar sp' v .bare) := h2.2.1
      refine ⟨⟨⟨?_, h1.spanOK.2.1, h3.1.2.2⟩, ?_, ?_, ⟨h3, rfl, Or.inl ?_⟩, by simp [TagLen]⟩, evsOK_nil, hc.2.2.1, fun _ => rfl, _, Nat.le_refl _, h2.2.2.2.1⟩
      · have := h3.1.1; simp only; omega
      · intro e he; cases he; exact h3.1
      · simp only [utf8Len_nil, Nat.add_zero]
        rw [show sp.start + 1 = sp.stop by omega]
        exact h1
      · simp only [Atom.span, utf8Len_nil]; omega
  case tag =>
    intro sp name hp ls _ p ls0 hn hc
    rcases chain_nextLex hn hc with ⟨h, _⟩ | ⟨_, rfl⟩
    · cases h
    · have h1 : HasText s sp ('@' :: name) := hc.2.1
      rw [← join_split name] at h1
      obtain ⟨g1, g2, g3, _⟩ := buildTagChain_good (splitSlashAt_ne name) h1 none (by simp)
      exact ⟨g1, evsOK_nil, by rw [splitChainedTagName, g2]; exact hc.2.2.1, fun _ => g2, sp.stop,
        Nat.le_of_eq g3, hc.2.2.2.1⟩
  case tagPayload =>
    intro sp name hp ls nxt ls' p evs ls'' hnx hcond hcp ih q ls0 hn hc
    rcases chain_nextLex hn hc with ⟨h, _⟩ | ⟨_, rfl⟩
    · cases h
    · have h1 : HasText s sp ('@' :: name) := hc.2.1
      have hadj : nxt ≠ .eof ∧ nxt.span.start = sp.stop := by
        rcases hcond with ⟨rfl, hl⟩ | ⟨ha, hb⟩
        · rw [splitChainedTagName, chainSpans_length] at hl
          obtain ⟨l', ls2, rfl, h3⟩ := hc.2.2.2.2 sp name rfl (containsSlashAt_split name hl)
          simp only [nextLex, Prod.mk.injEq] at hnx
          obtain ⟨rfl, rfl⟩ := hnx
          exact ⟨hc.2.2.2.1.1, h3⟩
        · refine ⟨?_, ha⟩
          rintro rfl
          cases hb
      obtain ⟨i1, i2, i3, i4, q', i5, i6⟩ := ih _ _ hnx hc.2.2.2.1
      rw [← join_split name] at h1
      obtain ⟨g1, g2, g3, _⟩ := buildTagChain_good (splitSlashAt_ne name) h1 (some p) (by
        rintro a ⟨⟩
        refine ⟨i1, by rw [i4 hadj.1, hadj.2], ?_⟩
        rintro u rfl
        exact unit_len hcp hnx hc.2.2.2.1)
      exact ⟨g1, i2, by rw [splitChainedTagName, g2]; exact hc.2.2.1, fun _ => g2, q',
        by rw [splitChainedTagName, g3]; exact i5, i6⟩
  case tagDot =>
    intro sp name hp sp' v ls hadj _ p ls0 hn hc
    rcases chain_nextLex hn hc with ⟨h, _⟩ | ⟨_, rfl⟩
    · cases h
    · have h1 : HasText s sp ('@' :: name) := hc.2.1
      have hlen := h1.len
      simp only [utf8Len_cons, utf8_at] at hlen
      have h2 := hc.2.2.2.1
      have h3 : LexOK s (.scalar sp' v .bare) := h2.2.1
      have h4 : HasText s ⟨sp.start + utf8Len ['@'], sp.stop⟩ name := HasText.right (a := ['@']) h1
      simp only [utf8Len_cons, utf8Len_nil, utf8_at] at h4
      refine ⟨⟨⟨?_, h1.spanOK.2.1, h3.1.2.2⟩, ?_, ?_, trivial, by simp [TagLen]⟩, evsOK_nil, hc.2.2.1, fun _ => rfl, _, Nat.le_refl _, h2.2.2.2.1⟩
      · have := h3.1.1; simp only; omega
      · intro e he; cases he
        exact ⟨by have := h3.1.1; simp only; omega, h4.spanOK.2.1, h3.1.2.2⟩
      · have : sp = ⟨sp.start, sp.start + 1 + utf8Len name⟩ := by
          cases sp; simp only [Span.mk.injEq] at *; exact ⟨trivial, by omega⟩
        rw [← this]; exact h1
  case object =>
    intro sp ls a evs ls' _ ih p ls0 hn hc
    rcases chain_nextLex hn hc with ⟨h, _⟩ | ⟨_, rfl⟩
    · cases h
    · obtain ⟨i1, i2, i3, i4⟩ := ih sp.stop (hc.2.1.spanOK hc.1) (Nat.le_refl _) hc.2.2.2.1 trivial (by simp) (by simp) trivial dupInv_nil
      exact ⟨i1, i2, by rw [i3]; exact hc.2.2.1, fun _ => i3, i4⟩
  case sequence =>
    intro sp ls a evs ls' _ ih p ls0 hn hc
    rcases chain_nextLex hn hc with ⟨h, _⟩ | ⟨_, rfl⟩
    · cases h
    · obtain ⟨i1, i2, i3, i4⟩ := ih sp.stop (hc.2.1.spanOK hc.1) (Nat.le_refl _) hc.2.2.2.1 trivial (by simp)
      exact ⟨i1, i2, by rw [i3]; exact hc.2.2.1, fun _ => i3, i4⟩
  case attrs =>
    intro sp ks key ls nxt ls' v evs ls'' attrs evs' ls''' hnx _ _ ih1 ih2 p ls0 hn hc
    rcases chain_nextLex hn hc with ⟨h, _⟩ | ⟨_, rfl⟩
    · cases h
    · obtain ⟨k1, k2, k3, k4, k5, k6⟩ : LexOK s (.attrKey sp ks key) := hc.2.1
      obtain ⟨i1, i2, i3, i4, q, i5, i6⟩ := ih1 _ _ hnx hc.2.2.2.1
      obtain ⟨j1, j2, q', j3, j4, j5⟩ := ih2 q i6
      have hv := i1.spanOK
      obtain ⟨j6, j7, j8⟩ := j5 v.span.stop hv.2.2 i5
      rw [attrsEnd_cons]
      have hks := k2.spanOK
      refine ⟨⟨⟨?_, hks.2.1, j6⟩, ⟨k2, i1, j1⟩, show HasNoBrace s ks.start from hasNoBrace k2 k5 k6⟩, i2.append j2, ?_, fun _ => k3, q', j8, j4⟩
      · have := hks.1; have := hv.1; simp only [Lexeme.span] at i3; simp only; omega
      · have := hc.2.2.1; simp only [Lexeme.span] at this; simp only [Atom.span]; omega
  case oeof =>
    intro start entries seen dups docs p h1 h2 hc he hs hd hdoc hdup
    refine ⟨⟨h1, ?_, ?_, ?_, seen, hdup.reverse_dups⟩, evsOK_nil, rfl, p, h2, hc⟩
    · rw [entriesGood_reverse] at he ⊢; simpa using he
    · simpa using hd
    · intro d hd'
      simp only [List.map_reverse, List.mem_reverse, List.mem_map] at hd'
      obtain ⟨x, hx, rfl⟩ := hd'
      exact (hdoc.mem x hx).1
  case oclose =>
    intro start entries seen dups docs sp ls p h1 h2 hc he hs hd hdoc hdup
    have hsp := hc.2.1.spanOK hc.1
    refine ⟨⟨⟨?_, h1.2.1, hsp.2.2⟩, ?_, ?_, ?_, seen, hdup.reverse_dups⟩, evsOK_nil, rfl, sp.stop, Nat.le_refl _, hc.2.2.2.1⟩
    · have := hc.2.2.1; have := h1.1; have := hsp.1; simp only [Lexeme.span] at *; omega
    · rw [entriesGood_reverse] at he ⊢; simpa using he
    · simpa using hd
    · intro d hd'
      simp only [List.map_reverse, List.mem_reverse, List.mem_map] at hd'
      obtain ⟨x, hx, rfl⟩ := hd'
      exact (hdoc.mem x hx).1
  case oskip =>
    intro start entries seen dups docs l ls a evs ls' _ _ ih p h1 h2 hc he hs hd hdoc hdup
    have hsp := hc.2.1.spanOK hc.1
    have hle : p ≤ l.span.stop := Nat.le_trans hc.2.2.1 hsp.1
    exact ih l.span.stop h1 (Nat.le_trans h2 hle) hc.2.2.2.1 he hs hd (hdoc.weaken hle) hdup
  case odoc =>
    intro start entries seen dups docs sp text ls a evs ls' _ ih p h1 h2 hc he hs hd hdoc hdup
    have hsp := hc.2.1.spanOK hc.1
    have hle : p ≤ sp.stop := Nat.le_trans hc.2.2.1 hsp.1
    exact ih sp.stop h1 (Nat.le_trans h2 hle) hc.2.2.2.1 he hs hd ⟨hsp, Nat.le_refl _, hdoc.weaken hc.2.2.1⟩ hdup
  case oentry =>
    intro start entries seen dups docs l ls key rest evs ls' a evs' ls'' _ _ _ ih1 ih2 p h1 h2 hc he hs hd hdoc hdup
    obtain ⟨i1, i2, i3, i4, q, i5, i6⟩ := ih1 p (l :: ls) rfl hc
    obtain ⟨n1, n2⟩ := noteKey_ok i1.spanOK hs hd
    obtain ⟨v1, v2⟩ := entryValue_good i1 i2
    obtain ⟨j1, j2, j3, j4⟩ := ih2 q h1 (by omega) i6
      ⟨i1, v1, fun d hd => combineDocs_ok hdoc hd, v2, he⟩ n1 n2 trivial (by
        have := hdup.note key
        simpa [ObjEntry.key] using this)
    exact ⟨j1, i3.append j2, j3, j4⟩
  case seof =>
    intro start elems commas p h1 h2 hc he hd
    refine ⟨⟨h1, ?_, by simpa using hd⟩, evsOK_nil, rfl, p, h2, hc⟩
    rw [elemsGood_iff] at he ⊢; simpa using he
  case sclose =>
    intro start elems commas sp ls p h1 h2 hc he hd
    have hsp := hc.2.1.spanOK hc.1
    refine ⟨⟨⟨?_, h1.2.1, hsp.2.2⟩, ?_, by simpa using hd⟩, evsOK_nil, rfl, sp.stop, Nat.le_refl _, hc.2.2.2.1⟩
    · have := hc.2.2.1; have := h1.1; have := hsp.1; simp only [Lexeme.span] at *; omega
    · rw [elemsGood_iff] at he ⊢; simpa using he
  case sskip =>
    intro start elems commas l ls a evs ls' _ _ ih p h1 h2 hc he hd
    have hsp := hc.2.1.spanOK hc.1
    exact ih l.span.stop h1 (Nat.le_trans h2 (Nat.le_trans hc.2.2.1 hsp.1)) hc.2.2.2.1 he hd
  case scomma =>
    intro start elems commas sp ls a evs ls' _ ih p h1 h2 hc he hd
    have hsp := hc.2.1.spanOK hc.1
    refine ih sp.stop h1 (Nat.le_trans h2 (Nat.le_trans hc.2.2.1 hsp.1)) hc.2.2.2.1 he ?_
    intro d hd'
    rcases List.mem_cons.mp hd' with rfl | h
    · exact hsp
    · exact hd d h
  case selem =>
    intro start elems commas l ls e evs ls' a evs' ls'' _ _ _ ih1 ih2 p h1 h2 hc he hd
    obtain ⟨i1, i2, i3, i4, q, i5, i6⟩ := ih1 p (l :: ls) rfl hc
    have := i1.spanOK.1
    obtain ⟨j1, j2, j3, j4⟩ := ih2 q h1 (by omega) i6 ⟨i1, he⟩ hd
    exact ⟨j1, i2.append j2, j3, j4⟩
  case astop =>
    intro ls _ p hc
    exact ⟨trivial, evsOK_nil, p, Nat.le_refl _, hc, fun d hd hp => ⟨hd, Nat.le_refl _, hp⟩⟩
  case aattr =>
    intro sp ks key ls nxt ls' v evs ls'' attrs evs' ls''' hnx _ _ ih1 ih2 p hc
    obtain ⟨k1, k2, k3, k4, k5, k6⟩ : LexOK s (.attrKey sp ks key) := hc.2.1
    obtain ⟨i1, i2, i3, i4, q, i5, i6⟩ := ih1 _ _ hnx hc.2.2.2.1
    obtain ⟨j1, j2, q', j3, j4, j5⟩ := ih2 q i6
    have hv := i1.spanOK
    have hle : p ≤ q := by
      have := hc.2.2.1; have := k1.1; have := hv.1
      simp only [Lexeme.span] at *; omega
    refine ⟨⟨k2, i1, j1⟩, i2.append j2, q', by omega, j4, ?_⟩
    intro d hd hp
    obtain ⟨j6, j7, j8⟩ := j5 v.span.stop hv.2.2 i5
    rw [attrsEnd_cons]
    refine ⟨j6, ?_, j8⟩
    have := hc.2.2.1; have := k1.1; have := hv.1
    simp only [Lexeme.span] at *; omega
  case cmk =>
    intro l ls a evs ls' rest evs' ls'' _ _ ih1 ih2 p ls0 hn hc
    obtain ⟨i1, i2, i3, i4, q, i5, i6⟩ := ih1 p ls0 hn hc
    obtain ⟨j1, j2, q', j3, j4⟩ := ih2 q i6
    have := i1.spanOK.1
    exact ⟨i1, j1, i2.append j2, i3, q', by omega, j4⟩
  case rstop =>
    intro first only ls _ p hc
    exact ⟨trivial, evsOK_nil, p, Nat.le_refl _, hc⟩
  case rcomment =>
    intro first only sp text ls p hc
    have hsp := hc.2.1.spanOK hc.1
    refine ⟨trivial, ?_, sp.stop, Nat.le_trans hc.2.2.1 hsp.1, hc.2.2.2.1⟩
    intro e he
    simp only [List.mem_singleton] at he
    subst he
    exact ⟨hsp, rfl⟩
  case rdoc =>
    intro first only sp text ls p hc
    have hsp := hc.2.1.spanOK hc.1
    refine ⟨trivial, ?_, sp.stop, Nat.le_trans hc.2.2.1 hsp.1, hc.2.2.2.1⟩
    intro e he
    simp only [List.mem_singleton] at he
    subst he
    exact ⟨hsp, rfl⟩
  case rmore =>
    intro first only l ls a evs ls' rest evs' ls'' _ _ _ ih1 ih2 p hc
    obtain ⟨i1, i2, i3, i4, q, i5, i6⟩ := ih1 p (l :: ls) rfl hc
    obtain ⟨j1, j2, q', j3, j4⟩ := ih2 q i6
    have := i1.spanOK.1
    have hsp := hc.2.1.spanOK hc.1
    refine ⟨⟨i1, j1⟩, (EvsOK.append ?_ i2).append j2, q', by omega, j4⟩
    intro e he
    unfold missingSpace at he
    split at he <;> try split at he
    all_goals first
      | cases he; done
      | (simp only [List.mem_singleton] at he; subst he; exact ⟨hsp, rfl⟩)

end Styx
