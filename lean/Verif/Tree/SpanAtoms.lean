import Verif.Parse.EventInv

/-!
# The order of what the parser reads

`atomLaid`: inside an atom, keys and values stand one after the other in the source, within the span of the
atom.
-/

namespace Styx

open Spec

mutual
/-- What is in an atom stands in its span, in order. -/
def AtomLaid : Atom → Prop
  | .tag sp _ payload _ _ => PayloadLaid sp payload
  | .object sp entries _ _ unclosed => unclosed = false → EntriesLaid sp.start sp.stop entries
  | .sequence sp elems unclosed _ => unclosed = false → ElemsLaid sp.start sp.stop elems
  | .attributes sp attrs => AttrsLaid sp.start sp.stop attrs
  | _ => True
/-- The payload of a tag stands in the span of the tag. -/
def PayloadLaid (sp : Span) : Option Atom → Prop
  | none => True
  | some a => sp.start ≤ a.span.start ∧ a.span.stop = sp.stop ∧ AtomLaid a
/-- Entries in order between two bytes. -/
def EntriesLaid (lo hi : Nat) : List ObjEntry → Prop
  | [] => lo ≤ hi
  | .mk key value _ _ :: rest => lo ≤ key.span.start ∧
      ((value = .unit key.span ∧ EntriesLaid key.span.stop hi rest) ∨
        (key.span.stop ≤ value.span.start ∧ AtomLaid value ∧ EntriesLaid value.span.stop hi rest))
/-- Elements in order between two bytes. -/
def ElemsLaid (lo hi : Nat) : List Atom → Prop
  | [] => lo ≤ hi
  | a :: rest => lo ≤ a.span.start ∧ AtomLaid a ∧ ElemsLaid a.span.stop hi rest
/-- Attributes in order between two bytes. -/
def AttrsLaid (lo hi : Nat) : List AttrEntry → Prop
  | [] => lo ≤ hi
  | .mk _ ks v :: rest => lo ≤ ks.start ∧ ks.stop ≤ v.span.start ∧ AtomLaid v ∧ AttrsLaid v.span.stop hi rest
end

theorem EntriesLaid.weaken {lo lo' hi : Nat} {es : List ObjEntry} (h : EntriesLaid lo hi es) (hl : lo' ≤ lo) :
    EntriesLaid lo' hi es := by
  cases es with
  | nil => exact Nat.le_trans hl h
  | cons e es =>
    obtain ⟨k, v, d, t⟩ := e
    simp only [EntriesLaid] at h ⊢
    exact ⟨Nat.le_trans hl h.1, h.2⟩

theorem EntriesLaid.append {lo mid hi : Nat} {es es' : List ObjEntry} (h : EntriesLaid lo mid es)
    (h' : EntriesLaid mid hi es') : EntriesLaid lo hi (es ++ es') := by
  induction es generalizing lo with
  | nil => exact h'.weaken h
  | cons e es ih =>
    obtain ⟨k, v, d, t⟩ := e
    simp only [EntriesLaid, List.cons_append] at h ⊢
    refine ⟨h.1, ?_⟩
    rcases h.2 with ⟨h1, h2⟩ | ⟨h1, h2, h3⟩
    · exact .inl ⟨h1, ih h2⟩
    · exact .inr ⟨h1, h2, ih h3⟩

theorem ElemsLaid.weaken {lo lo' hi : Nat} {es : List Atom} (h : ElemsLaid lo hi es) (hl : lo' ≤ lo) :
    ElemsLaid lo' hi es := by
  cases es with
  | nil => exact Nat.le_trans hl h
  | cons e es =>
    simp only [ElemsLaid] at h ⊢
    exact ⟨Nat.le_trans hl h.1, h.2⟩

theorem ElemsLaid.append {lo mid hi : Nat} {es es' : List Atom} (h : ElemsLaid lo mid es)
    (h' : ElemsLaid mid hi es') : ElemsLaid lo hi (es ++ es') := by
  induction es generalizing lo with
  | nil => exact h'.weaken h
  | cons e es ih =>
    simp only [ElemsLaid, List.cons_append] at h ⊢
    exact ⟨h.1, h.2.1, ih h.2.2⟩

theorem ElemsLaid.extend {lo hi hi' : Nat} {es : List Atom} (h : ElemsLaid lo hi es) (hh : hi ≤ hi') :
    ElemsLaid lo hi' es := by
  have := h.append (es' := []) (hi := hi') hh
  simpa using this

theorem EntriesLaid.extend {lo hi hi' : Nat} {es : List ObjEntry} (h : EntriesLaid lo hi es) (hh : hi ≤ hi') :
    EntriesLaid lo hi' es := by
  have := h.append (es' := []) (hi := hi') hh
  simpa using this

theorem entryValue_laid {key : Atom} {rest : List Atom} {lo hi : Nat} (h : lo ≤ key.span.start)
    (hr : ElemsLaid key.span.stop hi rest) (hg : ∀ a ∈ rest, a.span.start ≤ a.span.stop)
    (d : Option (Span × List (List Char))) :
    EntriesLaid lo hi [.mk key (entryValue key rest).1 d (entryValue key rest).2] := by
  have hup : ∀ {rest : List Atom} {lo : Nat}, ElemsLaid lo hi rest →
      (∀ a ∈ rest, a.span.start ≤ a.span.stop) → lo ≤ hi := by
    intro rest
    induction rest with
    | nil => intro lo h _; exact h
    | cons a r ih =>
      intro lo h hg
      have := ih h.2.2 (fun x hx => hg x (by simp [hx]))
      have := hg a (by simp)
      have := h.1
      omega
  simp only [EntriesLaid]
  refine ⟨h, ?_⟩
  match rest, hr, hg with
  | [], hr, hg => exact .inl ⟨rfl, hr⟩
  | [v], hr, hg => exact .inr ⟨hr.1, hr.2.1, hr.2.2⟩
  | v :: x :: r, hr, hg => exact .inr ⟨hr.1, hr.2.1, hup hr.2.2 (fun y hy => hg y (List.mem_cons_of_mem _ hy))⟩

/-- The atom of a (chained) tag. -/
theorem buildTagChain_laid {segs : List (List Char)} (hne : segs ≠ []) (n : Nat) (trailing : Option Atom)
    (hg : ∀ a, trailing = some a → AtomLaid a ∧ n ≤ a.span.start ∧
      (chainSpans n segs).all (fun x => decide (x.2.start ≤ a.span.start)) = true) :
    AtomLaid (buildTagChain (chainSpans n segs) trailing) ∧
    (buildTagChain (chainSpans n segs) trailing).span.start = n := by
  induction segs generalizing n with
  | nil => exact absurd rfl hne
  | cons seg segs ih =>
    cases segs with
    | nil =>
      cases trailing with
      | none => exact ⟨trivial, rfl⟩
      | some a =>
        obtain ⟨g1, g2, g3⟩ := hg a rfl
        exact ⟨⟨g2, rfl, g1⟩, rfl⟩
    | cons seg2 segs2 =>
      obtain ⟨i1, i2⟩ := ih (by simp) (n + 1 + utf8Len seg + 1) (by
        rintro a rfl
        obtain ⟨g1, g2, g3⟩ := hg a rfl
        simp only [chainSpans, List.all_cons, Bool.and_eq_true, decide_eq_true_eq] at g3 ⊢
        exact ⟨g1, g3.2.1, g3.2⟩)
      refine ⟨⟨?_, rfl, i1⟩, rfl⟩
      have : (buildTagChain (chainSpans (n + 1 + utf8Len seg + 1) (seg2 :: segs2)) trailing).span.start =
        n + 1 + utf8Len seg + 1 := i2
      show n ≤ (buildTagChain (chainSpans (n + 1 + utf8Len seg + 1) (seg2 :: segs2)) trailing).span.start
      omega

/-- The segments of a chained tag start before the end of the tag. -/
theorem chainSpans_le (segs : List (List Char)) (n m : Nat) (h : n + 1 + utf8Len (joinSlashAt segs) ≤ m) :
    (chainSpans n segs).all (fun x => decide (x.2.start ≤ m)) = true := by
  induction segs generalizing n with
  | nil => rfl
  | cons seg segs ih =>
    cases segs with
    | nil =>
      simp only [chainSpans, List.all_cons, List.all_nil, Bool.and_true, decide_eq_true_eq]
      omega
    | cons seg2 segs2 =>
      simp only [joinSlashAt, utf8Len_append, utf8Len_cons, utf8_at, utf8_slash] at h
      have := ih (n + 1 + utf8Len seg + 1) (by omega)
      rw [chainSpans, List.all_cons, this]
      simp only [Bool.and_true, decide_eq_true_eq]
      omega

theorem atomLaid {s : List Char} {l : Lexeme} {ls : List Lexeme} {a : Atom} {evs : List Event}
    {ls' : List Lexeme} (h : AtomR s l ls a evs ls') :
    ∀ p ls0, nextLex ls0 = (l, ls) → Chain s p ls0 → AtomLaid a := by
  refine AtomR.rec
    (motive_1 := fun l ls a evs ls' _ => ∀ p ls0, nextLex ls0 = (l, ls) → Chain s p ls0 → AtomLaid a)
    (motive_2 := fun start entries seen dups docs ls a evs ls' _ => ∀ p,
      Chain s p ls → EntriesLaid start.start p entries.reverse → AtomLaid a)
    (motive_3 := fun start elems commas ls a evs ls' _ => ∀ p,
      Chain s p ls → ElemsLaid start.start p elems.reverse → AtomLaid a)
    (motive_4 := fun ls attrs evs ls' _ => ∀ p, Chain s p ls → ∀ d, d ≤ p → AttrsLaid d (attrsEnd d attrs) attrs)
    (motive_5 := fun l ls key rest evs ls' _ => ∀ p ls0, nextLex ls0 = (l, ls) → Chain s p ls0 →
      p ≤ key.span.start ∧ ∃ q, ElemsLaid key.span.stop q rest ∧ (∀ a ∈ rest, a.span.start ≤ a.span.stop) ∧
        Chain s q ls')
    (motive_6 := fun first only ls rest evs ls' _ => ∀ p, Chain s p ls →
      ∃ q, ElemsLaid p q rest ∧ (∀ a ∈ rest, a.span.start ≤ a.span.stop) ∧ Chain s q ls')
    ?leaf ?unit ?unitBare ?tag ?tagPayload ?tagDot ?object ?sequence ?attrs
    ?oeof ?oclose ?oskip ?odoc ?oentry ?seof ?sclose ?sskip ?scomma ?selem ?astop ?aattr ?cmk
    ?rstop ?rcomment ?rdoc ?rmore h
  case leaf =>
    intro l ls a hl p ls0 hn hc
    cases l <;> simp only [leafAtom, reduceCtorEq, Option.some.injEq] at hl
    case error =>
      split at hl
      · split at hl <;> (cases hl; trivial)
      · cases hl; trivial
    all_goals (subst hl; trivial)
  case unit => intros; trivial
  case unitBare =>
    intro sp sp' v ls hadj p ls0 hn hc
    rcases chain_nextLex hn hc with ⟨h, _⟩ | ⟨_, rfl⟩
    · cases h
    · have h1 : HasText s sp ['@'] := hc.2.1
      have := h1.spanOK.1
      refine ⟨?_, rfl, trivial⟩
      simp only [Atom.span]; omega
  case tag =>
    intro sp name hp ls _ p ls0 hn hc
    exact (buildTagChain_laid (splitSlashAt_ne name) sp.start none (by simp)).1
  case tagPayload =>
    intro sp name hp ls nxt ls' p evs ls'' hnx hcond hcp ih q ls0 hn hc
    rcases chain_nextLex hn hc with ⟨h, _⟩ | ⟨_, rfl⟩
    · cases h
    · have h1 : HasText s sp ('@' :: name) := hc.2.1
      have i1 := ih _ _ hnx hc.2.2.2.1
      obtain ⟨_, _, i3, _⟩ := atomGood hcp _ _ hnx hc.2.2.2.1
      simp only [Lexeme.span] at i3
      have hlen := h1.len
      have := h1.spanOK.1
      refine (buildTagChain_laid (splitSlashAt_ne name) sp.start (some p) ?_).1
      rintro a ⟨⟩
      refine ⟨i1, by omega, chainSpans_le _ _ _ ?_⟩
      rw [join_split]
      simp only [utf8Len_cons, utf8_at] at hlen
      omega
  case tagDot => intros; trivial
  case object =>
    intro sp ls a evs ls' _ ih p ls0 hn hc
    rcases chain_nextLex hn hc with ⟨h, _⟩ | ⟨_, rfl⟩
    · cases h
    · exact ih sp.stop hc.2.2.2.1 (hc.2.1.spanOK hc.1).1
  case sequence =>
    intro sp ls a evs ls' _ ih p ls0 hn hc
    rcases chain_nextLex hn hc with ⟨h, _⟩ | ⟨_, rfl⟩
    · cases h
    · exact ih sp.stop hc.2.2.2.1 (hc.2.1.spanOK hc.1).1
  case attrs =>
    intro sp ks key ls nxt ls' v evs ls'' attrs evs' ls''' hnx ha _ ih1 ih2 p ls0 hn hc
    rcases chain_nextLex hn hc with ⟨h, _⟩ | ⟨_, rfl⟩
    · cases h
    · obtain ⟨k1, k2, k3, k4, k5, k6⟩ : LexOK s (.attrKey sp ks key) := hc.2.1
      obtain ⟨_, _, i3, _, q, i5, i6⟩ := atomGood ha _ _ hnx hc.2.2.2.1
      simp only [Lexeme.span] at i3
      simp only [AtomLaid, AttrsLaid]
      refine ⟨Nat.le_refl _, by omega, ih1 _ _ hnx hc.2.2.2.1, ?_⟩
      rw [attrsEnd_cons]
      exact ih2 q i6 _ i5
  case oeof => intro start entries seen dups docs p hc he; simp [AtomLaid]
  case oclose =>
    intro start entries seen dups docs sp ls p hc he _
    have hsp := hc.2.1.spanOK hc.1
    exact he.extend (Nat.le_trans hc.2.2.1 hsp.1)
  case oskip =>
    intro start entries seen dups docs l ls a evs ls' _ _ ih p hc he
    have hsp := hc.2.1.spanOK hc.1
    exact ih l.span.stop hc.2.2.2.1 (he.extend (Nat.le_trans hc.2.2.1 hsp.1))
  case odoc =>
    intro start entries seen dups docs sp text ls a evs ls' _ ih p hc he
    have hsp := hc.2.1.spanOK hc.1
    exact ih sp.stop hc.2.2.2.1 (he.extend (Nat.le_trans hc.2.2.1 hsp.1))
  case oentry =>
    intro start entries seen dups docs l ls key rest evs ls' a evs' ls'' _ _ _ ih1 ih2 p hc he
    obtain ⟨i1, q, i2, i3, i4⟩ := ih1 p (l :: ls) rfl hc
    refine ih2 q i4 ?_
    rw [List.reverse_cons]
    exact he.append (entryValue_laid i1 i2 i3 _)
  case seof => intro start elems commas p hc he; simp [AtomLaid]
  case sclose =>
    intro start elems commas sp ls p hc he _
    have hsp := hc.2.1.spanOK hc.1
    exact he.extend (Nat.le_trans hc.2.2.1 hsp.1)
  case sskip =>
    intro start elems commas l ls a evs ls' _ _ ih p hc he
    have hsp := hc.2.1.spanOK hc.1
    exact ih l.span.stop hc.2.2.2.1 (he.extend (Nat.le_trans hc.2.2.1 hsp.1))
  case scomma =>
    intro start elems commas sp ls a evs ls' _ ih p hc he
    have hsp := hc.2.1.spanOK hc.1
    exact ih sp.stop hc.2.2.2.1 (he.extend (Nat.le_trans hc.2.2.1 hsp.1))
  case selem =>
    intro start elems commas l ls e evs ls' a evs' ls'' _ ha _ ih1 ih2 p hc he
    obtain ⟨i1, _, i3, _, q, i5, i6⟩ := atomGood ha p (l :: ls) rfl hc
    refine ih2 q i6 ?_
    rw [List.reverse_cons]
    exact he.append ⟨i3, ih1 p (l :: ls) rfl hc, i5⟩
  case astop => intro ls _ p hc d hd; exact Nat.le_refl _
  case aattr =>
    intro sp ks key ls nxt ls' v evs ls'' attrs evs' ls''' hnx ha _ ih1 ih2 p hc d hd
    obtain ⟨k1, k2, k3, k4, k5, k6⟩ : LexOK s (.attrKey sp ks key) := hc.2.1
    obtain ⟨_, _, i3, _, q, i5, i6⟩ := atomGood ha _ _ hnx hc.2.2.2.1
    have hps := hc.2.2.1
    simp only [Lexeme.span] at i3 hps
    simp only [AttrsLaid]
    refine ⟨by omega, by omega, ih1 _ _ hnx hc.2.2.2.1, ?_⟩
    rw [attrsEnd_cons]
    exact ih2 q i6 _ i5
  case cmk =>
    intro l ls a evs ls' rest evs' ls'' ha _ ih1 ih2 p ls0 hn hc
    obtain ⟨i1, _, i3, _, q, i5, i6⟩ := atomGood ha p ls0 hn hc
    obtain ⟨q', j1, j2, j3⟩ := ih2 q i6
    exact ⟨i3, q', j1.weaken i5, j2, j3⟩
  case rstop => intro first only ls _ p hc; exact ⟨p, Nat.le_refl _, by simp, hc⟩
  case rcomment =>
    intro first only sp text ls p hc
    have hsp := hc.2.1.spanOK hc.1
    exact ⟨sp.stop, Nat.le_trans hc.2.2.1 hsp.1, by simp, hc.2.2.2.1⟩
  case rdoc =>
    intro first only sp text ls p hc
    have hsp := hc.2.1.spanOK hc.1
    exact ⟨sp.stop, Nat.le_trans hc.2.2.1 hsp.1, by simp, hc.2.2.2.1⟩
  case rmore =>
    intro first only l ls a evs ls' rest evs' ls'' _ ha _ ih1 ih2 p hc
    obtain ⟨i1, _, i3, _, q, i5, i6⟩ := atomGood ha p (l :: ls) rfl hc
    obtain ⟨q', j1, j2, j3⟩ := ih2 q i6
    refine ⟨q', ⟨i3, ih1 p (l :: ls) rfl hc, j1.weaken i5⟩, ?_, j3⟩
    intro x hx
    rcases List.mem_cons.1 hx with rfl | hx
    · exact i1.spanOK.1
    · exact j2 x hx

theorem restLaid {s : List Char} {first : Atom} {only : Bool} {ls : List Lexeme} {rest : List Atom}
    {evs : List Event} {ls' : List Lexeme} (h : RestR s first only ls rest evs ls') :
    ∀ {p : Nat}, Chain s p ls → ∃ q, ElemsLaid p q rest ∧ Chain s q ls' := by
  refine RestR.rec
    (motive_1 := fun _ _ _ _ _ _ => True) (motive_2 := fun _ _ _ _ _ _ _ _ _ _ => True)
    (motive_3 := fun _ _ _ _ _ _ _ _ => True) (motive_4 := fun _ _ _ _ _ => True)
    (motive_5 := fun _ _ _ _ _ _ _ => True)
    (motive_6 := fun first only ls rest evs ls' _ => ∀ {p : Nat}, Chain s p ls →
      ∃ q, ElemsLaid p q rest ∧ Chain s q ls')
    ?leaf ?unit ?unitBare ?tag ?tagPayload ?tagDot ?object ?sequence ?attrs
    ?oeof ?oclose ?oskip ?odoc ?oentry ?seof ?sclose ?sskip ?scomma ?selem ?astop ?aattr ?cmk
    ?rstop ?rcomment ?rdoc ?rmore h
  case rstop => intro first only ls _ p hc; exact ⟨p, Nat.le_refl _, hc⟩
  case rcomment =>
    intro first only sp text ls p hc
    have hsp := hc.2.1.spanOK hc.1
    exact ⟨sp.stop, Nat.le_trans hc.2.2.1 hsp.1, hc.2.2.2.1⟩
  case rdoc =>
    intro first only sp text ls p hc
    have hsp := hc.2.1.spanOK hc.1
    exact ⟨sp.stop, Nat.le_trans hc.2.2.1 hsp.1, hc.2.2.2.1⟩
  case rmore =>
    intro first only l ls a evs ls' rest evs' ls'' _ ha _ _ ih2 p hc
    obtain ⟨i1, _, i3, _, q, i5, i6⟩ := atomGood ha p (l :: ls) rfl hc
    obtain ⟨q', j1, j3⟩ := ih2 i6
    exact ⟨q', ⟨i3, atomLaid ha p (l :: ls) rfl hc, j1.weaken i5⟩, j3⟩
  all_goals (intros; trivial)

theorem collectLaid {s : List Char} {l : Lexeme} {ls : List Lexeme} {key : Atom} {rest : List Atom}
    {evs : List Event} {ls' : List Lexeme} (h : CollectR s l ls key rest evs ls') {p : Nat}
    (hc : Chain s p (l :: ls)) :
    p ≤ key.span.start ∧ ∃ q, ElemsLaid key.span.stop q rest ∧ Chain s q ls' := by
  cases h with
  | mk h1 h2 =>
    obtain ⟨g1, _, g2, _, q, g4, g3⟩ := atomGood h1 p _ rfl hc
    obtain ⟨q', r1, r2⟩ := restLaid h2 g3
    exact ⟨g2, q', r1.weaken g4, r2⟩

end Styx
