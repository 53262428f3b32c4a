import Verif.Editor.Spec
import Verif.Editor.Within

/-!
# Histories of the editor's scanner
-/

namespace Styx.Editor

open Styx.Spec

/-- `b` is the saved form of the state `t`. -/
def Saves (b : List UInt8) (t : Scanner) : Prop :=
  (b = [] ∧ t = .create) ∨ (Same t t ∧ t.serialize = .ok b)

theorem Saves.same {b : List UInt8} {t : Scanner} (h : Saves b t) : Same t t := by
  rcases h with ⟨_, rfl⟩ | ⟨h, _⟩
  · exact ⟨rfl, rfl, rfl, by decide, rfl, rfl, rfl, rfl, by decide, rfl, nofun⟩
  · exact h

theorem Saves.restore {b : List UInt8} {t old : Scanner} (h : Saves b t) (ho : old.buf.length = 17) :
    ∃ u, old.deserialize b = .ok u ∧ Same t u := by
  rcases h with ⟨rfl, rfl⟩ | ⟨h, hs⟩
  · exact deserialize_nil ho
  · exact deserialize_serialize h ho hs

theorem serialize_same {s t : Scanner} (h : Same s t) : s.serialize = t.serialize := by
  rw [serialize_ok h.left, serialize_ok h.symm.left, h.inHeredoc, h.needsLang, h.delim, h.len, h.inRaw,
    h.hashes]

theorem serialize_length {s : Scanner} {b : List UInt8} (h : Same s s) (hs : s.serialize = .ok b) :
    b.length ≤ 21 := by
  rw [serialize_ok h] at hs
  injection hs with hs
  subst hs
  have := h.short
  simp [h.bufS]
  omega

/-- One call of the scanner, from the saved state. -/
theorem lex_spec {b : List UInt8} {t old : Scanner} (h : Saves b t) (ho : old.buf.length = 17)
    (v : Symbol → Bool) (text : List Char) :
    ∃ y s1 s2 l, scan v t (.at text) = .ok (y, s1, l) ∧ Same s1 s2 ∧ Within text l ∧
      ((y = none ∧ lexExternal old b v text = .ok (none, s2)) ∨
       ∃ sym bytes, y = some sym ∧ s1.serialize = .ok bytes ∧ bytes.length ≤ 21 ∧
        lexExternal old b v text = .ok (some (⟨sym, between text l.start, between l.start (l.mark.getD l.here)⟩,
          l.mark.getD l.here, bytes), s2)) := by
  obtain ⟨u, hu, hs⟩ := h.restore ho
  obtain ⟨y, s1, s2, l, h1, h2, h3⟩ := scan_same hs v (.at text)
  refine ⟨y, s1, s2, l, h1, h3, scan_within h.same.hint h1, ?_⟩
  cases y with
  | none =>
    refine .inl ⟨rfl, ?_⟩
    simp only [lexExternal, hu]
    show (scan v u (.at text) >>= _) = _
    rw [h2]; rfl
  | some sym =>
    have hb := serialize_ok h3.left
    refine .inr ⟨sym, _, rfl, hb, serialize_length h3.left hb, ?_⟩
    have hb2 := hb
    rw [serialize_same h3] at hb2
    simp only [lexExternal, hu]
    show (scan v u (.at text) >>= _) = _
    rw [h2]
    show (s2.serialize >>= _) = _
    rw [hb2]; rfl

theorem reached_inv {s : Scanner} {saved : List (List UInt8)} (h : Reached s saved) :
    Same s s ∧ ∀ b ∈ saved, ∃ t, Saves b t := by
  induction h with
  | create =>
    refine ⟨(Saves.same (b := []) (.inl ⟨rfl, rfl⟩)), ?_⟩
    intro b hb
    simp only [List.mem_singleton] at hb
    exact ⟨.create, .inl ⟨hb, rfl⟩⟩
  | @token s s' saved b b' v text rest p _ hb hl ih =>
    obtain ⟨hs, hk⟩ := ih
    obtain ⟨t, ht⟩ := hk b hb
    obtain ⟨y, s1, s2, l, h1, h2, _, h3⟩ := lex_spec ht hs.bufS v text
    rcases h3 with ⟨_, h3⟩ | ⟨sym, bytes, _, hser, _, h3⟩
    · rw [h3] at hl; simp at hl
    · rw [h3] at hl
      injection hl with hl
      injection hl with hl1 hl2
      subst hl2
      injection hl1 with hl1
      injection hl1 with _ hl1
      injection hl1 with _ hl1
      subst hl1
      refine ⟨h2.symm.left, ?_⟩
      intro c hc
      rcases List.mem_cons.1 hc with rfl | hc
      · exact ⟨s1, .inr ⟨h2.left, hser⟩⟩
      · exact hk c hc
  | @nothing s s' saved b v text _ hb hl ih =>
    obtain ⟨hs, hk⟩ := ih
    obtain ⟨t, ht⟩ := hk b hb
    obtain ⟨y, s1, s2, l, h1, h2, _, h3⟩ := lex_spec ht hs.bufS v text
    rcases h3 with ⟨_, h3⟩ | ⟨sym, bytes, _, hser, _, h3⟩
    · rw [h3] at hl
      injection hl with hl
      injection hl with hl1 hl2
      subst hl2
      exact ⟨h2.symm.left, hk⟩
    · rw [h3] at hl; simp at hl

end Styx.Editor
