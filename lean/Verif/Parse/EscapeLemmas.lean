import Verif.Parse.Escapes
import Verif.Parse.EscapeSpec
import Verif.Format.Scalar
import Verif.Tokenizer.Kinds

/-! # Lemmas about the escape functions -/

namespace Styx

open Spec

theorem toNat_ofNat_small {n : Nat} (h : n < 0xd800) : (Char.ofNat n).toNat = n := by
  have hv : n.isValidChar := Or.inl h
  simp only [Char.ofNat, hv, dif_pos]
  simp [Char.ofNatAux, Char.toNat]

theorem char_ext_toNat {c d : Char} (h : c.toNat = d.toNat) : c = d := by
  rw [← Char.ofNat_toNat c, ← Char.ofNat_toNat d, h]

theorem char_le_iff (c d : Char) : c ≤ d ↔ c.toNat ≤ d.toNat := Iff.rfl

theorem isDigit_iff (c : Char) : c.isDigit = true ↔ 48 ≤ c.toNat ∧ c.toNat ≤ 57 := by
  unfold Char.isDigit
  simp only [Bool.and_eq_true, decide_eq_true_eq]
  rw [ge_iff_le, UInt32.le_iff_toNat_le, UInt32.le_iff_toNat_le]
  exact Iff.rfl

theorem isHexDigit_cases (c : Char) : isHexDigit c = true ↔
    (48 ≤ c.toNat ∧ c.toNat ≤ 57) ∨ (97 ≤ c.toNat ∧ c.toNat ≤ 102) ∨
      (65 ≤ c.toNat ∧ c.toNat ≤ 70) := by
  unfold isHexDigit
  simp only [Bool.or_eq_true, Bool.and_eq_true, decide_eq_true_eq, char_le_iff, isDigit_iff, or_assoc]
  exact Iff.rfl

theorem hexDigit_iff {c : Char} {d : Nat} : HexDigit c d ↔ isHexDigit c = true ∧ d = hexVal c := by
  have e0 : '0'.toNat = 48 := rfl
  have ea : 'a'.toNat = 97 := rfl
  have eA : 'A'.toNat = 65 := rfl
  have ef : 'f'.toNat = 102 := rfl
  unfold HexDigit hexVal
  rw [isHexDigit_cases]
  simp only [isDigit_iff, Bool.and_eq_true, decide_eq_true_eq, char_le_iff, e0, ea, eA, ef]
  constructor
  · rintro (⟨k, hk, rfl, rfl⟩ | ⟨k, hk, rfl, rfl⟩ | ⟨k, hk, rfl, rfl⟩)
    · rw [toNat_ofNat_small (by omega)]
      refine ⟨by omega, ?_⟩
      rw [if_pos (by omega)]; omega
    · rw [toNat_ofNat_small (by omega)]
      refine ⟨by omega, ?_⟩
      rw [if_neg (by omega), if_pos (by omega)]; omega
    · rw [toNat_ofNat_small (by omega)]
      refine ⟨by omega, ?_⟩
      rw [if_neg (by omega), if_neg (by omega)]; omega
  · rintro ⟨h | h | h, rfl⟩
    · refine Or.inl ⟨c.toNat - 48, by omega, char_ext_toNat ?_, ?_⟩
      · rw [toNat_ofNat_small (by omega)]; omega
      · rw [if_pos (by omega)]
    · refine Or.inr (Or.inl ⟨c.toNat - 97, by omega, char_ext_toNat ?_, ?_⟩)
      · rw [toNat_ofNat_small (by omega)]; omega
      · rw [if_neg (by omega), if_pos (by omega)]; omega
    · refine Or.inr (Or.inr ⟨c.toNat - 65, by omega, char_ext_toNat ?_, ?_⟩)
      · rw [toNat_ofNat_small (by omega)]; omega
      · rw [if_neg (by omega), if_neg (by omega)]; omega

theorem hexNat_snoc (s : List Char) (c : Char) : hexNat (s ++ [c]) = 16 * hexNat s + hexVal c := by
  simp [hexNat]

theorem hexNumber_iff {s : List Char} {n : Nat} :
    HexNumber s n ↔ s.all isHexDigit = true ∧ n = hexNat s := by
  constructor
  · intro h
    induction h with
    | nil => exact ⟨rfl, rfl⟩
    | snoc _ hd ih =>
      obtain ⟨h1, rfl⟩ := hexDigit_iff.mp hd
      obtain ⟨h2, rfl⟩ := ih
      rw [hexNat_snoc]
      simp_all
  · rintro ⟨h, rfl⟩
    generalize hl : s.length = l
    induction l generalizing s with
    | zero => rw [List.length_eq_zero_iff] at hl; subst hl; exact .nil
    | succ l ih =>
      have hne : s ≠ [] := by rintro rfl; simp at hl
      have hs := List.dropLast_concat_getLast hne
      rw [← hs] at h ⊢
      rw [hexNat_snoc]
      simp only [List.all_append, List.all_cons, List.all_nil, Bool.and_true, Bool.and_eq_true] at h
      exact .snoc (ih h.1 (by simp [hl])) (hexDigit_iff.mpr ⟨h.2, rfl⟩)

theorem charFromU32_some {n : Nat} {c : Char} : charFromU32 n = some c ↔ c.toNat = n := by
  unfold charFromU32
  split
  · rename_i h
    simp only [Option.some.injEq]
    have : (Char.ofNatAux n h).toNat = n := by simp [Char.ofNatAux, Char.toNat]
    constructor
    · rintro rfl; exact this
    · intro hc; exact char_ext_toNat (by rw [this, hc])
  · rename_i h
    simp only [reduceCtorEq, false_iff]
    rintro rfl
    exact h c.valid

theorem parseHexU32_hex {s : List Char} (h : s.all isHexDigit = true) :
    parseHexU32 s = if s = [] then none else if hexNat s < 2 ^ 32 then some (hexNat s) else none := by
  unfold parseHexU32
  split
  · exfalso
    simp only [List.all_cons, Bool.and_eq_true] at h
    exact absurd h.1 (by decide)
  · simp only [h, if_true]

theorem toNat_lt_u32 (c : Char) : c.toNat < 2 ^ 32 := by
  have := c.val.toNat_lt; exact this

theorem decodeHex_ok {h : List Char} (hh : h.all isHexDigit = true) (c : Char) :
    decodeHex h = .ok c ↔ h ≠ [] ∧ c.toNat = hexNat h := by
  unfold decodeHex
  rw [parseHexU32_hex hh]
  have := toNat_lt_u32 c
  by_cases h1 : h = []
  · simp [h1]
  · by_cases h2 : hexNat h < 2 ^ 32
    · simp only [h1, h2, if_true, if_false, ne_eq, not_false_eq_true, true_and]
      cases h3 : charFromU32 (hexNat h) with
      | none =>
        simp only [reduceCtorEq, false_iff]
        intro hc
        rw [charFromU32_some.mpr hc] at h3
        cases h3
      | some d =>
        simp only [Except.ok.injEq]
        rw [← charFromU32_some, h3, Option.some.injEq]
    · simp only [h1, h2, if_false, reduceCtorEq, ne_eq, not_false_eq_true, true_and, false_iff]
      omega


/-! ## `process_escapes` is the declarative decoding -/

theorem peAux_braced {hex h rest : List Char} (hh : h.all isHexDigit = true) :
    processEscapesAux (.braced hex) (h ++ '}' :: rest) =
      (do let ch ← decodeHex (hex.reverse ++ h)
          let r ← processEscapesAux .normal rest
          .ok (ch :: r)) := by
  induction h generalizing hex with
  | nil => simp [processEscapesAux]
  | cons c cs ih =>
    simp only [List.all_cons, Bool.and_eq_true] at hh
    have hc : c ≠ '}' := by rintro rfl; exact absurd hh.1 (by decide)
    rw [List.cons_append, processEscapesAux, if_neg hc, if_pos hh.1, ih hh.2]
    simp

theorem peAux_braced_inv {hex s v : List Char} (h : processEscapesAux (.braced hex) s = .ok v) :
    ∃ ds rest, s = ds ++ '}' :: rest ∧ ds.all isHexDigit = true := by
  induction s generalizing hex with
  | nil => simp [processEscapesAux] at h
  | cons c cs ih =>
    rw [processEscapesAux] at h
    by_cases hc : c = '}'
    · exact ⟨[], cs, by simp [hc], rfl⟩
    · by_cases hx : isHexDigit c = true
      · rw [if_neg hc, if_pos hx] at h
        obtain ⟨ds, rest, rfl, hds⟩ := ih h
        exact ⟨c :: ds, rest, by simp, by simp [hx, hds]⟩
      · rw [if_neg hc, if_neg hx] at h; cases h

theorem except_bind_ok {α β : Type} {x : Except Msg α} {f : α → Except Msg β} {b : β} :
    (x >>= f) = .ok b ↔ ∃ a, x = .ok a ∧ f a = .ok b := by
  cases x <;> simp [bind, Except.bind]

theorem peAux_four {a b c d : Char} {rest : List Char} (hh : [a, b, c, d].all isHexDigit = true) :
    processEscapesAux .afterU (a :: b :: c :: d :: rest) =
      (do let ch ← decodeHex [a, b, c, d]
          let r ← processEscapesAux .normal rest
          .ok (ch :: r)) := by
  simp only [List.all_cons, List.all_nil, Bool.and_true, Bool.and_eq_true] at hh
  obtain ⟨h1, h2, h3, h4⟩ := hh
  have ha : a ≠ '{' := by rintro rfl; exact absurd h1 (by decide)
  simp [processEscapesAux, ha, h1, h2, h3, h4]

theorem processEscapes_complete {raw v : List Char} (h : Escaped raw v) :
    processEscapes raw = .ok v := by
  unfold processEscapes
  induction h with
  | nil => rfl
  | plain hc _ ih => simp [processEscapesAux, hc, ih, bind, Except.bind]
  | simple he _ ih =>
    simp only [List.mem_cons, Prod.mk.injEq, List.not_mem_nil, or_false] at he
    rcases he with ⟨rfl, rfl⟩ | ⟨rfl, rfl⟩ | ⟨rfl, rfl⟩ | ⟨rfl, rfl⟩ | ⟨rfl, rfl⟩ <;>
      simp [processEscapesAux, ih, bind, Except.bind]
  | @four h c raw v hl hn _ ih =>
    obtain ⟨h1, h2⟩ := hexNumber_iff.mp hn
    match h, hl with
    | [a, b, c', d], _ =>
      have := peAux_four (rest := raw) h1
      have hd : decodeHex [a, b, c', d] = .ok c := (decodeHex_ok h1 c).mpr ⟨by simp, h2⟩
      simp only [List.cons_append, List.nil_append]
      rw [processEscapesAux, if_pos rfl, processEscapesAux]
      simp [this, hd, ih, bind, Except.bind]
  | @braced h c raw v hne hn _ ih =>
    obtain ⟨h1, h2⟩ := hexNumber_iff.mp hn
    have := peAux_braced (hex := []) (rest := raw) h1
    have hd : decodeHex h = .ok c := (decodeHex_ok h1 c).mpr ⟨hne, h2⟩
    simp only [List.cons_append]
    rw [processEscapesAux, if_pos rfl, processEscapesAux]
    simp [processEscapesAux, this, hd, ih, bind, Except.bind]

theorem processEscapes_sound {raw v : List Char} (h : processEscapes raw = .ok v) :
    Escaped raw v := by
  unfold processEscapes at h
  generalize hl : raw.length = l
  induction l using Nat.strongRecOn generalizing raw v with
  | ind l ih =>
  match raw with
  | [] => simp [processEscapesAux] at h; subst h; exact .nil
  | c :: cs =>
    rw [processEscapesAux] at h
    by_cases hc : c = '\\'
    · rw [if_pos hc] at h
      subst hc
      match cs with
      | [] => simp [processEscapesAux] at h
      | e :: cs =>
        have simp1 : ∀ d, (e, d) ∈ [('\\', '\\'), ('"', '"'), ('n', '\n'), ('r', '\r'), ('t', '\t')] →
            (do let r ← processEscapesAux .normal cs; Except.ok (d :: r)) = Except.ok v →
            Escaped ('\\' :: e :: cs) v := by
          intro d hd h
          obtain ⟨r, hr, h⟩ := except_bind_ok.mp h
          cases h
          exact .simple hd (ih cs.length (by simp at hl; omega) hr rfl)
        rw [processEscapesAux] at h
        split at h
        · rename_i he; subst he; exact simp1 _ (by simp) h
        split at h
        · rename_i he; subst he; exact simp1 _ (by simp) h
        split at h
        · rename_i he; subst he; exact simp1 _ (by simp) h
        split at h
        · rename_i he; subst he; exact simp1 _ (by simp) h
        split at h
        · rename_i he; subst he; exact simp1 _ (by simp) h
        split at h
        · rename_i he
          subst he
          match cs with
          | [] => simp [processEscapesAux] at h
          | x :: xs =>
            rw [processEscapesAux] at h
            split at h
            · rename_i hx
              subst hx
              obtain ⟨ds, rest, rfl, hds⟩ := peAux_braced_inv h
              rw [peAux_braced hds] at h
              obtain ⟨ch, hch, h⟩ := except_bind_ok.mp h
              obtain ⟨r, hr, h⟩ := except_bind_ok.mp h
              cases h
              obtain ⟨h1, h2⟩ := (decodeHex_ok (by simpa using hds) ch).mp hch
              refine .braced h1 (hexNumber_iff.mpr ⟨hds, by simpa using h2⟩) (ih rest.length ?_ hr rfl)
              simp at hl; omega
            · split at h
              · rename_i hx1 hx
                match xs with
                | [] => simp [processEscapesAux] at h
                | [y] => simp [processEscapesAux] at h
                | [y, z] => simp [processEscapesAux] at h
                | y :: z :: w :: rest =>
                  have hall : [x, y, z, w].all isHexDigit = true := by
                    by_cases hy : isHexDigit y = true
                    · by_cases hz : isHexDigit z = true
                      · by_cases hw : isHexDigit w = true
                        · simp [hx, hy, hz, hw]
                        · simp [processEscapesAux, hy, hz, hw] at h
                      · simp [processEscapesAux, hy, hz] at h
                    · simp [processEscapesAux, hy] at h
                  have h4 := peAux_four (rest := rest) hall
                  rw [processEscapesAux, if_neg hx1, if_pos hx] at h4
                  rw [h4] at h
                  obtain ⟨ch, hch, h⟩ := except_bind_ok.mp h
                  obtain ⟨r, hr, h⟩ := except_bind_ok.mp h
                  cases h
                  obtain ⟨h1, h2⟩ := (decodeHex_ok hall ch).mp hch
                  exact .four (h := [x, y, z, w]) rfl (hexNumber_iff.mpr ⟨hall, h2⟩)
                    (ih rest.length (by simp at hl; omega) hr rfl)
              · cases h
        · cases h
    · rw [if_neg hc] at h
      obtain ⟨r, hr, h⟩ := except_bind_ok.mp h
      cases h
      exact .plain hc (ih cs.length (by simp at hl; omega) hr rfl)

theorem processEscapes_iff {raw v : List Char} : processEscapes raw = .ok v ↔ Escaped raw v :=
  ⟨processEscapes_sound, processEscapes_complete⟩

/-! ## `validate_escapes` accepts exactly the lenient texts -/

theorem vAux_braced {st i : Nat} {seen h rest : List Char} (hh : h.all isHexDigit = true) :
    ∃ j, validateEscapesAux (.braced st seen true) i (h ++ '}' :: rest) =
      validateEscapesAux .normal j rest := by
  induction h generalizing seen i with
  | nil => exact ⟨_, by simp [validateEscapesAux]; rfl⟩
  | cons c cs ih =>
    simp only [List.all_cons, Bool.and_eq_true] at hh
    have hc : c ≠ '}' := by rintro rfl; exact absurd hh.1 (by decide)
    rw [List.cons_append, validateEscapesAux, if_neg hc, hh.1]
    exact ih hh.2

theorem vAux_braced_false {st i : Nat} {seen s : List Char} :
    validateEscapesAux (.braced st seen false) i s ≠ [] := by
  induction s generalizing seen i with
  | nil => simp [validateEscapesAux]
  | cons c cs ih =>
    rw [validateEscapesAux]
    split
    · simp
    · rw [Bool.false_and]; exact ih

theorem vAux_braced_inv {st i : Nat} {seen s : List Char}
    (h : validateEscapesAux (.braced st seen true) i s = []) :
    ∃ ds rest, s = ds ++ '}' :: rest ∧ ds.all isHexDigit = true := by
  induction s generalizing seen i with
  | nil => simp [validateEscapesAux] at h
  | cons c cs ih =>
    rw [validateEscapesAux] at h
    by_cases hc : c = '}'
    · exact ⟨[], cs, by simp [hc], rfl⟩
    · rw [if_neg hc] at h
      cases hx : isHexDigit c with
      | true =>
        rw [hx] at h
        obtain ⟨ds, rest, rfl, hds⟩ := ih h
        exact ⟨c :: ds, rest, by simp, by simp [hx, hds]⟩
      | false => rw [hx] at h; exact absurd h vAux_braced_false

/-- With all digits read the fourth mode continues as the normal mode. -/
theorem vAux_four_done {st i : Nat} {seen s : List Char} :
    validateEscapesAux (.four st seen 4) i s = validateEscapesAux .normal i s := by
  cases s with
  | nil => simp [validateEscapesAux]
  | cons c cs => simp [validateEscapesAux]

theorem vAux_three {st i : Nat} {a b c : Char} {rest : List Char}
    (hh : [a, b, c].all isHexDigit = true) :
    ∃ j, validateEscapesAux (.afterU st) i (a :: b :: c :: rest) =
      validateEscapesAux .normal j rest := by
  simp only [List.all_cons, List.all_nil, Bool.and_true, Bool.and_eq_true] at hh
  obtain ⟨h1, h2, h3⟩ := hh
  have ha : a ≠ '{' := by rintro rfl; exact absurd h1 (by decide)
  refine ⟨i + a.utf8Size + b.utf8Size + c.utf8Size, ?_⟩
  rw [validateEscapesAux, if_neg ha, if_pos h1, validateEscapesAux, if_pos ⟨by omega, h2⟩,
    validateEscapesAux, if_pos ⟨by omega, h3⟩, vAux_four_done]

theorem validate_complete {raw : List Char} (h : Lenient raw) (i : Nat) :
    validateEscapesAux .normal i raw = [] := by
  induction h generalizing i with
  | nil => rfl
  | plain hc _ ih => rw [validateEscapesAux, if_neg hc]; exact ih _
  | simple he _ ih =>
    rw [validateEscapesAux, if_pos rfl, validateEscapesAux, if_pos (by simp at he; grind)]
    exact ih _
  | @three h n raw hl hn _ ih =>
    match h, hl with
    | [a, b, c], _ =>
      obtain ⟨j, hj⟩ := vAux_three (st := i) (i := i + '\\'.utf8Size + 'u'.utf8Size) (rest := raw)
        (hexNumber_iff.mp hn).1
      simp only [List.cons_append, List.nil_append]
      rw [validateEscapesAux, if_pos rfl, validateEscapesAux, if_neg (by decide), if_pos rfl, hj]
      exact ih j
  | @braced h n raw hn _ ih =>
    obtain ⟨j, hj⟩ := vAux_braced (st := i) (i := i + '\\'.utf8Size + 'u'.utf8Size + '{'.utf8Size)
      (seen := ['{', 'u', '\\']) (rest := raw) (hexNumber_iff.mp hn).1
    simp only [List.cons_append]
    rw [validateEscapesAux, if_pos rfl, validateEscapesAux, if_neg (by decide), if_pos rfl,
      validateEscapesAux, if_pos rfl, hj]
    exact ih j

theorem validate_sound {raw : List Char} {i : Nat} (h : validateEscapesAux .normal i raw = []) :
    Lenient raw := by
  generalize hl : raw.length = l
  induction l using Nat.strongRecOn generalizing raw i with
  | ind l ih =>
  match raw with
  | [] => exact .nil
  | c :: cs =>
    rw [validateEscapesAux] at h
    by_cases hc : c = '\\'
    · rw [if_pos hc] at h
      subst hc
      match cs with
      | [] => simp [validateEscapesAux] at h
      | e :: cs =>
        rw [validateEscapesAux] at h
        split at h
        · rename_i he
          refine .simple (by simp; grind) (ih cs.length (by simp at hl; omega) h rfl)
        · split at h
          · rename_i he
            subst he
            match cs with
            | [] => simp [validateEscapesAux] at h
            | x :: xs =>
              rw [validateEscapesAux] at h
              split at h
              · rename_i hx
                subst hx
                obtain ⟨ds, rest, rfl, hds⟩ := vAux_braced_inv h
                obtain ⟨j, hj⟩ := vAux_braced hds
                rw [hj] at h
                refine .braced (hexNumber_iff.mpr ⟨hds, rfl⟩) (ih rest.length ?_ h rfl)
                simp at hl; omega
              · split at h
                · rename_i hx1 hx
                  match xs with
                  | [] => simp [validateEscapesAux] at h
                  | [y] =>
                    exfalso
                    rw [validateEscapesAux] at h
                    split at h
                    · simp [validateEscapesAux] at h
                    · rw [if_neg (by omega)] at h
                      split at h <;> cases h
                  | y :: z :: rest =>
                    have hall : [x, y, z].all isHexDigit = true := by
                      by_cases hy : isHexDigit y = true
                      · by_cases hz : isHexDigit z = true
                        · simp [hx, hy, hz]
                        · exfalso
                          rw [validateEscapesAux, if_pos ⟨by omega, hy⟩, validateEscapesAux,
                            if_neg (fun h => hz h.2), if_neg (by omega)] at h
                          split at h <;> cases h
                      · exfalso
                        rw [validateEscapesAux, if_neg (fun h => hy h.2), if_neg (by omega)] at h
                        split at h <;> cases h
                    obtain ⟨j, hj⟩ := vAux_three (st := i) (i := i + '\\'.utf8Size + 'u'.utf8Size)
                      (rest := rest) hall
                    rw [validateEscapesAux, if_neg hx1, if_pos hx] at hj
                    rw [hj] at h
                    exact .three (h := [x, y, z]) rfl (hexNumber_iff.mpr ⟨hall, rfl⟩)
                      (ih rest.length (by simp at hl; omega) h rfl)
                · split at h <;> cases h
          · cases h
    · rw [if_neg hc] at h
      exact .plain hc (ih cs.length (by simp at hl; omega) h rfl)

theorem validateEscapes_iff {raw : List Char} : validateEscapes raw = [] ↔ Lenient raw :=
  ⟨validate_sound, fun h => validate_complete h 0⟩

theorem Escaped.lenient {raw v : List Char} (h : Escaped raw v) : Lenient raw := by
  induction h with
  | nil => exact .nil
  | plain hc _ ih => exact .plain hc ih
  | simple he _ ih => exact .simple (by simp at he ⊢; grind) ih
  | @four h c raw v hl hn _ ih =>
    match h, hl with
    | [a, b, c', d], _ =>
      obtain ⟨h1, -⟩ := hexNumber_iff.mp hn
      simp only [List.all_cons, List.all_nil, Bool.and_true, Bool.and_eq_true] at h1
      refine .three (h := [a, b, c']) (n := hexNat [a, b, c']) rfl
        (hexNumber_iff.mpr ⟨by simp [h1], rfl⟩) (.plain ?_ ih)
      rintro rfl
      exact absurd h1.2.2.2 (by decide)
  | braced _ hn _ ih => exact .braced hn ih

/-! ## Escaping -/

theorem hexDigit_spec : ∀ k < 16, isHexDigit (hexDigit k) = true ∧ hexVal (hexDigit k) = k := by
  decide

theorem hex4_all (n : Nat) : (hex4 n).all isHexDigit = true := by
  have h : ∀ m, isHexDigit (hexDigit (m % 16)) = true :=
    fun m => (hexDigit_spec (m % 16) (by omega)).1
  simp only [hex4, List.all_cons, List.all_nil, Bool.and_true, h]

theorem hex4_nat {n : Nat} (hn : n < 65536) : hexNat (hex4 n) = n := by
  have h : ∀ m, hexVal (hexDigit (m % 16)) = m % 16 :=
    fun m => (hexDigit_spec (m % 16) (by omega)).2
  simp only [hexNat, hex4, List.foldl_cons, List.foldl_nil, h]
  omega

theorem control_lt {c : Char} (h : isAsciiControl c = true) : c.toNat < 128 := by
  simp only [isAsciiControl, Bool.or_eq_true, decide_eq_true_eq, beq_iff_eq] at h
  omega

theorem escapeQuoted_escaped (s : List Char) : Escaped (escapeQuoted s) s := by
  induction s with
  | nil => exact .nil
  | cons c cs ih =>
    simp only [escapeQuoted, List.flatMap_cons] at ih ⊢
    unfold escapeChar
    split
    · rename_i h; subst h; exact .simple (by simp) ih
    split
    · rename_i h; subst h; exact .simple (by simp) ih
    split
    · rename_i h; subst h; exact .simple (by simp) ih
    split
    · rename_i h; subst h; exact .simple (by simp) ih
    split
    · rename_i h; subst h; exact .simple (by simp) ih
    split
    · rename_i h
      have := control_lt h
      simp only [List.cons_append, List.nil_append, List.append_assoc]
      exact .braced (by simp [hex4])
        (hexNumber_iff.mpr ⟨hex4_all _, (hex4_nat (by omega)).symm⟩) ih
    · exact .plain (by assumption) ih

theorem hexPush_hex4 {c : Char} (h : c.toNat < 65536) : hexPush (hex4 c.toNat) = [c] := by
  have h1 := hex4_all c.toNat
  have h2 := hex4_nat h
  unfold hexPush
  rw [parseHexU32_hex h1, h2, if_neg (by simp [hex4]), if_pos (by omega)]
  simp [charFromU32_some.mpr rfl]

theorem fuAux_braced {hex h rest : List Char} (hh : '}' ∉ h) :
    fmtUnescapeAux (.braced hex) (h ++ '}' :: rest) =
      hexPush (hex.reverse ++ h) ++ fmtUnescapeAux .normal rest := by
  induction h generalizing hex with
  | nil => simp [fmtUnescapeAux]
  | cons c cs ih =>
    simp only [List.mem_cons, not_or] at hh
    rw [List.cons_append, fmtUnescapeAux, if_neg (Ne.symm hh.1), ih hh.2]
    simp

theorem uqAux_braced {hex h rest : List Char} (hh : '}' ∉ h) :
    unescapeQuotedAux (.braced hex) (h ++ '}' :: rest) =
      hexPush (hex.reverse ++ h) ++ unescapeQuotedAux .normal rest := by
  induction h generalizing hex with
  | nil => simp [unescapeQuotedAux]
  | cons c cs ih =>
    simp only [List.mem_cons, not_or] at hh
    rw [List.cons_append, unescapeQuotedAux, if_neg (Ne.symm hh.1), ih hh.2]
    simp

theorem hex_not_brace {h : List Char} (hh : h.all isHexDigit = true) : '}' ∉ h := by
  intro hm
  exact absurd (List.all_eq_true.mp hh _ hm) (by decide)

theorem hexPush_ok {h : List Char} {c : Char} (hh : h.all isHexDigit = true) (hne : h ≠ [])
    (hc : c.toNat = hexNat h) : hexPush h = [c] := by
  unfold hexPush
  have := toNat_lt_u32 c
  rw [parseHexU32_hex hh, if_neg hne, if_pos (by omega)]
  simp [charFromU32_some.mpr hc]

/-- Both lenient decoders agree with the declarative decoding on valid texts. -/
theorem fmtUnescape_escaped {raw v : List Char} (h : Escaped raw v) : fmtUnescape raw = v := by
  unfold fmtUnescape
  induction h with
  | nil => rfl
  | plain hc _ ih => simp [fmtUnescapeAux, hc, ih]
  | simple he _ ih =>
    simp only [List.mem_cons, Prod.mk.injEq, List.not_mem_nil, or_false] at he
    rcases he with ⟨rfl, rfl⟩ | ⟨rfl, rfl⟩ | ⟨rfl, rfl⟩ | ⟨rfl, rfl⟩ | ⟨rfl, rfl⟩ <;>
      simp [fmtUnescapeAux, ih]
  | @four h c raw v hl hn _ ih =>
    obtain ⟨h1, h2⟩ := hexNumber_iff.mp hn
    have hp := hexPush_ok h1 (by rintro rfl; simp at hl) h2
    match h, hl with
    | [a, b, c', d], _ =>
      simp only [List.all_cons, List.all_nil, Bool.and_true, Bool.and_eq_true] at h1
      obtain ⟨h1, h2, h3, h4⟩ := h1
      have ha : a ≠ '{' := by rintro rfl; exact absurd h1 (by decide)
      simp [fmtUnescapeAux, ha, h1, h2, h3, h4, hp, ih]
  | @braced h c raw v hne hn _ ih =>
    obtain ⟨h1, h2⟩ := hexNumber_iff.mp hn
    have hp := hexPush_ok h1 hne h2
    have := fuAux_braced (hex := []) (rest := raw) (hex_not_brace h1)
    simp [fmtUnescapeAux, this, hp, ih]

theorem unescapeQuoted_escaped {raw v : List Char} (h : Escaped raw v) : unescapeQuoted raw = v := by
  unfold unescapeQuoted
  induction h with
  | nil => rfl
  | plain hc _ ih => simp [unescapeQuotedAux, hc, ih]
  | simple he _ ih =>
    simp only [List.mem_cons, Prod.mk.injEq, List.not_mem_nil, or_false] at he
    rcases he with ⟨rfl, rfl⟩ | ⟨rfl, rfl⟩ | ⟨rfl, rfl⟩ | ⟨rfl, rfl⟩ | ⟨rfl, rfl⟩ <;>
      simp [unescapeQuotedAux, ih]
  | @four h c raw v hl hn _ ih =>
    obtain ⟨h1, h2⟩ := hexNumber_iff.mp hn
    have hp := hexPush_ok h1 (by rintro rfl; simp at hl) h2
    match h, hl with
    | [a, b, c', d], _ =>
      simp only [List.all_cons, List.all_nil, Bool.and_true, Bool.and_eq_true] at h1
      obtain ⟨h1, h2, h3, h4⟩ := h1
      have ha : a ≠ '{' := by rintro rfl; exact absurd h1 (by decide)
      simp [unescapeQuotedAux, ha, h1, h2, h3, h4, hp, ih]
  | @braced h c raw v hne hn _ ih =>
    obtain ⟨h1, h2⟩ := hexNumber_iff.mp hn
    have hp := hexPush_ok h1 hne h2
    have := uqAux_braced (hex := []) (rest := raw) (hex_not_brace h1)
    simp [unescapeQuotedAux, this, hp, ih]

theorem hex_quotedBody {h rest : List Char} (hh : h.all isHexDigit = true) (hr : QuotedBody rest) :
    QuotedBody (h ++ rest) := by
  induction h with
  | nil => exact hr
  | cons c cs ih =>
    simp only [List.all_cons, Bool.and_eq_true] at hh
    refine .plain ?_ ?_ (ih hh.2) <;> (rintro rfl; exact absurd hh.1 (by decide))

theorem escapeQuoted_body (s : List Char) : QuotedBody (escapeQuoted s) := by
  induction s with
  | nil => exact .nil
  | cons c cs ih =>
    simp only [escapeQuoted, List.flatMap_cons] at ih ⊢
    unfold escapeChar
    split
    · exact .esc ih
    split
    · exact .esc ih
    split
    · exact .esc ih
    split
    · exact .esc ih
    split
    · exact .esc ih
    split
    · simp only [List.cons_append, List.nil_append, List.append_assoc]
      exact .esc (.plain (by decide) (by decide)
        (hex_quotedBody (hex4_all _) (.plain (by decide) (by decide) ih)))
    · exact .plain (by assumption) (by assumption) ih

/-- The tokenizer finds exactly the body of a quoted string. -/
theorem scanQuoted_quotedBody {body : List Char} (h : QuotedBody body) (rest : List Char) :
    scanQuoted (body ++ '"' :: rest) = (true, body ++ ['"'], rest) := by
  induction h with
  | nil => unfold scanQuoted; simp
  | plain h1 h2 _ ih => rw [List.cons_append]; unfold scanQuoted; simp [h1, h2, ih]
  | esc _ ih => simp [scanQuoted, ih]

end Styx
