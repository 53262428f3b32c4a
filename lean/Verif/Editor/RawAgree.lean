import Verif.Editor.Raw
import Verif.Parse.LexLemmas

/-!
# The tokenizer's raw strings
-/

namespace Styx.Editor

open Styx.Spec

theorem hashes_inj {n k : Nat} {x y : List Char}
    (h : List.replicate n '#' ++ '"' :: x = List.replicate k '#' ++ '"' :: y) : n = k ∧ x = y := by
  have h1 := takeWhile_hashes n x
  have h2 := dropWhile_hashes n x
  rw [h, takeWhile_hashes] at h1
  rw [h, dropWhile_hashes] at h2
  have h1 := congrArg List.length h1
  simp only [List.length_replicate] at h1
  injection h2 with _ h2
  exact ⟨h1.symm, h2.symm⟩

theorem hashes_of_takeWhile (cs : List Char) :
    List.replicate (cs.takeWhile (· == '#')).length '#' = cs.takeWhile (· == '#') := by
  rw [eq_comm, List.eq_replicate_iff]
  exact ⟨rfl, fun x hx => by simpa using mem_takeWhile hx⟩

/-- Raw strings as the tokenizer reads them. -/
theorem tokenizer_raw (cs w rest : List Char) : TokenizerReads ('r' :: cs) .rawScalar w rest ↔
    ∃ t a, cs.dropWhile (· == '#') = '"' :: t ∧
      cutRaw (min (cs.takeWhile (· == '#')).length 255) t = some (a, rest) ∧
      w = 'r' :: (List.replicate (cs.takeWhile (· == '#')).length '#' ++ '"' ::
        (a ++ '"' :: List.replicate (min (cs.takeWhile (· == '#')).length 255) '#')) := by
  by_cases hh : cs.head? = some '#' ∨ cs.head? = some '"'
  · have hn : (Tok.new ('r' :: cs)).next = (Tok.new ('r' :: cs)).rawString cs := next_r _ _ hh
    simp only [TokenizerReads, hn]
    unfold Tok.rawString
    simp only
    rw [hashes_of_takeWhile]
    generalize hd : cs.dropWhile (· == '#') = d
    split
    · rename_i t
      rw [scanRaw_cut, satHash]
      cases hc : cutRaw (min (cs.takeWhile (· == '#')).length 255) t with
      | none =>
        constructor
        · rintro ⟨h, _⟩; simp [Tok.emit] at h
        · rintro ⟨t', a, h1, h2, _⟩
          injection h1 with _ h1
          subst h1
          rw [hc] at h2; simp at h2
      | some q =>
        obtain ⟨a, b⟩ := q
        simp only [Tok.emit, true_and]
        constructor
        · rintro ⟨rfl, rfl⟩
          exact ⟨t, a, rfl, hc, by simp⟩
        · rintro ⟨t', a', h1, h2, h3⟩
          injection h1 with _ h1
          subst h1
          rw [hc] at h2
          simp only [Option.some.injEq, Prod.mk.injEq] at h2
          obtain ⟨rfl, rfl⟩ := h2
          exact ⟨by rw [h3]; simp, rfl⟩
    · rename_i hne
      constructor
      · rintro ⟨h, _⟩; simp [Tok.emit] at h
      · rintro ⟨t', a, h1, _⟩; exact absurd h1 (hne t')
  · constructor
    · rintro ⟨h, _⟩
      exfalso
      have hb : (Tok.new ('r' :: cs)).next = (Tok.new ('r' :: cs)).bareScalar := by
        have h1 : isBlank 'r' = false := by decide
        have h2 : isBareStart 'r' = true := by decide
        simp [Tok.next, Tok.new, hh, h1, h2]
      rw [hb] at h
      simp [Tok.bareScalar, Tok.emit] at h
    · rintro ⟨t, a, h1, _⟩
      exfalso
      apply hh
      cases cs with
      | nil => simp at h1
      | cons c cs =>
        by_cases hc : c = '#'
        · exact .inl (by simp [hc])
        · simp [hc] at h1; exact .inr (by simp [h1.1])

end Styx.Editor
