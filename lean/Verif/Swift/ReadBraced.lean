import Verif.Swift.ReadEntries
import Verif.Swift.Embed
import Verif.Impl.BracedSpec

/-! # The Swift parser on documents with braces around the root -/

namespace Styx.Spec

/-- The texts of documents with braces around the root in the grammar of `Verif.Swift.Spec`: no space but blanks, line
feeds and comments around the braces, and at most one comma between entries. -/
inductive SwiftBraced : List Entry → List Char → Prop
  | mk {g es t g'} : LfGap g → SwiftEntries false es t → DistinctKeys es → DistinctLabels es → LfGap g' →
      SwiftBraced es (g ++ ('{' :: (t ++ g')))

end Styx.Spec

namespace Styx.Swift

open Styx.Spec

/-- A document with braces for Swift is one for the other implementations. -/
theorem shared_braced {es s} (h : SwiftBraced es s) : SharedBraced es s := by
  obtain ⟨h1, h2, h3, h4, h5⟩ := h
  exact .mk (gap_commas h1.1) (shared_entries h2) h3 h4 h5.1

theorem swiftEntries_reads {U : Classes} (hU : Standard U) {es t} (h : SwiftEntries false es t) :
    ReadsEntries U false es t := by
  cases h with
  | nil h => exact entries_nil h
  | cons h1 h2 h3 h4 h5 h6 h7 h8 h9 h10 h11 =>
    have key : ∀ {c es t}, SwiftEntries c es t → ReadsEntries U c es t := by
      intro c es t h
      refine SwiftEntries.rec (motive_1 := fun _ _ _ _ => True) (motive_2 := fun _ _ _ => True)
        (motive_3 := fun c es t _ => ReadsEntries U c es t) (motive_4 := fun _ _ _ _ => True)
        ?_ ?_ ?_ ?_ ?_ ?_ ?_ ?_ ?_ ?_ ?_ ?_ ?_ h
      · intros; trivial
      · intros; trivial
      · intros; trivial
      · intros; trivial
      · intros; trivial
      · intros; trivial
      · intros; trivial
      · intros; trivial
      · intros; trivial
      · intro c g h; exact entries_nil h
      · intro c g ls dt k ke ks b v e s tr es t h1 h2 h3 _ h5 h6 h7' h7 _ h8 h9 _ ih2
        exact entries_cons hU h1 h2 h3 h5 h6 (swiftValue_reads hU h7') h7 ih2 h8 h9
      · intros; trivial
      · intros; trivial
    exact entries_cons hU h1 h2 h3 h5 h6 (swiftValue_reads hU h7) h8 (key h9) h10 h11

/-- What the parser does with a text that begins with an object: the entries, and then the rest of the text decides. -/
theorem braced_object {U : Classes} (hU : Standard U) {g es t} (x : List Char) (hg : LfGap g)
    (h : SwiftEntries false es t) : ∃ N, ∀ n, N ≤ n → parseDocument U n ⟨g ++ ('{' :: (t ++ x)), false⟩ =
      (if kindOf U (behindBlank x) = .eof
        then .ok [.mk (.mk none none none) (.mk none (some (.object (shedEntries es) none)) none) none] ⟨x, false⟩
        else .fail .trailingContent) := by
  have hr := swiftEntries_reads hU h
  have hb : behindBlank (g ++ ('{' :: (t ++ x))) = '{' :: (t ++ x) := by
    rw [behindBlank_gap hg]
    exact behindBlank_start (Impl.start_char (by decide) (by decide))
  have hat := at_plain U (g ++ ('{' :: (t ++ x)))
  rw [hb] at hat
  obtain ⟨hk, hrd⟩ := hr.2 x
  obtain ⟨st0, h0, N, st1, h1, h2, h3⟩ := hrd _ _ _ (at_plain U (t ++ x))
  have hkind := Behind.kind (U := U) (w := t ++ x) (.inl rfl)
  rw [if_neg] at h0
  · subst h0
    refine ⟨N + 1, fun n hn => ?_⟩
    obtain ⟨n, rfl⟩ : ∃ m, n = m + 1 := ⟨n - 1, by omega⟩
    have hst : nextToken U ⟨g ++ ('{' :: (t ++ x)), false⟩ = (⟨.lBrace, [], _, _⟩, ⟨t ++ x, false⟩) := hat
    have hp : parseObject U (n + 1) ⟨g ++ ('{' :: (t ++ x)), false⟩ = .ok (shedEntries es) ⟨x, false⟩ := by
      rw [parseObject, bind_advance, hst, bind_ok (h3 n (by omega)), bind_cur, if_pos h1, bind_advance, h2]
      rfl
    rw [parseDocument, bind_cur, if_pos (show (nextToken U _).1.kind = .lBrace from hat.kind), bind_ok hp, bind_cur, Behind.kind (w := x) (.inl rfl)]
    split <;> rfl
  · rw [hkind]
    rcases hk with h | h | ⟨h, -⟩
    · rw [h]; simp
    · intro hh; rw [hh] at h; cases h
    · cases h

/-- **Documents with braces**: the entries are read as an object under the key `@`. -/
theorem swiftBraced_parse {U : Classes} (hU : Standard U) {es s} (h : SwiftBraced es s) : ∃ N, ∀ n, N ≤ n →
    parse U n s = some (.ok [.mk (.mk none none none) (.mk none (some (.object (shedEntries es) none)) none) none]) := by
  obtain ⟨h1, h2, h3, h4, h5⟩ := h
  obtain ⟨N, hN⟩ := braced_object hU _ h1 h2
  refine ⟨N, fun n hn => ?_⟩
  have hb := behindBlank_gap h5 []
  rw [List.append_nil] at hb
  rw [parse, hN n hn, hb, if_pos (by rfl)]

/-- What stands behind the closing brace is rejected. -/
theorem swiftBraced_trailing {U : Classes} (hU : Standard U) {g es t} (x : List Char) (hg : LfGap g)
    (h : SwiftEntries false es t) (hx : kindOf U (behindBlank x) ≠ .eof) : ∃ N, ∀ n, N ≤ n →
      parse U n (g ++ ('{' :: (t ++ x))) = some (.error .trailingContent) := by
  obtain ⟨N, hN⟩ := braced_object hU x hg h
  refine ⟨N, fun n hn => ?_⟩
  rw [parse, hN n hn, if_neg hx]

theorem ite_not_eof {p : Prop} [Decidable p] {x y : Tok × St} (hx : x.1.kind ≠ .eof) (hy : y.1.kind ≠ .eof) :
    (if p then x else y).1.kind ≠ .eof := by
  by_cases h : p
  · rwa [if_pos h]
  · rwa [if_neg h]

theorem kindOf_cons (U : Classes) (c : Char) (cs : List Char) : kindOf U (c :: cs) ≠ .eof := by
  unfold kindOf
  rw [readToken]
  refine ite_not_eof (by simp) (ite_not_eof (by simp) (ite_not_eof (by simp) (ite_not_eof (by simp)
    (ite_not_eof (by simp) (ite_not_eof (by simp) (ite_not_eof (by simp) (ite_not_eof ?_ (ite_not_eof
    (ite_not_eof ?_ (by simp [errorTok])) (ite_not_eof (ite_not_eof ?_ (by simp [errorTok]))
    (ite_not_eof (by simp) (by simp [errorTok])))))))))))
  · split <;> simp [errorTok]
  · split <;> simp [errorTok]
  · split <;> simp [errorTok]

end Styx.Swift
