import Verif.Testing.AnnotatedLemmas

/-!
# Properties: assertions on annotated sources (C134, C135)
-/

namespace Styx.Testing

open Styx Styx.Testing.Spec

/-! ## C134 -/

/-- C134, but for errors in an empty last line of the source, which have no place: the assertion returns exactly if
the places and kinds of the actual errors are what the annotations say, each as often as it is written, in any
order.  By `C134_texts` every text in which carriage returns are only before newlines is written like this. -/
theorem C134_partial (top : List Caret) (bs : List Lined) (htop : ∀ n ∈ top, n.Ok) (hok : ∀ b ∈ bs, b.Ok)
    (text : List Char) (hw : Written top bs text) (errors : List ActualError) :
    assertAnnotated text errors = true ↔
    ∃ places, AllAt (fun e x => At (sourceLines bs) e x ∧ Visible (sourceLines bs) x) errors places ∧
      places.Perm (wanted top bs) := by
  have hi : ∀ l ∈ sourceLines bs, InLine l := by
    intro l hl
    obtain ⟨b, hb, rfl⟩ := List.mem_map.mp hl
    exact (hok b hb).inLine
  refine assert_iff (parseAnnotated_written htop hok hw) (fun e x => ?_) errors
  constructor
  · rintro ⟨ha, hv⟩
    have hk : x.kind = e.kind := by obtain ⟨_, _, _, _, _, _, hk⟩ := ha; exact hk
    exact ⟨hk, (spanToLineCol_iff hi e x hk).mpr ⟨ha, hv⟩⟩
  · rintro ⟨hk, hs⟩
    exact (spanToLineCol_iff hi e x hk).mp hs

/-- Which texts C134 and C135 are about. -/
theorem C134_texts (text : List Char) (hr : ∀ a b, text = a ++ '\r' :: b → ∃ c, b = '\n' :: c) :
    ∃ top bs, (∀ n ∈ top, Caret.Ok n) ∧ (∀ b ∈ bs, Lined.Ok b) ∧ Written top bs text :=
  written_exists hr

/-- If it returns, there are as many errors as annotations that name a kind. -/
theorem C134_count (top : List Caret) (bs : List Lined) (htop : ∀ n ∈ top, n.Ok) (hok : ∀ b ∈ bs, b.Ok)
    (text : List Char) (hw : Written top bs text) (errors : List ActualError)
    (h : assertAnnotated text errors = true) : errors.length = (wanted top bs).length := by
  obtain ⟨xs, hx, hp⟩ := (C134_partial top bs htop hok text hw errors).mp h
  rw [← hp.length_eq, hx.1]

/-- Two annotations below one line, one of them with a remark, and one in the next line. -/
def annotatedBlocks : List Lined :=
  [⟨chars! "a ü ü", [⟨chars! "  ", 2, chars! " ", chars! "Odd", []⟩, ⟨chars! "  ", 2, chars! " ", chars! "Odd", chars! " again"⟩]⟩,
   ⟨chars! "b", [⟨[], 1, [], chars! "Bad", []⟩, ⟨[], 1, [], [], []⟩]⟩]

theorem annotatedBlocks_ok : ∀ b ∈ annotatedBlocks, b.Ok := by
  have plain : ∀ (c : Char) (r : List Char), c ≠ '^' → isWhitespace c = false → ∀ indent rest, Blank indent →
      c :: r ≠ indent ++ '^' :: rest := by
    intro c r hc hw indent rest hb he
    cases indent with
    | nil => simp only [List.nil_append, List.cons.injEq] at he; exact hc he.1
    | cons d i =>
      simp only [List.cons_append, List.cons.injEq] at he
      have := hb d (List.mem_cons_self ..)
      rw [← he.1, hw] at this
      exact absurd this (by simp)
  intro b hb
  simp only [annotatedBlocks, List.mem_cons, List.not_mem_nil, or_false] at hb
  rcases hb with rfl | rfl
  · refine ⟨⟨by decide, by decide⟩, plain _ _ (by decide) (by decide), ?_⟩
    intro n hn
    simp only [List.mem_cons, List.not_mem_nil, or_false] at hn
    rcases hn with rfl | rfl
    · exact ⟨⟨by decide, by decide⟩, by unfold Blank; decide, by decide, by unfold Blank; decide, by decide, by decide,
        fun h => absurd rfl h⟩
    · exact ⟨⟨by decide, by decide⟩, by unfold Blank; decide, by decide, by unfold Blank; decide, by decide, by decide,
        fun _ => ⟨by decide, ' ', chars! "again", rfl, by decide⟩⟩
  · refine ⟨⟨by decide, by decide⟩, plain _ _ (by decide) (by decide), ?_⟩
    intro n hn
    simp only [List.mem_cons, List.not_mem_nil, or_false] at hn
    rcases hn with rfl | rfl
    · exact ⟨⟨by decide, by decide⟩, by unfold Blank; decide, by decide, by unfold Blank; decide, by decide, by decide,
        fun h => absurd rfl h⟩
    · exact ⟨⟨by decide, by decide⟩, by unfold Blank; decide, by decide, by unfold Blank; decide, by decide, by decide,
        fun h => absurd rfl h⟩

def annotatedText : List Char := chars! "a ü ü\r\n  ^^ Odd\n  ^^ Odd again\nb\n^Bad\n^"

example : Written [] annotatedBlocks annotatedText :=
  .crlf (l := chars! "a ü ü") (.lf (l := chars! "  ^^ Odd") (.lf (l := chars! "  ^^ Odd again") (.lf (l := ['b'])
    (.lf (l := chars! "^Bad") (.last (l := ['^']) (by decide))))))

/-- The same error twice, and in another order. -/
example : assertAnnotated annotatedText [⟨8, 20, chars! "Bad"⟩, ⟨2, 4, chars! "Odd"⟩, ⟨2, 4, chars! "Odd"⟩] = false ∧
    assertAnnotated annotatedText [⟨8, 9, chars! "Bad"⟩, ⟨2, 4, chars! "Odd"⟩, ⟨2, 4, chars! "Odd"⟩] = true ∧
    assertAnnotated annotatedText [⟨8, 9, chars! "Bad"⟩, ⟨2, 4, chars! "Odd"⟩] = false := by decide

/-- C134 is false of the code: the source is `a` and an empty line, the error is in the empty line, where the
annotation says, and the assertion panics: `str::lines` does not give an empty last line. -/
theorem C134_false : ∃ (bs : List Lined) (text : List Char) (errors : List ActualError),
    (∀ b ∈ bs, b.Ok) ∧ Written [] bs text ∧
    (∃ places, AllAt (At (sourceLines bs)) errors places ∧ places.Perm (wanted [] bs)) ∧
    assertAnnotated text errors = false := by
  refine ⟨[⟨['a'], []⟩, ⟨[], [⟨[], 1, [' '], ['E'], []⟩]⟩], chars! "a\n\n^ E\n", [⟨2, 3, ['E']⟩], ?_,
    .lf (l := ['a']) (.lf (l := []) (.lf (l := chars! "^ E") .nil)),
    ⟨[⟨1, 0, 1, ['E']⟩], ⟨rfl, ?_⟩, List.Perm.refl _⟩, by decide⟩
  · intro b hb
    simp only [List.mem_cons, List.not_mem_nil, or_false] at hb
    rcases hb with rfl | rfl
    · refine ⟨⟨by decide, by decide⟩, ?_, (nofun)⟩
      intro indent rest hbl he
      cases indent with
      | nil => exact absurd he (by simp)
      | cons d i => exact absurd he (by simp)
    · refine ⟨⟨(nofun), (nofun)⟩, ?_, ?_⟩
      · intro indent rest _ he
        exact absurd he (by simp)
      · intro n hn
        simp only [List.mem_cons, List.not_mem_nil, or_false] at hn
        subst hn
        exact ⟨⟨by decide, by decide⟩, (nofun), by decide, by unfold Blank; decide, by decide, by decide,
          fun h => absurd rfl h⟩
  · intro p hp
    simp only [List.zip_cons_cons, List.zip_nil_right, List.mem_cons, List.not_mem_nil, or_false] at hp
    subst hp
    exact ⟨[], rfl, by decide, by decide, by decide, by decide, rfl⟩

/-! ## C135 -/

/-- C135: the source without the annotations is its lines, with newlines between them. -/
theorem C135 (top : List Caret) (bs : List Lined) (htop : ∀ n ∈ top, n.Ok) (hok : ∀ b ∈ bs, b.Ok)
    (text : List Char) (hw : Written top bs text) :
    sourceWithoutAnnotations text = ['\n'].intercalate (sourceLines bs) := by
  have h : ∀ ls : List (List Char), joinNl ls = ['\n'].intercalate ls := by
    intro ls
    induction ls with
    | nil => rfl
    | cons l ls ih =>
      cases ls with
      | nil => simp [joinNl, List.intercalate]
      | cons m ls => rw [joinNl, ih]; simp [List.intercalate]
  rw [sourceWithoutAnnotations, parseAnnotated_written htop hok hw, h]

example : sourceWithoutAnnotations annotatedText = chars! "a ü ü\nb" := by decide

end Styx.Testing
