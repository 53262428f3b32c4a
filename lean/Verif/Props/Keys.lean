import Verif.Parse.DupLemmas

/-! # Property theorem C14: duplicate keys of braced objects

`Verif.Parse.DupSpec` is the specification: `ownKeys` and `ownDups` are the key events and the
duplicate-key errors of one object, `KeysOK` says that they fit, `Braced` that an object is written
with braces. -/

namespace Styx.Props

open Styx Styx.Spec

/-- A prefix of the events of a document always replays on the stack. -/
theorem nest_prefix {st st' : List Opened} {a b : List Event} (h : nest st (a ++ b) = some st') :
    ∃ st1, nest st a = some st1 := by
  rw [nest_append] at h
  cases ha : nest st a with
  | none => rw [ha] at h; cases h
  | some st1 => exact ⟨st1, rfl⟩

/-- **C14**.  Full statement: the conclusion for every braced object of every source.  It is false for
the root object with dotted keys (`C14_false_dotted`) and for `@a` against `@a@`
(`C14_false_tag_unit`), which `SameKey` tells apart.  Proved: for every source whose only errors are
duplicate keys and in which every `\u` begins a proper escape (a malformed one is accepted silently and
compared in its raw form), every object written with braces, at any depth, is closed and its own duplicate-key errors
are right; the root object only when no `.` occurs in the source. -/
theorem C14_duplicates_partial (source : List Char) (evs pre post : List Event) (sp : Span)
    (h : parseEvents source = some evs) (ho : OnlyDup evs) (hu : ProperUni source)
    (hs : evs = pre ++ ⟨sp, .objectStart⟩ :: post) (hb : Braced source sp)
    (hroot : (nest [] pre ≠ some [] ∧ nest [] pre ≠ some [.object]) ∨ '.' ∉ source) :
    ∃ body sp' post', post = body ++ ⟨sp', .objectEnd⟩ :: post' ∧ nest [] body = some [] ∧
      KeysOK body := by
  obtain ⟨evs', h', hr⟩ := parseEvents_run source
  rw [h] at h'
  cases h'
  obtain ⟨st, hst⟩ : ∃ st, nest [] pre = some st := by
    rcases run_nested hr with hn | ⟨hn, _⟩
    · rw [hs] at hn; exact nest_prefix hn
    · rw [hs] at hn; exact nest_prefix hn
  have hc : (st ≠ [] ∧ st ≠ [.object]) ∨ '.' ∉ source := by
    rw [hst] at hroot
    simpa using hroot
  obtain ⟨body, sp', post', h1, h2, h3⟩ :=
    run_objs hu hr 0 (lex_chain source) ho (Or.inl rfl) pre sp post st hs hb hst hc
  exact ⟨body, sp', post', h1, h2 [], h3⟩

/-- **C14** in expression mode: every braced object. -/
theorem C14_duplicates_expr_partial (source : List Char) (evs pre post : List Event) (sp : Span)
    (h : parseExprEvents source = some evs) (ho : OnlyDup evs) (hu : ProperUni source)
    (hs : evs = pre ++ ⟨sp, .objectStart⟩ :: post) (hb : Braced source sp) :
    ∃ body sp' post', post = body ++ ⟨sp', .objectEnd⟩ :: post' ∧ nest [] body = some [] ∧
      KeysOK body := by
  obtain ⟨evs', h', hr⟩ := parseExprEvents_run source
  rw [h] at h'
  cases h'
  obtain ⟨body, sp', post', h1, h2, h3⟩ :=
    run_in hu hr 0 (lex_chain source) ho pre sp post hs hb
  exact ⟨body, sp', post', h1, h2 [], h3⟩

/-- The hypotheses hold of an object with a duplicate key (bare and quoted), nested in a sequence. -/
example : let source := chars! "x ({a 1, b 2, \"a\" {c 3}})"
    let evs := (parseEvents source).getD []
    let pre := evs.take 5
    let post := evs.drop 6
    let body := post.take 18
    parseEvents source = some evs ∧ OnlyDup evs ∧ evs = pre ++ ⟨⟨3, 24⟩, .objectStart⟩ :: post ∧
    Braced source ⟨3, 24⟩ ∧ nest [] pre = some [.sequence, .entry, .object] ∧
    post = body ++ ⟨⟨3, 24⟩, .objectEnd⟩ :: post.drop 19 ∧
    (ownKeys body).length = 3 ∧ (ownDups body).length = 1 := by
  refine ⟨by decide +kernel, by decide +kernel, by decide +kernel, ⟨by decide, by decide +kernel⟩,
    by decide +kernel, by decide +kernel, by decide +kernel, by decide +kernel⟩

/-- The text begins with four hexadecimal digits, or some between braces, that are the number of a character (used for
concrete examples). -/
def properHere (b : List Char) : Bool :=
  ((b.take 4).length == 4 && (b.take 4).all isHexDigit && (charFromU32 (hexNat (b.take 4))).isSome) ||
  (let h := b.tail.takeWhile isHexDigit
   b.head? == some '{' && !h.isEmpty && (b.tail.dropWhile isHexDigit).head? == some '}' && (charFromU32 (hexNat h)).isSome)

/-- Every `\u` of the text is followed by such a text. -/
def properAll : List Char → Bool
  | [] => true
  | c :: cs => (c != '\\' || cs.head? != some 'u' || properHere cs.tail) && properAll cs

theorem charOf_isSome {n : Nat} (h : (charFromU32 n).isSome = true) : ∃ c : Char, c.toNat = n := by
  obtain ⟨c, hc⟩ := Option.isSome_iff_exists.1 h
  exact ⟨c, charFromU32_some.1 hc⟩

theorem properHere_of {b : List Char} (h : properHere b = true) :
    (∃ h t, ∃ c : Char, b = h ++ t ∧ h.length = 4 ∧ HexNumber h c.toNat) ∨
    (∃ h t, ∃ c : Char, b = '{' :: h ++ '}' :: t ∧ h ≠ [] ∧ HexNumber h c.toNat) := by
  unfold properHere at h
  simp only [Bool.or_eq_true, Bool.and_eq_true, beq_iff_eq] at h
  rcases h with ⟨⟨h1, h2⟩, h3⟩ | ⟨⟨⟨h1, h2⟩, h3⟩, h4⟩
  · obtain ⟨c, hc⟩ := charOf_isSome h3
    exact .inl ⟨b.take 4, b.drop 4, c, (List.take_append_drop 4 b).symm, h1, hexNumber_iff.2 ⟨h2, hc⟩⟩
  · obtain ⟨c, hc⟩ := charOf_isSome h4
    cases b with
    | nil => cases h1
    | cons d r =>
      simp only [List.head?_cons, Option.some.injEq] at h1
      subst h1
      simp only [List.tail_cons] at h2 h3 h4 hc
      cases hd : r.dropWhile isHexDigit with
      | nil => rw [hd] at h3; cases h3
      | cons e t =>
        rw [hd] at h3
        simp only [List.head?_cons, Option.some.injEq] at h3
        subst h3
        refine .inr ⟨r.takeWhile isHexDigit, t, c, ?_, by simpa using h2, hexNumber_iff.2 ⟨?_, hc⟩⟩
        · rw [List.cons_append, ← hd, List.takeWhile_append_dropWhile]
        · exact List.all_takeWhile

theorem properUni_of {s : List Char} (h : properAll s = true) : ProperUni s := by
  intro a b hs
  induction a generalizing s with
  | nil =>
    subst hs
    simp only [List.nil_append, properAll, Bool.and_eq_true] at h
    exact properHere_of (by simpa using h.1)
  | cons x a ih =>
    subst hs
    simp only [List.cons_append, properAll, Bool.and_eq_true] at h
    exact ih h.2 rfl

/-- The hypotheses also hold of an object in which a key is repeated with a unicode escape. -/
example : let source := chars! "x {A 1, \"\\u{41}\" 2}"
    let evs := (parseEvents source).getD []
    parseEvents source = some evs ∧ OnlyDup evs ∧ ProperUni source ∧ Braced source ⟨2, 20⟩ ∧
    ownKeys ((evs.drop 5).take 9) = [⟨⟨3, 4⟩, .key none (some ['A']) .bare⟩, ⟨⟨8, 16⟩, .key none (some ['A']) .quoted⟩] ∧
    (ownDups ((evs.drop 5).take 9)).length = 1 :=
  ⟨by decide +kernel, by decide +kernel, properUni_of (by decide +kernel), ⟨by decide, by decide +kernel⟩,
    by decide +kernel, by decide +kernel⟩

/-- **C14 is false** of the code: in a root object with braces, dotted keys are not tracked, so two
entries for `a` with equal sub-keys give no error. -/
theorem C14_false_dotted : ∃ evs, parseEvents (chars! "{a.b 1\na.b 2}") = some evs ∧ NoError evs ∧
    evs.take 2 = [⟨⟨0, 0⟩, .documentStart⟩, ⟨⟨0, 1⟩, .objectStart⟩] ∧
    ownKeys ((evs.drop 2).dropLast.dropLast) = [⟨⟨1, 2⟩, .key none (some ['a']) .bare⟩,
      ⟨⟨7, 8⟩, .key none (some ['a']) .bare⟩] :=
  ⟨_, rfl, by decide +kernel, by decide +kernel, by decide +kernel⟩

/-- **C14 is false** of the code: `@a@` (a tag whose payload is an explicit unit) and `@a` make equal
key events, yet no duplicate is reported. -/
theorem C14_false_tag_unit : ∃ evs, parseEvents (chars! "x {@a@ 1\n@a 2}") = some evs ∧ NoError evs ∧
    evs.filter isKey = [⟨⟨0, 1⟩, .key none (some ['x']) .bare⟩, ⟨⟨3, 6⟩, .key (some ['a']) none .bare⟩,
      ⟨⟨9, 11⟩, .key (some ['a']) none .bare⟩] :=
  ⟨_, rfl, by decide +kernel, by decide +kernel⟩

/-- Attribute objects, which are not written with braces, are not checked at all. -/
theorem C14_attributes_unchecked : ∃ evs, parseEvents (chars! "x a>1 a>2") = some evs ∧ NoError evs ∧
    evs.filter isKey = [⟨⟨0, 1⟩, .key none (some ['x']) .bare⟩, ⟨⟨2, 3⟩, .key none (some ['a']) .bare⟩,
      ⟨⟨6, 7⟩, .key none (some ['a']) .bare⟩] :=
  ⟨_, rfl, by decide +kernel, by decide +kernel⟩

end Styx.Props
