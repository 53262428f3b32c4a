import Verif.Editor.CodeMirrorAgree

/-!
# The text of a heredoc that CodeMirror gives to another language
-/

namespace Styx.CodeMirror

open Styx Styx.Spec Styx.Editor

theorem closesHere_true {d s : List Char} (hd : ∀ c ∈ d, isDelimChar c = true) (h : closesHere d s = true) :
    ∃ ind after, s = ind ++ d ++ after ∧ (∀ c ∈ ind, isBlank c = true) ∧
      (after = [] ∨ after.head?.any isTerminator = true) := by
  unfold closesHere at h
  have hm := stepOver_spec d hd (s.dropWhile isBlank)
  cases hs : stripPrefix d (s.dropWhile isBlank) with
  | none =>
    rw [hs] at hm
    obtain ⟨p, r, -, -, h3⟩ := hm
    rw [h3] at h
    simp at h
  | some r =>
    rw [hs] at hm
    simp only at hm
    rw [hm] at h
    refine ⟨s.takeWhile isBlank, r, ?_, fun c hc => mem_takeWhile hc, ?_⟩
    · rw [List.append_assoc, ← stripPrefix_some.1 hs, List.takeWhile_append_dropWhile]
    · simpa using h

/-- Where the tokenizer sees no closing line there is no match. -/
theorem closes_false {d s s' rest : List Char} (hD : Delimiter d) (hd : ∀ c ∈ d, isDelimChar c = true)
    (hp : PairedCR s) (hs : s = s' ++ rest) (hn : '\n' ∈ s' ∨ rest = []) (hu : NoSeparator s')
    (hf : findDelim d s = none) : closesHere d s' = false := by
  rw [Bool.eq_false_iff]
  intro h
  obtain ⟨ind, after, h1, h2, h3⟩ := closesHere_true hd h
  have hle : AtLineEnd (after ++ rest) := by
    cases after with
    | nil =>
      rcases hn with hn | hn
      · exfalso
        rw [h1] at hn
        simp only [List.append_nil, List.mem_append] at hn
        rcases hn with hn | hn
        · have := h2 _ hn; simp [isBlank] at this
        · have := hd _ hn; exact absurd this (by decide)
      · left; simp [hn]
    | cons x xs =>
      have hx : isTerminator x = true := by simpa using h3
      have hxm := hu x (by rw [h1]; simp)
      simp only [isTerminator, Bool.or_eq_true, beq_iff_eq, hxm.1, hxm.2, or_false] at hx
      rcases hx with rfl | rfl
      · right; left; exact ⟨_, rfl⟩
      · right; right
        obtain ⟨c, hc⟩ := hp (ind ++ d) (xs ++ rest) (by rw [hs, h1]; simp)
        exact ⟨c, by simp [hc]⟩
  have := findDelim_closing hD (fun c hc => (blank_iff c).2 (h2 c hc)) hle
  rw [show ind ++ d ++ (after ++ rest) = s by rw [hs, h1]; simp, hf] at this
  cases this

theorem findDelim_break {d : List Char} (hd : ∀ c ∈ d, isDelimChar c = true) (hne : d ≠ []) (s : List Char) :
    findDelim d ('\n' :: s) = none := by
  cases h : findDelim d ('\n' :: s) with
  | none => rfl
  | some i =>
    obtain ⟨ind, r, h1, -, h3, -⟩ := findDelim_some h
    cases ind with
    | nil =>
      cases d with
      | nil => exact absurd rfl hne
      | cons x d =>
        simp at h1
        have := hd x (List.mem_cons_self ..)
        rw [← h1.1] at this
        exact absurd this (by decide)
    | cons y ind =>
      simp at h1
      have := h3 y (List.mem_cons_self ..)
      rw [← h1.1] at this
      exact absurd this (by decide)

/-- After a terminator inside the content, the invariant of the search. -/
theorem start_next {d cs : List Char} {c : Char} (hd : ∀ c ∈ d, isDelimChar c = true) (hne : d ≠ [])
    (hp : PairedCR (c :: cs)) (hu : c ≠ '\u2028' ∧ c ≠ '\u2029') (hf : c = '\n' → findDelim d cs = none)
    (ht : isTerminator c = true) : findDelim d cs = none := by
  simp only [isTerminator, Bool.or_eq_true, beq_iff_eq, hu.1, hu.2, or_false] at ht
  rcases ht with rfl | rfl
  · exact hf rfl
  · obtain ⟨r, rfl⟩ := hp.cr
    exact findDelim_break hd hne r

theorem beforeClose_here {d s : List Char} {i : Nat} (hdc : ∀ c ∈ d, isDelimChar c = true)
    (h : findDelim d s = some i) : beforeClose d true (s.take (i + d.length)) = some [] := by
  obtain ⟨ind, r, h1, h2, h3, -⟩ := findDelim_some h
  have : s.take (i + d.length) = ind ++ d := by
    rw [h1, ← h2, ← List.length_append, List.take_left]
  rw [this]
  have hc : closesHere d (ind ++ d) = true := by
    have hs := takeWhile_append_stop (p := isBlank) (a := ind) (b := d) h3 (by
      intro c r' h
      exact (delimChar_byte (hdc c (by rw [h]; exact List.mem_cons_self ..))).2.2.1)
    have hm := stepOver_spec d hdc d
    have he : stripPrefix d d = some [] := stripPrefix_some.2 (by simp)
    rw [he] at hm
    simp only at hm
    simp [closesHere, hs.2, hm]
  unfold beforeClose
  simp [hc]

/-- The match is the tokenizer's closing line. -/
theorem beforeClose_content {d : List Char} (hD : Delimiter d) (hd : ∀ c ∈ d, isDelimChar c = true)
    (hne : d ≠ []) : ∀ (u a b : List Char) (i : Nat) (start : Bool), scanHeredoc d u = (a, b, some i) →
    PairedCR u → NoSeparator a → (start = true → findDelim d u = none) →
    beforeClose d start (a ++ b.take (i + d.length)) = some a := by
  intro u
  induction u with
  | nil => intro a b i start h; simp [scanHeredoc] at h
  | cons c cs ih =>
    intro a b i start h hp hu hst
    have happ := scanHeredoc_append d (c :: cs)
    rw [h] at happ
    simp only at happ
    obtain ⟨⟨r, hr⟩, hfb⟩ := scanHeredoc_content d _ a b i hne h
    have hnosep : NoSeparator (a ++ b.take (i + d.length)) := by
      intro x hx
      rcases List.mem_append.1 hx with hx | hx
      · exact hu x hx
      · obtain ⟨ind, r, h1, h2, h3, -⟩ := findDelim_some hfb
        rw [h1, ← h2, ← List.length_append, List.take_left] at hx
        rcases List.mem_append.1 hx with hx | hx
        · have := h3 x hx
          constructor <;> (rintro rfl; exact absurd this (by decide))
        · have := hd x hx
          constructor <;> (rintro rfl; exact absurd this (by decide))
    have hno : (start && closesHere d (a ++ b.take (i + d.length))) = false := by
      cases start with
      | false => rfl
      | true =>
        rw [Bool.true_and]
        exact closes_false hD hd hp (rest := b.drop (i + d.length))
          (by rw [List.append_assoc, List.take_append_drop, happ]) (.inl (by rw [hr]; simp)) hnosep (hst rfl)
    simp only [scanHeredoc] at h
    split at h
    · rename_i hc
      split at h
      · rename_i j hj
        simp only [Prod.mk.injEq, Option.some.injEq] at h
        obtain ⟨rfl, rfl, rfl⟩ := h
        have hcn : c = '\n' := by
          rcases hc with hc | rfl
          · exact hc
          · rw [findDelim_nil hne] at hj; cases hj
        subst hcn
        unfold beforeClose
        rw [hno]
        simp only [Bool.false_eq_true, if_false, List.cons_append, List.nil_append]
        rw [show isTerminator '\n' = true from rfl, beforeClose_here hd hj]
        rfl
      · rename_i hj
        simp only [Prod.mk.injEq] at h
        obtain ⟨rfl, rfl, h3⟩ := h
        unfold beforeClose
        rw [hno]
        simp only [Bool.false_eq_true, if_false, List.cons_append]
        rw [ih (scanHeredoc d cs).1 (scanHeredoc d cs).2.1 i (isTerminator c)
          (by rw [← h3]) hp.tail (fun x hx => hu x (List.mem_cons_of_mem _ hx)) (fun _ => hj)]
        rfl
    · rename_i hc
      simp only [Prod.mk.injEq] at h
      obtain ⟨rfl, rfl, h3⟩ := h
      unfold beforeClose
      rw [hno]
      simp only [Bool.false_eq_true, if_false, List.cons_append]
      rw [ih (scanHeredoc d cs).1 (scanHeredoc d cs).2.1 i (isTerminator c)
        (by rw [← h3]) hp.tail (fun x hx => hu x (List.mem_cons_of_mem _ hx))
        (fun ht => start_next hd hne hp (hu c (List.mem_cons_self ..)) (fun h => absurd (.inl h) hc) ht)]
      rfl

/-- Without a closing line there is no match. -/
theorem beforeClose_none {d : List Char} (hD : Delimiter d) (hd : ∀ c ∈ d, isDelimChar c = true)
    (hne : d ≠ []) : ∀ (u : List Char) (start : Bool), (scanHeredoc d u).2.2 = none →
    PairedCR u → NoSeparator u → (start = true → findDelim d u = none) →
    beforeClose d start u = none := by
  intro u
  induction u with
  | nil =>
    intro start h hp hu hst
    have : (start && closesHere d []) = false := by
      cases start with
      | false => rfl
      | true => exact closes_false hD hd hp (rest := []) rfl (.inr rfl) hu (hst rfl)
    unfold beforeClose
    simp [this]
  | cons c cs ih =>
    intro start h hp hu hst
    have hno : (start && closesHere d (c :: cs)) = false := by
      cases start with
      | false => rfl
      | true => exact closes_false hD hd hp (rest := []) (by simp) (.inr rfl) hu (hst rfl)
    have hrec : (scanHeredoc d cs).2.2 = none ∧ (c = '\n' → findDelim d cs = none) := by
      simp only [scanHeredoc] at h
      split at h
      · split at h
        · cases h
        · rename_i hj; exact ⟨h, fun _ => hj⟩
      · rename_i hc; exact ⟨h, fun hh => absurd (.inl hh) hc⟩
    unfold beforeClose
    rw [hno]
    simp only [Bool.false_eq_true, if_false]
    rw [ih (isTerminator c) hrec.1 hp.tail (fun x hx => hu x (List.mem_cons_of_mem _ hx))
      (fun ht => start_next hd hne hp (hu c (List.mem_cons_self ..)) hrec.2 ht)]
    rfl

/-- The two cases together. -/
theorem beforeClose_tokDoc {d u : List Char} (hD : Delimiter d) (hp : PairedCR u) :
    match tokDoc d u with
    | some (content, close, _) => NoSeparator content → beforeClose d true (content ++ close) = some content
    | none => NoSeparator u → beforeClose d true u = none := by
  have hd : ∀ c ∈ d, isDelimChar c = true := hD.chars
  have hne : d ≠ [] := by obtain ⟨c, r, rfl, -⟩ := hD; simp
  unfold tokDoc
  cases hf : findDelim d u with
  | some i => intro _; simp only [List.nil_append]; exact beforeClose_here hd hf
  | none =>
    cases hsc : scanHeredoc d u with
    | mk a q =>
      obtain ⟨b, r⟩ := q
      cases r with
      | some i => intro hu; exact beforeClose_content hD hd hne u a b i true hsc hp hu (fun _ => hf)
      | none => intro hu; exact beforeClose_none hD hd hne u true (by rw [hsc]) hp hu (fun _ => hf)

/-- The pattern of the opening. -/
theorem openingPattern_eq {op d lang nl : List Char} (h : OpeningParts op d lang nl) (hn : nl ≠ [])
    (x : List Char) : openingPattern (op ++ x) =
      match lang with
      | [] => some (d, none, x)
      | [_] => none
      | _ :: c :: r => some (d, some (c :: r), x) := by
  obtain ⟨rfl, hd, hl, hnl⟩ := h
  have hst : ∀ c r, nl ++ x = c :: r → c = '\n' ∨ c = '\r' := by
    intro c r h
    rcases hnl with rfl | rfl | rfl
    · exact absurd rfl hn
    · simp at h; exact .inl h.1.symm
    · simp at h; exact .inr h.1.symm
  have hchars : ∀ c ∈ d, isDelimChar c = true := hd.chars
  have h1 := takeWhile_append_stop (p := isDelimChar) (a := d) (b := lang ++ (nl ++ x)) hchars (by
    intro c r h
    rcases hl with rfl | ⟨l, rfl, -⟩
    · rcases hst c r (by simpa using h) with rfl | rfl <;> rfl
    · simp at h; rw [← h.1]; rfl)
  have hup : (d ++ (lang ++ (nl ++ x))).head?.any Char.isUpper = true := by
    obtain ⟨c, r, rfl, hc, -⟩ := hd; simpa using hc
  have e0 : '<' :: '<' :: d ++ lang ++ nl ++ x = '<' :: '<' :: (d ++ (lang ++ (nl ++ x))) := by simp
  rw [e0]
  unfold openingPattern
  simp only [delimiterStart_eq, delimiterChar_eq, hup, if_true, h1.1, h1.2]
  rcases hl with rfl | ⟨l, rfl, rfl | ⟨c, r, rfl, hc, hr⟩⟩
  · rcases hnl with rfl | rfl | rfl
    · exact absurd rfl hn
    · simp [hintGroup]
    · simp [hintGroup]
  · rcases hnl with rfl | rfl | rfl
    · exact absurd rfl hn
    · simp [hintGroup, langStart]
    · simp [hintGroup, langStart]
  · have := takeWhile_append_stop (p := isLangChar) (a := r) (b := nl ++ x)
      (fun y hy => by simpa [isLangChar, or_assoc] using hr y hy)
      (fun y z h => by rcases hst y z h with rfl | rfl <;> rfl)
    rcases hnl with rfl | rfl | rfl
    · exact absurd rfl hn
    · simp only [List.cons_append, List.nil_append] at this ⊢
      simp only [hintGroup, langStart_eq, hc, if_true, langHintChar_eq, this.1, this.2]
    · simp only [List.cons_append, List.nil_append] at this ⊢
      simp only [hintGroup, langStart_eq, hc, if_true, langHintChar_eq, this.1, this.2]

end Styx.CodeMirror
