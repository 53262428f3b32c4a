import Verif.Impl.SexpLemmas
import Verif.Tree.TagNames

/-!
# C107, C108: S-expressions of documents
-/

namespace Styx.Props

open Styx Styx.Spec Styx.Cli Styx.Impl

/-! ## The places in parsed trees -/

theorem placed_child {t : Option Tag} {p : Payload} {sp : Option Span} (h0 : t = none → payloadSpan p = sp)
    (h : ∀ x, Child x (.mk t (some p) sp) → Placed x) : Placed (.mk t (some p) sp) := by
  intro x hx
  cases hx with
  | self => intro ht q hq; cases hq; exact h0 ht
  | inside hc hn => exact h _ hc x hn

theorem placed_leaf {t : Option Tag} {sp : Option Span} : Placed (.mk t none sp) := by
  intro x hx
  cases hx with
  | self => intro _ q hq; cases hq
  | inside hc hn => cases hc

theorem placed_scalar {t : Option Tag} {text : List Char} {k : ScalarKind} {sp : Option Span} :
    Placed (.mk t (some (.scalar text k sp)) sp) := placed_child (fun _ => rfl) (fun _ hc => by cases hc)

theorem keyStd_placed {s : List Char} {lo : Nat} {sp : Span} {k : Value} (h : KeyStd s lo sp k) : Placed k := by
  obtain ⟨t, p, ksp⟩ := k
  obtain ⟨rfl, -, -, -, rfl | ⟨text, k, rfl, -⟩⟩ := h
  · exact placed_leaf
  · exact placed_scalar

mutual
theorem std_placed {s : List Char} : ∀ (v : Value) {lo hi : Nat}, Std s lo hi v → Placed v
  | .mk t none (some sp), _, _, h => placed_leaf
  | .mk t (some (.scalar text k psp)) (some sp), _, _, h => by
    simp only [Std, PayStd] at h
    obtain ⟨-, -, -, -, rfl, -⟩ := h
    exact placed_scalar
  | .mk t (some (.sequence items psp)) (some sp), _, _, h => by
    simp only [Std, PayStd] at h
    obtain ⟨-, -, -, -, rfl, h⟩ := h
    refine placed_child (fun _ => rfl) fun x hc => ?_
    cases hc with
    | item hm => exact itemsStd_placed items h x hm
  | .mk t (some (.object es psp)) (some sp), _, _, h => by
    simp only [Std, PayStd] at h
    obtain ⟨-, -, -, -, rfl, h⟩ := h
    refine placed_child (fun _ => rfl) fun x hc => ?_
    cases hc with
    | key hm => exact (entriesStd_placed es h _ _ _ hm).1
    | value hm => exact (entriesStd_placed es h _ _ _ hm).2
theorem itemsStd_placed {s : List Char} : ∀ (vs : List Value) {lo hi : Nat}, ItemsStd s lo hi vs → ∀ v ∈ vs, Placed v
  | [], _, _, _ => nofun
  | v :: vs, _, _, h => by
    simp only [ItemsStd] at h
    obtain ⟨m, h1, h2⟩ := h
    intro x hx
    rcases List.mem_cons.1 hx with hx | hx
    · rw [hx]; exact std_placed v h1
    · exact itemsStd_placed vs h2 x hx
theorem entriesStd_placed {s : List Char} : ∀ (es : List Entry) {lo hi : Nat}, EntriesStd s lo hi es →
    ∀ k v d, Entry.mk k v d ∈ es → Placed k ∧ Placed v
  | [], _, _, _ => nofun
  | .mk k' v' d' :: es, _, _, h => by
    simp only [EntriesStd] at h
    obtain ⟨sp, m, h1, h2, h3⟩ := h
    intro k v d hm
    rcases List.mem_cons.1 hm with he | hm
    · obtain ⟨e1, e2, -⟩ := Entry.mk.inj he
      rw [e1, e2]
      refine ⟨keyStd_placed h1, ?_⟩
      rcases h2 with ⟨h2, -⟩ | h2
      · rw [h2]; exact placed_leaf
      · exact std_placed v' h2
    · exact entriesStd_placed es h3 k v d hm
end

theorem dotEntry_placed {s : List Char} {whole : Span} {hi lo : Nat} {e : Entry} (h : DotEntry s whole hi lo e) :
    Placed e.key ∧ Placed e.value := by
  induction h with
  | last _ _ _ _ hv =>
    refine ⟨placed_scalar, ?_⟩
    rcases hv with ⟨rfl, -⟩ | hv
    · exact placed_leaf
    · exact std_placed _ hv
  | more _ _ _ _ _ ih =>
    refine ⟨placed_scalar, placed_child (fun _ => rfl) fun x hc => ?_⟩
    cases hc with
    | key hm => rw [List.mem_singleton] at hm; rw [← hm] at ih; exact ih.1
    | value hm => rw [List.mem_singleton] at hm; rw [← hm] at ih; exact ih.2

theorem rootStd_placed {s : List Char} {hi : Nat} : ∀ {lo : Nat} {es : List Entry}, RootStd s lo hi es →
    ∀ k v d, Entry.mk k v d ∈ es → Placed k ∧ Placed v
  | _, [], _ => nofun
  | lo, e :: es, h => by
    obtain ⟨m, h1, h2⟩ := h
    intro k v d hm
    rcases List.mem_cons.1 hm with rfl | hm
    · rcases h1 with h1 | ⟨-, whole, -, -, h1⟩
      · exact entriesStd_placed _ h1 k v d (List.mem_singleton.2 rfl)
      · exact dotEntry_placed h1
    · exact rootStd_placed h2 k v d hm

theorem parsed_placed {s : List Char} {v : Value} (h : parseTree s = some (.ok v)) :
    ∃ es, v = .mk none (some (.object es none)) none ∧ ∀ k w d, Entry.mk k w d ∈ es → Placed k ∧ Placed w := by
  obtain ⟨es, rfl, h1⟩ := parseTree_std h
  exact ⟨es, rfl, rootStd_placed h1⟩

/-! ## C107 -/

/-- **C107**: two documents with the same S-expression have the same tree: the same structure, texts, kinds of scalars,
tags and places, everywhere.  (Doc comments and the places of the tags themselves are not shown.) -/
theorem C107 (pr : Char → Bool) {a b : List Char} {v w : Value} (ha : parseTree a = some (.ok v))
    (hb : parseTree b = some (.ok w)) (h : sexpDocument pr v = sexpDocument pr w) : plainValue v = plainValue w := by
  obtain ⟨es, rfl, h1⟩ := parsed_placed ha
  obtain ⟨fs, rfl, h2⟩ := parsed_placed hb
  simp only [sexpDocument, Value.asObject, Value.span, List.append_assoc, List.cons_append, List.nil_append, List.cons.injEq,
    true_and, List.append_right_inj] at h
  have := (sexpEntries_pre pr 0 es fs [] [] h1 h2 h).1
  simp only [plainValue, plainPayload, this]

/-- **C107**, with errors: the output also tells whether a document could be read; if not, it shows the place of the error
and its message. -/
theorem C107_output (pr : Char → Bool) (message : ParseErrorKind → List Char) (unexpected name : List Char)
    {a b : List Char} {x y : Except BuildError Value} (ha : parseTree a = some x) (hb : parseTree b = some y)
    (h : treeOutput pr message unexpected name x = treeOutput pr message unexpected name y) :
    (∃ v w, x = .ok v ∧ y = .ok w ∧ plainValue v = plainValue w) ∨
    (∃ e f, x = .error e ∧ y = .error f ∧ buildErrorSpan e = buildErrorSpan f ∧
      buildErrorText message unexpected e = buildErrorText message unexpected f) := by
  have head : ∀ {s : List Char} {v : Value}, parseTree s = some (.ok v) → ∃ t, sexpDocument pr v = '(' :: 'd' :: t := by
    intro s v hs
    obtain ⟨es, rfl, -⟩ := parsed_placed hs
    exact ⟨_, rfl⟩
  match x, y with
  | .ok v, .ok w =>
    refine .inl ⟨v, w, rfl, rfl, C107 pr ha hb ?_⟩
    simp only [treeOutput, List.append_assoc, List.cons_append, List.nil_append, List.append_right_inj, List.cons.injEq,
      true_and] at h
    exact (List.append_inj' h rfl).1
  | .ok v, .error f =>
    obtain ⟨t, ht⟩ := head ha
    simp [treeOutput, ht] at h
  | .error e, .ok w =>
    obtain ⟨t, ht⟩ := head hb
    simp [treeOutput, ht] at h
  | .error e, .error f =>
    refine .inr ⟨e, f, rfl, rfl, ?_⟩
    simp only [treeOutput, List.append_assoc, List.cons_append, List.nil_append, List.append_right_inj, List.cons.injEq,
      true_and] at h
    obtain ⟨h1, h2⟩ := spanText_pre h
    exact ⟨Option.some.inj h1, (debugStr_pre (List.cons.inj h2).2).1⟩

/-- The printable characters of a small world. -/
def asciiPrintable (c : Char) : Bool := 32 ≤ c.toNat && c.toNat < 127

example : (parseTree (chars! "a \"\\n\"")).map (fun r => r.toOption.map (sexpDocument asciiPrintable)) =
    some (some (chars! "(document [-1, -1]\n  (entry\n    (scalar [0, 1] bare \"a\")\n    (scalar [2, 6] quoted \"\\n\"))\n)")) := by
  decide +kernel

/-- Doc comments are not shown. -/
example : (parseTree (chars! "a {/// x\nb 1}")).map (fun r => r.toOption.map (sexpDocument asciiPrintable)) =
    (parseTree (chars! "a {//  x\nb 1}")).map (fun r => r.toOption.map (sexpDocument asciiPrintable)) := by
  decide +kernel

/-! ## C108 -/

/-- **C108** (partial): for every document whose texts contain only characters that Rust prints as they are, line feeds,
carriage returns and tabs, the printers of the three implementations give the same S-expression of the tree.  Names of
tags are letters, digits, `_` and `-`, which Rust prints as they are. -/
theorem C108_partial (pr : Char → Bool) {s : List Char} {v : Value} {es : List Entry} (hs : parseTree s = some (.ok v))
    (he : v.asObject = some es) (hpr : ∀ c : Char, c.isAlphanum = true ∨ c = '_' ∨ c = '-' → pr c = true)
    (ht : Texts (∀ c ∈ ·, c = '\n' ∨ c = '\r' ∨ c = '\t' ∨ pr c = true ∧ 32 ≤ c.toNat) (fun _ => True) v) :
    jsDocument es = sexpDocument pr v ∧ pyDocument es = sexpDocument pr v := by
  have ht : Texts (∀ c ∈ ·, c = '\n' ∨ c = '\r' ∨ c = '\t' ∨ pr c = true ∧ 32 ≤ c.toNat)
      (∀ c ∈ ·, pr c = true ∧ 32 ≤ c.toNat ∧ c ≠ '"' ∧ c ≠ '\\') v := by
    intro x hx
    refine ⟨fun t htag c hc => ?_, (ht x hx).2⟩
    have hc := validName_chars (parseTree_validTags hs x hx t htag) c hc
    obtain ⟨h1, -, h3, h4, -⟩ := tagChar_range hc
    refine ⟨hpr c ?_, by omega, h3, h4⟩
    simpa [Styx.isTagChar, or_assoc] using hc
  obtain ⟨es', rfl, h1⟩ := parsed_placed hs
  cases he
  have h2 : ∀ k w d, Entry.mk k w d ∈ es → Nice pr k ∧ Nice pr w := by
    intro k w d hm
    obtain ⟨p1, p2⟩ := h1 k w d hm
    exact ⟨⟨p1, fun x hx => ht x (.inside (.key hm) hx)⟩, ⟨p2, fun x hx => ht x (.inside (.value hm) hx)⟩⟩
  exact ⟨jsDocument_eq h2, pyDocument_eq h2⟩

/-- **C108**: the printer of Swift, which is that of Python and Go but for the escaping of texts, escapes as these do. -/
theorem C108_swift (s : List Char) : swiftEscape s = pyEscape s := by
  rw [pyEscape_eq]
  refine flatMap_congr' fun c _ => ?_
  simp only [pyChar]
  by_cases h : c = '\\'
  · subst h; decide
  · by_cases h' : c = '"'
    · subst h'; decide
    · simp [h, h']

example : swiftEscape (chars! "a\\\"\n") = (chars! "a\\\\\\\"\\n") := by decide

/-- A document with all kinds of values meets the hypotheses, and the three texts are what they should be. -/
example : ∃ v es, parseTree (chars! "a @t(c \"\\n\")") = some (.ok v) ∧ v.asObject = some es ∧
    (∀ c : Char, c.isAlphanum = true ∨ c = '_' ∨ c = '-' → asciiPrintable c = true) ∧
    Texts (∀ c ∈ ·, c = '\n' ∨ c = '\r' ∨ c = '\t' ∨ asciiPrintable c = true ∧ 32 ≤ c.toNat) (fun _ => True) v ∧
    jsDocument es = (chars! "(document [-1, -1]\n  (entry\n    (scalar [0, 1] bare \"a\")\n    (tag [4, 12] \"t\"\n") ++
      (chars! "      (sequence [4, 12]\n        (scalar [5, 6] bare \"c\")\n        (scalar [7, 11] quoted \"\\n\"))))\n)") := by
  refine ⟨.mk none (some (.object [.mk (.mk none (some (.scalar (chars! "a") .bare (some ⟨0, 1⟩))) (some ⟨0, 1⟩))
    (.mk (some ⟨chars! "t", some ⟨2, 12⟩⟩) (some (.sequence [.mk none (some (.scalar (chars! "c") .bare (some ⟨5, 6⟩))) (some ⟨5, 6⟩),
      .mk none (some (.scalar (chars! "\n") .quoted (some ⟨7, 11⟩))) (some ⟨7, 11⟩)] (some ⟨4, 12⟩))) (some ⟨4, 12⟩)) none] none))
    none, _, by rfl, rfl, fun c hc => ?_, ?_, by decide +kernel⟩
  · obtain ⟨h1, h2, -⟩ := tagChar_range (c := c) (by simpa [Styx.isTagChar, or_assoc] using hc)
    simp only [asciiPrintable, Bool.and_eq_true, decide_eq_true_eq]
    omega
  have leaf : ∀ {text : List Char} {k : ScalarKind} {sp sp' : Option Span} {x : Value},
      Node x (.mk none (some (.scalar text k sp)) sp') → x = .mk none (some (.scalar text k sp)) sp' := by
    intro text k sp sp' x hx
    cases hx with
    | self => rfl
    | inside hc _ => cases hc
  intro x hx
  cases hx with
  | self => exact ⟨(nofun), (nofun)⟩
  | inside hc hx =>
    cases hc with
    | key hm =>
      simp only [List.mem_singleton, Entry.mk.injEq] at hm
      rw [hm.1] at hx
      rw [leaf hx]
      exact ⟨(nofun), fun text k sp h => by cases h; decide⟩
    | value hm =>
      simp only [List.mem_singleton, Entry.mk.injEq] at hm
      rw [hm.2.1] at hx
      cases hx with
      | self => exact ⟨fun _ _ => trivial, (nofun)⟩
      | inside hc hx =>
        cases hc with
        | item hm =>
          simp only [List.mem_cons, List.not_mem_nil, or_false] at hm
          rcases hm with rfl | rfl <;> rw [leaf hx] <;>
            exact ⟨(nofun), fun text k sp h => by cases h; decide⟩

/-- **C108**, errors (partial): for the same syntax error with the same message, all print the same, if the message has only
characters that Rust prints as they are and no quotes. -/
theorem C108_error_partial (pr : Char → Bool) (hpr : ∀ c ∈ (chars! "parse error at0123456789-:"), pr c = true)
    (message : ParseErrorKind → List Char) (unexpected name : List Char) (k : ParseErrorKind) (sp : Span)
    (hm : ∀ c ∈ message k, pr c = true ∧ 32 ≤ c.toNat ∧ c ≠ '"') :
    treeOutput pr message unexpected name (.error (.parse k sp)) =
      chars! "; file: " ++ name ++ '\n' :: jsError (message k) sp ++ ['\n'] ∧
    jsError (message k) sp = pyError (message k) sp ∧ swiftError (message k) sp = pyError (message k) sp := by
  have hplain : ∀ c, pr c = true → 32 ≤ c.toNat → c ≠ '"' → c ≠ '\\' → jsChar c = [c] ∧ debugChar pr c = [c] := by
    intro c h1 h2 h3 h4
    have h0 : CommonChar pr c := .inr (.inr (.inr ⟨h1, h2⟩))
    have h5 : c ≠ '\n' := by rintro rfl; revert h2; decide
    have h6 : c ≠ '\r' := by rintro rfl; revert h2; decide
    have h7 : c ≠ '\t' := by rintro rfl; revert h2; decide
    have h8 : pyChar c = [c] := by simp [pyChar, h3, h4, h5, h6, h7]
    rw [← (common_chars h0).1, (common_chars h0).2, h8]
    exact ⟨rfl, rfl⟩
  have hdigits : ∀ n, ∀ c ∈ Nat.toDigits 10 n, c ∈ (chars! "parse error at0123456789-:") := by
    intro n c hc
    have := Nat.isDigit_of_mem_toDigits (b := 10) (by omega) (by omega) hc
    have hd : ∀ c : Char, c.isDigit = true → c ∈ (chars! "0123456789") := by
      intro c hc
      simp only [Char.isDigit, Bool.and_eq_true, decide_eq_true_eq, ge_iff_le] at hc
      have h1 := UInt32.le_iff_toNat_le.1 hc.1
      have h2 := UInt32.le_iff_toNat_le.1 hc.2
      have e : ∀ d : Char, c.val.toNat = d.val.toNat → c = d := fun d h => Char.toNat_inj.1 h
      have h3 : c.val.toNat = 48 ∨ c.val.toNat = 49 ∨ c.val.toNat = 50 ∨ c.val.toNat = 51 ∨ c.val.toNat = 52 ∨
          c.val.toNat = 53 ∨ c.val.toNat = 54 ∨ c.val.toNat = 55 ∨ c.val.toNat = 56 ∨ c.val.toNat = 57 := by
        have : ('0' : Char).val.toNat = 48 := rfl
        have : ('9' : Char).val.toNat = 57 := rfl
        omega
      rcases h3 with h | h | h | h | h | h | h | h | h | h
      · rw [e '0' h]; decide
      · rw [e '1' h]; decide
      · rw [e '2' h]; decide
      · rw [e '3' h]; decide
      · rw [e '4' h]; decide
      · rw [e '5' h]; decide
      · rw [e '6' h]; decide
      · rw [e '7' h]; decide
      · rw [e '8' h]; decide
      · rw [e '9' h]; decide
    have := hd c this
    revert this
    simp only [List.mem_cons, List.not_mem_nil, or_false]
    grind
  have hsafe : ∀ c ∈ (chars! "parse error at0123456789-:"), pr c = true ∧ 32 ≤ c.toNat ∧ c ≠ '"' ∧ c ≠ '\\' := by
    have h1 : ∀ c ∈ (chars! "parse error at0123456789-:"), 32 ≤ c.toNat ∧ c ≠ '"' ∧ c ≠ '\\' := by decide
    exact fun c hc => ⟨hpr c hc, h1 c hc⟩
  have hid : ∀ {f : Char → List Char} {l : List Char}, (∀ c ∈ l, f c = [c]) → l.flatMap f = l := by
    intro f l
    induction l with
    | nil => intro _; rfl
    | cons c l ih =>
      intro h
      rw [List.flatMap_cons, h c (List.mem_cons_self ..), ih fun d hd => h d (List.mem_cons_of_mem _ hd)]
      rfl
  have hpre : ∀ l : List Char, (∀ c ∈ l, c ∈ (chars! "parse error at0123456789-:")) →
      l.flatMap jsChar = l := by
    intro l hl
    refine hid fun c hc => ?_
    obtain ⟨h1, h2, h3, h4⟩ := hsafe c (hl c hc)
    exact (hplain c h1 h2 h3 h4).1
  have hall : ∀ c ∈ buildErrorText message unexpected (.parse k sp), CommonChar pr c := by
    intro c hc
    have hc' : c ∈ (chars! "parse error at ") ∨ c ∈ Nat.toDigits 10 sp.start ∨ c = '-' ∨ c ∈ Nat.toDigits 10 sp.stop ∨
        c ∈ (chars! ": ") ∨ c ∈ message k := by
      simp only [buildErrorText, List.mem_append, List.mem_cons, List.not_mem_nil] at hc ⊢
      grind
    have hs : ∀ {c}, c ∈ (chars! "parse error at0123456789-:") → CommonChar pr c := fun h =>
      .inr (.inr (.inr ⟨(hsafe _ h).1, (hsafe _ h).2.1⟩))
    rcases hc' with h | h | rfl | h | h | h
    · refine hs ?_
      revert h; simp only [List.mem_cons, List.not_mem_nil, or_false]; grind
    · exact hs (hdigits _ c h)
    · exact hs (by decide)
    · exact hs (hdigits _ c h)
    · refine hs ?_
      revert h; simp only [List.mem_cons, List.not_mem_nil, or_false]; grind
    · exact .inr (.inr (.inr ⟨(hm c h).1, (hm c h).2.1⟩))
  refine ⟨?_, ?_, ?_⟩
  · rw [treeOutput, ← jsEscape_common hall]
    simp [jsError, buildErrorText, buildErrorSpan, spanText]
  · have e1 : (chars! "parse error at ").flatMap jsChar = chars! "parse error at " := by decide
    have e2 : jsEscape (message k) = replaceChar '\\' ['\\', '\\'] (message k) := by
      refine flatMap_congr' fun c hc => ?_
      obtain ⟨h1, h2, h3⟩ := hm c hc
      by_cases h4 : c = '\\'
      · subst h4; decide
      · rw [(hplain c h1 h2 h3 h4).1, if_neg h4]
    have e3 := hpre _ (hdigits sp.start)
    have e4 := hpre _ (hdigits sp.stop)
    have e5 : jsChar '-' = ['-'] := by decide
    have e6 : (chars! ": ").flatMap jsChar = chars! ": " := by decide
    rw [jsError, pyError]
    simp only [jsEscape] at e2 ⊢
    simp only [List.flatMap_append, List.flatMap_cons, e1, e2, e3, e4, e5, e6]
    simp
  · have e : swiftEscape (message k) = replaceChar '\\' ['\\', '\\'] (message k) := by
      refine flatMap_congr' fun c hc => ?_
      obtain ⟨-, h2, h3⟩ := hm c hc
      have h5 : c ≠ '\n' := by rintro rfl; revert h2; decide
      have h6 : c ≠ '\r' := by rintro rfl; revert h2; decide
      have h7 : c ≠ '\t' := by rintro rfl; revert h2; decide
      by_cases h4 : c = '\\'
      · subst h4; decide
      · simp [h3, h4, h5, h6, h7]
    rw [swiftError, pyError, e]

/-- **C108** is false of control characters: the three printers (those of Go and Swift are that of Python) print `\u{1}` in three ways. -/
theorem C108_false (pr : Char → Bool) (h : pr '\x01' = false) : ∃ s v es, parseTree s = some (.ok v) ∧
    v.asObject = some es ∧ jsDocument es ≠ sexpDocument pr v ∧ pyDocument es ≠ sexpDocument pr v ∧
    jsDocument es ≠ pyDocument es := by
  refine ⟨chars! "a \x01", .mk none (some (.object [.mk
    (.mk none (some (.scalar (chars! "a") .bare (some ⟨0, 1⟩))) (some ⟨0, 1⟩))
    (.mk none (some (.scalar ['\x01'] .bare (some ⟨2, 3⟩))) (some ⟨2, 3⟩)) none] none)) none, _, by rfl, rfl, ?_⟩
  have hd : debugChar pr '\x01' = chars! "\\u{1}" := by simp [debugChar, h]; decide
  have hs : ∀ t : List Char, sexpDocument pr (.mk none (some (.object [.mk
      (.mk none (some (.scalar (chars! "a") .bare (some ⟨0, 1⟩))) (some ⟨0, 1⟩))
      (.mk none (some (.scalar ['\x01'] .bare (some ⟨2, 3⟩))) (some ⟨2, 3⟩)) none] none)) none) = t →
      chars! "{1}\"))\n)" <:+ t := by
    rintro t rfl
    simp only [sexpDocument, Value.asObject, sexpEntries, sexpEntry, sexpValue, sexpPayload, debugStr, List.flatMap_cons,
      List.flatMap_nil, hd, List.append_nil]
    refine ⟨(chars! "(document [-1, -1]\n  (entry\n    (scalar [0, 1] bare \"") ++ debugChar pr 'a' ++
      (chars! "\")\n    (scalar [2, 3] bare \"\\u"), ?_⟩
    simp [Value.span, spanText, sexpPad, kindName]
    rfl
  refine ⟨fun e => ?_, fun e => ?_, by decide +kernel⟩
  · have := hs _ e.symm
    revert this; decide +kernel
  · have := hs _ e.symm
    revert this; decide +kernel

end Styx.Props
