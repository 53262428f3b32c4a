import Verif.Text.Lex
import Verif.Text.Fuel
import Verif.Parse.NestLemmas

/-! # Values written as in `Verif.Text.Grammar` are parsed back -/

namespace Styx

open Styx.Spec

/-- Only comments. -/
def CommentEvents (evs : List Event) : Prop := ∀ e ∈ evs, ∃ t, e.kind = .comment t

theorem CommentEvents.nil : CommentEvents [] := fun _ h => by cases h

theorem CommentEvents.append {a b : List Event} (ha : CommentEvents a) (hb : CommentEvents b) :
    CommentEvents (a ++ b) := by
  intro e he
  rcases List.mem_append.1 he with h | h
  · exact ha e h
  · exact hb e h

/-- Lexemes that begin a value. -/
def Lexeme.startsValue : Lexeme → Bool
  | .scalar .. | .unit _ | .tag .. | .objectStart _ | .seqStart _ | .attrKey .. => true
  | _ => false

theorem startsValue_elem {l : Lexeme} (h : l.startsValue = true) :
    l.startsElem = true ∧ l.startsEntry = true ∧ l.startsAtom = true := by
  cases l <;> simp_all [Lexeme.startsValue, Lexeme.startsElem, Lexeme.startsEntry, Lexeme.startsAtom]

theorem lexAt_start {s : List Char} {p : Nat} {l : Lexeme} {ls : List Lexeme} (h : lexAt s p = l :: ls) :
    p ≤ l.span.start := by
  unfold lexAt at h
  rw [lexRun] at h
  have hst := nextLexeme_step (at_any s p) rfl
  generalize hn : nextLexeme ⟨s, p, none⟩ = x at h hst
  obtain ⟨l', t'⟩ := x
  simp only at h
  split at h
  · cases h
  · rename_i he
    cases h
    exact hst.start he

theorem heredocLoop_error (n : Nat) (start : Span) (t : Tok) (content : List Char) (indent : Nat) (l : Lexeme)
    (t' : Tok) (h : lexHeredocLoop n start t content indent = (.error l, t')) (sp : Span) (v : List Char)
    (k : ScalarKind) : l ≠ .scalar sp v k := by
  induction n generalizing t content indent with
  | zero => rw [lexHeredocLoop] at h; cases h; simp
  | succ n ih =>
    rw [lexHeredocLoop] at h
    simp only at h
    split at h
    · exact ih _ _ _ h
    · cases h
    · cases h; simp
    · cases h; simp

theorem bare_lexeme {tok : Token} {t : Tok} {sp : Span} {v : List Char}
    (h : (lexToken tok t).1 = .scalar sp v .bare) : tok.kind = .bareScalar := by
  unfold lexToken at h
  split at h
  case h_13 => assumption
  case h_16 =>
    unfold lexHeredoc at h
    split at h
    · rename_i heq
      simp only at h
      exact absurd h (heredocLoop_error _ _ _ _ _ _ _ heq _ _ _)
    · simp at h
  all_goals first
    | (simp at h; done)
    | ((try simp only at h); split at h <;> simp at h; done)

/-- After a word, no bare scalar begins directly. -/
theorem word_no_bare {rest : List Char} (hf : Follows .word rest) (p : Nat) :
    ∀ sp v r, lexAt rest p = .scalar sp v .bare :: r → sp.start ≠ p := by
  intro sp v r h
  rcases hf with rfl | ⟨c, r', rfl, hc⟩
  · rw [lexAt_nil] at h; cases h
  · simp only [List.mem_cons, List.not_mem_nil, or_false] at hc
    rcases hc with rfl | rfl | rfl | rfl | rfl | rfl | rfl
    · rw [lexAt_blank (.inl rfl)] at h
      have := lexAt_start h
      simp only [Lexeme.span] at this
      omega
    · rw [lexAt_blank (.inr rfl)] at h
      have := lexAt_start h
      simp only [Lexeme.span] at this
      omega
    · rw [show '\n' :: r' = ['\n'] ++ r' from rfl, lexAt_newline (.inl rfl)] at h; cases h
    · unfold lexAt at h
      rw [lexRun] at h
      have h1 : nextLexeme ⟨'\r' :: r', p, none⟩ =
          lexToken (Tok.next ⟨'\r' :: r', p, none⟩).1 (Tok.next ⟨'\r' :: r', p, none⟩).2 := by
        apply nextLexeme_of_ne
        intro hk
        obtain ⟨x, hx⟩ := kind_head '\r' r' p
        rw [hk] at hx
        have := hx.1
        simp_all [KindText]
      rw [h1] at h
      simp only at h
      split at h
      · cases h
      · have h2 := (List.cons.inj h).1
        have h3 := bare_lexeme h2
        exact absurd h3 (not_bare_of_head (by intro c r e; cases e; decide) p)
    · rw [lexAt_comma] at h; cases h
    · rw [lexAt_rbrace] at h; cases h
    · rw [lexAt_rparen] at h; cases h

/-! ## First characters and endings -/

theorem bareText_head {s : List Char} (h : BareText s) :
    ∃ c r, s = c :: r ∧ isBlank c = false ∧ c ≠ '\n' ∧ c ≠ '\r' := by
  obtain ⟨h1, c, r, rfl, -⟩ := h
  have := (h1 c (by simp)).2
  refine ⟨c, r, rfl, ?_, ?_, ?_⟩
  · cases hb : isBlank c with
    | false => rfl
    | true => rcases (isBlank_iff c).1 hb with rfl | rfl <;> simp [isWhitespace] at this
  · rintro rfl; revert this; decide
  · rintro rfl; revert this; decide

theorem scalarText_head {v k e s} (h : ScalarText v k e s) :
    ∃ c r, s = c :: r ∧ isBlank c = false ∧ c ≠ '\n' ∧ c ≠ '\r' := by
  cases h with
  | bare h => exact bareText_head h
  | quoted => exact ⟨'"', _, rfl, by decide, by decide, by decide⟩
  | raw => exact ⟨'r', _, rfl, by decide, by decide, by decide⟩
  | heredoc => exact ⟨'<', _, rfl, by decide, by decide, by decide⟩

theorem attrsText_head {es e t} (h : AttrsText es e t) :
    ∃ c r, t = c :: r ∧ isBlank c = false ∧ c ≠ '\n' ∧ c ≠ '\r' := by
  cases h with
  | one hk _ _ =>
    obtain ⟨c, r, rfl, h⟩ := bareText_head hk
    exact ⟨c, _, rfl, h⟩
  | cons hk _ _ _ _ _ =>
    obtain ⟨c, r, rfl, h⟩ := bareText_head hk
    exact ⟨c, _, rfl, h⟩

theorem valueText_head {v e s} (h : ValueText v e s) :
    ∃ c r, s = c :: r ∧ isBlank c = false ∧ c ≠ '\n' ∧ c ≠ '\r' := by
  cases h with
  | scalar h => exact scalarText_head h
  | unit => exact ⟨'@', _, rfl, by decide, by decide, by decide⟩
  | tag => exact ⟨'@', _, rfl, by decide, by decide, by decide⟩
  | tagged => exact ⟨'@', _, rfl, by decide, by decide, by decide⟩
  | sequence => exact ⟨'(', _, rfl, by decide, by decide, by decide⟩
  | object => exact ⟨'{', _, rfl, by decide, by decide, by decide⟩
  | attributes h => exact attrsText_head h

/-- Not only blanks. -/
def HasInk (t : List Char) : Prop := ∃ c ∈ t, isBlank c = false

theorem HasInk.append_left {a : List Char} (h : HasInk a) (b : List Char) : HasInk (a ++ b) := by
  obtain ⟨c, hc, h⟩ := h
  exact ⟨c, by simp [hc], h⟩

theorem HasInk.append_right {b : List Char} (h : HasInk b) (a : List Char) : HasInk (a ++ b) := by
  obtain ⟨c, hc, h⟩ := h
  exact ⟨c, by simp [hc], h⟩

theorem HasInk.ne_nil {a : List Char} (h : HasInk a) : a ≠ [] := by
  rintro rfl
  obtain ⟨c, hc, -⟩ := h
  cases hc

theorem inkHead {s : List Char} (h : ∃ c r, s = c :: r ∧ isBlank c = false ∧ c ≠ '\n' ∧ c ≠ '\r') : HasInk s := by
  obtain ⟨c, r, rfl, h, -⟩ := h
  exact ⟨c, by simp, h⟩

theorem itemsText_ink {vs t} (h : ItemsText vs t) : HasInk t := by
  cases h with
  | nil _ => exact ⟨')', by simp, by decide⟩
  | cons _ hv _ _ => exact ((inkHead (valueText_head hv)).append_right _).append_left _

theorem keyText_head {k e s} (h : KeyText k e s) :
    ∃ c r, s = c :: r ∧ isBlank c = false ∧ c ≠ '\n' ∧ c ≠ '\r' := by
  cases h with
  | scalar h => exact scalarText_head h
  | unit => exact ⟨'@', _, rfl, by decide, by decide, by decide⟩
  | tag => exact ⟨'@', _, rfl, by decide, by decide, by decide⟩
  | tagged => exact ⟨'@', _, rfl, by decide, by decide, by decide⟩

theorem entriesText_ink {es t} (h : EntriesText es t) : HasInk t := by
  cases h with
  | nil _ => exact ⟨'}', by simp, by decide⟩
  | cons _ _ hk _ _ _ _ _ _ _ =>
    exact ((((((inkHead (keyText_head hk)).append_right _).append_left _).append_left _).append_left _)).append_left _
  | lone _ _ hk _ _ _ _ =>
    exact ((((inkHead (keyText_head hk)).append_right _).append_left _)).append_left _

theorem atLineEnd_append {x : List Char} (h : AtLineEnd x) (hx : x ≠ []) (rest : List Char) : AtLineEnd (x ++ rest) := by
  rcases h with rfl | ⟨r, rfl⟩ | ⟨r, rfl⟩
  · exact absurd rfl hx
  · exact .inr (.inl ⟨r ++ rest, rfl⟩)
  · exact .inr (.inr ⟨r ++ rest, rfl⟩)

theorem not_ink_blanks {b : List Char} (hb : Blanks b) : ¬ HasInk b := by
  rintro ⟨c, hc, h⟩
  have := (blank_iff c).1 (hb c hc)
  simp_all

theorem follows_append {e : Tail} {x : List Char} (h : Follows e x) (hx : HasInk x) (rest : List Char) :
    Follows e (x ++ rest) := by
  induction e with
  | closed => trivial
  | word =>
    rcases h with rfl | ⟨c, r, rfl, hc⟩
    · exact absurd rfl hx.ne_nil
    · exact .inr ⟨c, r ++ rest, rfl, hc⟩
  | line => exact atLineEnd_append h hx.ne_nil rest
  | attrs last ih =>
    refine ⟨ih h.1, ?_⟩
    obtain ⟨b, u, rfl, hb, hu⟩ := h.2
    have hun : u ≠ [] := by
      rintro rfl
      rw [List.append_nil] at hx
      exact not_ink_blanks hb hx
    refine ⟨b, u ++ rest, by simp, hb, ?_⟩
    rcases hu with hu | ⟨c, r, rfl, hc⟩ | ⟨r, rfl⟩
    · exact .inl (atLineEnd_append hu hun rest)
    · exact .inr (.inl ⟨c, r ++ rest, rfl, hc⟩)
    · exact .inr (.inr ⟨r ++ rest, rfl⟩)

theorem entryEnd_append {tr t : List Char} (h : EntryEnd tr t) (ht : HasInk t) (rest : List Char) :
    EntryEnd tr (t ++ rest) := by
  unfold EntryEnd at *
  split at h
  · rename_i htr
    rw [if_pos htr]
    obtain ⟨b, u, rfl, hb, hu⟩ := h
    have hun : u ≠ [] := by
      rintro rfl
      rw [List.append_nil] at ht
      exact not_ink_blanks hb ht
    refine ⟨b, u ++ rest, by simp, hb, ?_⟩
    rcases hu with hu | ⟨c, r, rfl, hc⟩
    · exact .inl (atLineEnd_append hu hun rest)
    · exact .inr ⟨c, r ++ rest, rfl, hc⟩
  · rename_i htr
    rw [if_neg htr]
    exact atLineEnd_append h ht.ne_nil rest

/-! ## Payloads of tags -/

theorem bareText_no_payload {n s x : List Char} (h : BareText s) (hx : x.head? ≠ some '"' ∧ x.head? ≠ some '#') :
    ¬ PayloadStart n (s ++ x) := by
  obtain ⟨h1, c, r, rfl, h2, -, h3, -⟩ := h
  rintro ⟨c', r', he, hc⟩
  cases he
  have hf := (h1 c (by simp)).1
  rcases hc with rfl | rfl | ⟨rfl, -⟩ | ⟨rfl, hr⟩
  · revert hf; decide
  · revert hf; decide
  · revert hf; decide
  · cases r with
    | nil => rcases hr with hr | hr <;> simp_all
    | cons d r =>
      have hd := (h1 d (by simp)).1
      have hr : some d = some '#' ∨ some d = some '"' := hr
      simp only [Option.some.injEq] at hr
      rcases hr with rfl | rfl
      · exact h3 ⟨rfl, rfl⟩
      · revert hd; decide

theorem payload_kind {v e n s} (h : ValueText v e s) (hv : v.tag = none) (hp : PayloadStart n s) (rest : List Char)
    (q : Nat) : (Tok.next ⟨s ++ rest, q, none⟩).1.kind.isPayload = true := by
  cases h with
  | scalar h =>
    cases h with
    | bare h => exact absurd (by simpa using hp) (bareText_no_payload (x := []) h (by simp))
    | quoted hb he =>
      rename_i body
      have := next_quoted hb rest q
      rw [show '"' :: body ++ ['"'] ++ rest = '"' :: body ++ '"' :: rest by simp, this]
      rfl
    | raw hn hc => rw [next_raw hn hc rest q]; rfl
    | heredoc =>
      obtain ⟨c, r, he, hc⟩ := hp
      simp only [List.cons_append, List.cons.injEq] at he
      obtain ⟨rfl, -⟩ := he
      simp at hc
  | unit =>
    obtain ⟨c, r, he, hc⟩ := hp
    cases he
    simp at hc
  | tag => cases hv
  | tagged => cases hv
  | sequence => rfl
  | object => rfl
  | attributes h =>
    exfalso
    cases h with
    | one hk _ _ => exact bareText_no_payload hk (by simp) hp
    | cons hk _ _ _ _ _ =>
      simp only [List.append_assoc, List.cons_append] at hp
      exact bareText_no_payload hk (by simp) hp

/-! ## Keys -/

/-- The key with which the parser remembers a key. -/
def kvOf : Option (List Char) × Option (List Char) → KeyValue
  | (none, some v) => .scalar v
  | (none, none) => .unit
  | (some n, none) => .tagged n none
  | (some n, some v) => .tagged n (some (.scalar v))

theorem kvOf_beq (a b : Option (List Char) × Option (List Char)) :
    KeyValue.beq (kvOf a) (kvOf b) = decide (a = b) := by
  obtain ⟨a1, a2⟩ := a
  obtain ⟨b1, b2⟩ := b
  cases a1 <;> cases a2 <;> cases b1 <;> cases b2 <;> simp [kvOf, KeyValue.beq] <;> grind

theorem escErrEvents_plain {v : List Char} (h : '\\' ∉ v) (b : Nat) : escErrEvents b v = [] := by
  unfold escErrEvents
  rw [validateEscapes_plain h]
  rfl

/-- How a key is read. -/
structure KeyRead (input : List Char) (k : Value) (s rest : List Char) (p : Nat) (l : Lexeme) (ls : List Lexeme)
    (a : Atom) : Prop where
  lex : lexAt (s ++ rest) p = l :: ls
  atom : PAtom input l ls a [] (lexAt rest (p + utf8Len s))
  key : kinds (emitKey a) = [keyEventOf k]
  kv : KeyValue.fromAtom a = kvOf (keyId k)
  stop : a.span.stop = p + utf8Len s
  first : l.startsValue = true
  notObj : ∀ sp, l ≠ .objectStart sp
  scalar : ∀ sp v kk, a = .scalar sp v kk → kk ≠ .heredoc ∧ k = scalarValue v kk

theorem utf8Len_at (n : List Char) : utf8Len ('@' :: n) = 1 + utf8Len n := by
  have : '@'.utf8Size = 1 := rfl
  rw [utf8Len_cons, this]

theorem keyText_reads (input : List Char) {k e s rest} (h : KeyText k e s) (hf : Follows e rest) (p : Nat) :
    ∃ l ls a, KeyRead input k s rest p l ls a := by
  cases h with
  | scalar h hk =>
    refine ⟨_, _, _, lexAt_scalar h hf p, .scalar _ _ _, rfl, rfl, rfl, rfl, by simp, ?_⟩
    intro sp v kk e
    cases e
    exact ⟨hk, rfl⟩
  | unit =>
    refine ⟨_, _, _, lexAt_unit hf p, .unit (lexAt_no_eof _ _) (word_no_bare hf _), rfl, rfl, rfl, rfl, by simp, ?_⟩
    intro sp v kk e
    cases e
  | tag hn =>
    rename_i n
    refine ⟨_, _, _, lexAt_tag hn hf p, .tag (lexAt_no_eof _ _) (splitSlashAt_name (no_slash hn)) (validTag hn)
      ?_ (word_no_bare hf _), rfl, rfl, rfl, rfl, by simp, ?_⟩
    · rw [utf8Len_at]; simp only; omega
    · intro sp v kk e; cases e
  | tagged hn hs hp hq =>
    rename_i n v kk s
    have hl := lexAt_tagPayload hn hp p (payload_kind (.scalar hs) rfl hp rest)
    rw [lexAt_scalar hs hf] at hl
    have hspan : utf8Len ('@' :: n ++ s) = utf8Len ('@' :: n) + utf8Len s := utf8Len_append _ _
    refine ⟨.tag ⟨p, p + utf8Len ('@' :: n)⟩ n true,
      .scalar ⟨p + utf8Len ('@' :: n), p + utf8Len ('@' :: n) + utf8Len s⟩ v kk ::
        lexAt rest (p + utf8Len ('@' :: n) + utf8Len s),
      .tag ⟨p, p + utf8Len ('@' :: n) + utf8Len s⟩ n
        (some (.scalar ⟨p + utf8Len ('@' :: n), p + utf8Len ('@' :: n) + utf8Len s⟩ v kk)) false none,
      ?_, ?_, ?_, ?_, ?_, ?_, ?_, ?_⟩
    · rw [List.append_assoc]; exact hl
    · rw [hspan, ← Nat.add_assoc]
      exact .tagPayload (splitSlashAt_name (no_slash hn)) (validTag hn) (by rw [utf8Len_at]; simp only; omega)
        (.scalar _ _ _)
    · simp only [emitKey, Bool.false_eq_true, if_false, List.nil_append]
      by_cases hkq : kk = .quoted
      · rw [if_pos hkq, escErrEvents_plain (hq hkq)]; rfl
      · rw [if_neg hkq]; rfl
    · rfl
    · rw [hspan, ← Nat.add_assoc]; rfl
    · rfl
    · simp
    · intro sp v kk e; cases e

/-! ## Doc comments -/

/-- The doc comments among lexemes. -/
def docsOf : List Lexeme → List (Span × List Char)
  | [] => []
  | .docComment sp text :: ls => (sp, text) :: docsOf ls
  | _ :: ls => docsOf ls

theorem docsOf_append (a b : List Lexeme) : docsOf (a ++ b) = docsOf a ++ docsOf b := by
  induction a with
  | nil => rfl
  | cons l a ih => cases l <;> simp [docsOf, ih]

theorem docsOf_gap {ls : List Lexeme} (h : ∀ l ∈ ls, l.isGap = true) : docsOf ls = [] := by
  induction ls with
  | nil => rfl
  | cons l ls ih =>
    have h1 := h l (by simp)
    have h2 := ih (fun x hx => h x (by simp [hx]))
    cases l <;> simp_all [docsOf, Lexeme.isGap]

/-- Lexemes that stand before an entry. -/
def Lexeme.isLead : Lexeme → Bool
  | .docComment _ _ => true
  | l => l.isGap

theorem isGap_isLead {l : Lexeme} (h : l.isGap = true) : l.isLead = true := by
  cases l <;> simp_all [Lexeme.isLead, Lexeme.isGap]

theorem stripDoc_line {l body : List Char} (h : body = ' ' :: l ∨ (body = l ∧ l.head? ≠ some ' ')) :
    stripDoc ('/' :: '/' :: '/' :: body) = l := by
  rcases h with rfl | ⟨rfl, h⟩
  · rfl
  · unfold stripDoc
    cases body with
    | nil => rfl
    | cons c r =>
      have : c ≠ ' ' := fun e => h (by simp [e])
      have h' : ¬ ' ' = c := fun e => this e.symm
      simp [stripPrefix, h']

theorem lexAt_docLines {ls : List (List Char)} {dt : List Char} (h : DocLines ls dt) (rest : List Char) (p : Nat) :
    ∃ ds, lexAt (dt ++ rest) p = ds ++ lexAt rest (p + utf8Len dt) ∧ (∀ l ∈ ds, l.isLead = true) ∧
      (docsOf ds).map (fun d => stripDoc d.2) = ls := by
  induction h generalizing p with
  | nil => exact ⟨[], rfl, by simp, rfl⟩
  | cons hb hl hn hg _ ih =>
    rename_i l body n g ls t _
    have hbody : ∀ c ∈ body, c ≠ '\n' ∧ c ≠ '\r' := by
      rcases hb with rfl | ⟨rfl, -⟩
      · intro c hc
        rcases List.mem_cons.1 hc with rfl | hc
        · decide
        · exact hl c hc
      · exact hl
    have hend : AtLineEnd (n ++ (g ++ (t ++ rest))) := by
      rcases hn with rfl | rfl
      · exact .inr (.inl ⟨_, rfl⟩)
      · exact .inr (.inr ⟨_, rfl⟩)
    obtain ⟨gs, h1, h2, -⟩ := lexAt_gap hg (t ++ rest)
      (p + utf8Len ('/' :: '/' :: '/' :: body) + utf8Len n)
    obtain ⟨ds, h3, h4, h5⟩ := ih (p + utf8Len ('/' :: '/' :: '/' :: body) + utf8Len n + utf8Len g)
    refine ⟨.docComment ⟨p, p + utf8Len ('/' :: '/' :: '/' :: body)⟩ ('/' :: '/' :: '/' :: body) ::
      .newline ⟨p + utf8Len ('/' :: '/' :: '/' :: body), p + utf8Len ('/' :: '/' :: '/' :: body) + utf8Len n⟩ ::
      (gs ++ ds), ?_, ?_, ?_⟩
    · have e1 : '/' :: '/' :: '/' :: body ++ n ++ g ++ t ++ rest =
          '/' :: '/' :: '/' :: body ++ (n ++ (g ++ (t ++ rest))) := by simp
      rw [e1, lexAt_doc hbody hend, lexAt_newline hn, h1, h3]
      have e2 : utf8Len ('/' :: '/' :: '/' :: body ++ n ++ g ++ t) =
          utf8Len ('/' :: '/' :: '/' :: body) + utf8Len n + utf8Len g + utf8Len t := by
        simp only [utf8Len_append]
      rw [e2]
      simp [Nat.add_assoc]
    · intro x hx
      simp only [List.mem_cons, List.mem_append] at hx
      rcases hx with rfl | rfl | hx | hx
      · rfl
      · rfl
      · exact isGap_isLead (h2 x hx)
      · exact h4 x hx
    · simp only [docsOf, docsOf_append, docsOf_gap h2, List.nil_append, List.map_cons, h5]
      rw [stripDoc_line hb]

theorem PObj.leads {input start entries seen dups docs ls a evs ls'} {ds : List Lexeme}
    (hd : ∀ l ∈ ds, l.isLead = true)
    (h : PObj input start entries seen dups ((docsOf ds).reverse ++ docs) ls a evs ls') :
    PObj input start entries seen dups docs (ds ++ ls) a evs ls' := by
  induction ds generalizing docs with
  | nil => exact h
  | cons d ds ih =>
    have h1 := hd d (by simp)
    have ih := fun docs h => ih (docs := docs) (fun x hx => hd x (by simp [hx])) h
    cases d <;> simp only [Lexeme.isLead, Lexeme.isGap, Bool.false_eq_true] at h1
    case docComment sp text =>
      refine .doc (ih _ ?_)
      simpa [docsOf] using h
    all_goals exact .skip rfl (ih _ (by simpa [docsOf] using h))

theorem combineDocs_lines {ds : List (Span × List Char)} {ls : List (List Char)}
    (h : ds.map (fun d => stripDoc d.2) = ls) :
    (ls = [] ∧ combineDocs ds = none) ∨ ∃ sp, ls ≠ [] ∧ combineDocs ds = some (sp, ls) := by
  cases ds with
  | nil => exact .inl ⟨h.symm, rfl⟩
  | cons d ds =>
    refine .inr ⟨⟨d.1.start, ((d :: ds).getLastD d).1.stop⟩, ?_, ?_⟩
    · rintro rfl; cases h
    · rw [combineDocs, h]

/-! ## Ends of entries -/

theorem PRest.trailing {input first only tr t} (ht : Trailing tr) (he : EntryEnd tr t) (p : Nat) :
    ∃ evs, PRest input first only (lexAt (tr ++ t) p) [] evs (lexAt t (p + utf8Len tr)) ∧ CommentEvents evs := by
  cases ht with
  | none =>
    refine ⟨[], .stop (lexAt_no_eof _ _) ?_, .nil⟩
    rw [EntryEnd, if_pos rfl] at he
    obtain ⟨b, u, rfl, hb, hu⟩ := he
    intro l r hl
    rw [List.nil_append, lexAt_blanks hb] at hl
    rcases hu with (rfl | ⟨x, rfl⟩ | ⟨x, rfl⟩) | ⟨c, x, rfl, rfl | rfl⟩
    · rw [lexAt_nil] at hl; cases hl
    · rw [show '\n' :: x = ['\n'] ++ x from rfl, lexAt_newline (.inl rfl)] at hl; cases hl; rfl
    · rw [show '\r' :: '\n' :: x = ['\r', '\n'] ++ x from rfl, lexAt_newline (.inr rfl)] at hl; cases hl; rfl
    · rw [lexAt_comma] at hl; cases hl; rfl
    · rw [lexAt_rbrace] at hl; cases hl; rfl
  | comment hb hc =>
    rename_i b c
    have hne : b ++ c ≠ [] := by
      obtain ⟨r, rfl, -⟩ := hc
      simp
    rw [EntryEnd, if_neg hne] at he
    rw [List.append_assoc, lexAt_blanks hb, lexAt_comment hc he, utf8Len_append, ← Nat.add_assoc]
    refine ⟨_, .comment, ?_⟩
    intro e he
    simp only [List.mem_singleton] at he
    subst he
    exact ⟨_, rfl⟩

/-! ## Values -/

theorem lineRest_no_attr {rest : List Char} (h : LineRest rest) (p : Nat) :
    ∀ s k key r, lexAt rest p ≠ .attrKey s k key :: r := by
  intro s k key r hl
  obtain ⟨b, u, rfl, hb, hu⟩ := h
  rw [lexAt_blanks hb] at hl
  rcases hu with (rfl | ⟨x, rfl⟩ | ⟨x, rfl⟩) | ⟨c, x, rfl, hc⟩ | ⟨x, rfl⟩
  · rw [lexAt_nil] at hl; cases hl
  · rw [show '\n' :: x = ['\n'] ++ x from rfl, lexAt_newline (.inl rfl)] at hl; cases hl
  · rw [show '\r' :: '\n' :: x = ['\r', '\n'] ++ x from rfl, lexAt_newline (.inr rfl)] at hl; cases hl
  · simp only [List.mem_cons, List.not_mem_nil, or_false] at hc
    rcases hc with rfl | rfl | rfl
    · rw [lexAt_comma] at hl; cases hl
    · rw [lexAt_rbrace] at hl; cases hl
    · rw [lexAt_rparen] at hl; cases hl
  · unfold lexAt at hl
    rw [lexRun] at hl
    by_cases hx : x.head? = some '/'
    · obtain ⟨y, rfl⟩ : ∃ y, x = '/' :: y := by
        cases x with
        | nil => cases hx
        | cons c y => simp only [List.head?_cons, Option.some.injEq] at hx; exact ⟨y, by rw [hx]⟩
      have hn : ((nextLexeme ⟨'/' :: '/' :: '/' :: y, p + utf8Len b, none⟩).1 : Lexeme) =
          .docComment ⟨p + utf8Len b, _⟩ _ := rfl
      simp only [hn] at hl
      rw [if_neg (by simp)] at hl
      cases hl
    · have hk : (Tok.next ⟨'/' :: '/' :: x, p + utf8Len b, none⟩).1.kind = .lineComment := by
        unfold Tok.next
        cases x with
        | nil => simp [Tok.emit]
        | cons c y =>
          have : c ≠ '/' := fun e => hx (by simp [e])
          simp [Tok.emit, this]
      have hn : ((nextLexeme ⟨'/' :: '/' :: x, p + utf8Len b, none⟩).1 : Lexeme) =
          .comment (Tok.next ⟨'/' :: '/' :: x, p + utf8Len b, none⟩).1.span
            (Tok.next ⟨'/' :: '/' :: x, p + utf8Len b, none⟩).1.text := by
        rw [nextLexeme_of_ne (by rw [hk]; simp)]
        unfold lexToken
        rw [hk]
      simp only [hn] at hl
      rw [if_neg (by simp)] at hl
      cases hl

theorem PSeq.gaps {input start elems commas ls a evs ls'} {gs : List Lexeme} (h1 : ∀ l ∈ gs, l.isGap = true)
    (h2 : ∀ l ∈ gs, ∀ sp, l ≠ .comma sp) (h : PSeq input start elems commas ls a evs ls') :
    PSeq input start elems commas (gs ++ ls) a evs ls' := by
  induction gs with
  | nil => exact h
  | cons g gs ih =>
    refine .skip ?_ (ih (fun x hx => h1 x (by simp [hx])) (fun x hx => h2 x (by simp [hx])))
    have h3 := h1 g (by simp)
    have h4 := h2 g (by simp)
    cases g <;> simp_all [Lexeme.isGap, Lexeme.seqSkip]

theorem lookupKey_fresh {k : KeyValue} {seen : List (KeyValue × Span)} (h : ∀ x ∈ seen, KeyValue.beq k x.1 = false) :
    lookupKey k seen = none := by
  induction seen with
  | nil => rfl
  | cons x seen ih =>
    obtain ⟨k', s⟩ := x
    rw [lookupKey, if_neg (by simpa using h _ (List.mem_cons_self ..))]
    exact ih (fun y hy => h y (by simp [hy]))

/-- The text `s` is read as the value `v`, when `rest` follows. -/
def ReadsAt (input : List Char) (v : Value) (s rest : List Char) (p : Nat) : Prop :=
  ∃ l ls a evs, lexAt (s ++ rest) p = l :: ls ∧ PAtom input l ls a evs (lexAt rest (p + utf8Len s)) ∧
    CommentEvents evs ∧ ValueOf (kinds (emitValue a)) v ∧ l.startsValue = true ∧ l.span.start = p ∧
    pathValueKind [a] = pathKind v

/-- The text `t` is read as the items `vs`. -/
def ReadsItems (input : List Char) (vs : List Value) (t rest : List Char) (p : Nat) : Prop :=
  ∀ start elems, ∃ sp new evs, PSeq input start elems [] (lexAt (t ++ rest) p)
      (.sequence sp (elems.reverse ++ new) false []) evs (lexAt rest (p + utf8Len t)) ∧
    CommentEvents evs ∧ ValuesOf (kinds (emitElems new)) vs

/-- The text `t` is read as the entries `es`. -/
def ReadsEntries (input : List Char) (es : List Entry) (t rest : List Char) (p : Nat) : Prop :=
  ∀ start entries seen, DistinctKeys es →
    (∀ e ∈ es, ∀ x ∈ seen, KeyValue.beq (kvOf (keyId (entryKey e))) x.1 = false) →
    ∃ sp new evs, PObj input start entries seen [] [] (lexAt (t ++ rest) p)
      (.object sp (entries.reverse ++ new) [] [] false) evs (lexAt rest (p + utf8Len t)) ∧
    CommentEvents evs ∧ EntriesOf none (kinds (emitEntries new)) es

/-- The text `t` is read as attributes. -/
def ReadsAttrs (input : List Char) (es : List Entry) (t rest : List Char) (p : Nat) : Prop :=
  ∃ sp ks key l ls v evs ls' as evs', lexAt (t ++ rest) p = .attrKey sp ks key :: l :: ls ∧ sp.start = p ∧
    PAtom input l ls v evs ls' ∧ PAttrs input ls' as evs' (lexAt rest (p + utf8Len t)) ∧
    CommentEvents evs ∧ CommentEvents evs' ∧
    EntriesOf none (kinds (emitAttrs (.mk key ks v :: as))) es

theorem kinds_emitAttr (key : List Char) (ks : Span) (v : Atom) (as : List AttrEntry) :
    kinds (emitAttrs (.mk key ks v :: as)) =
      .entryStart :: .key none (some key) .bare :: kinds (emitValue v) ++ .entryEnd :: kinds (emitAttrs as) := by
  rw [emitAttrs]
  simp [kinds]

/-- The events of an entry that is read. -/
theorem entriesOf_entry {key value : Atom} {doc} {k v : Value} {ls : List (List Char)} {new es}
    (hd : (ls = [] ∧ doc = none) ∨ ∃ sp, ls ≠ [] ∧ doc = some (sp, ls))
    (hk : kinds (emitKey key) = [keyEventOf k]) (hkf : ∃ t p kk, k = .mk (t.map fun n => ⟨n, none⟩) (p.map fun text => .scalar text kk none) none ∧ keyEventOf k = .key t p kk)
    (hv : ValueOf (kinds (emitValue value)) v) (hn : EntriesOf none (kinds (emitEntries new)) es) :
    EntriesOf none (kinds (emitEntries (.mk key value doc none :: new))) (.mk k v (docOf ls) :: es) := by
  obtain ⟨t, p, kk, rfl, hke⟩ := hkf
  have hent : ∀ d, EntriesOf d (.entryStart :: .key t p kk :: kinds (emitValue value) ++ .entryEnd :: kinds (emitEntries new))
      (.mk (.mk (t.map fun n => ⟨n, none⟩) (p.map fun text => .scalar text kk none) none) v d :: es) :=
    fun d => .entry t p kk hv hn
  have hkk : ∀ pre, kinds (pre ++ ⟨key.span, .entryStart⟩ :: emitKey key ++ emitValue value ++ [⟨value.span, .entryEnd⟩] ++
      emitEntries new) = kinds pre ++ (.entryStart :: .key t p kk :: kinds (emitValue value) ++ .entryEnd :: kinds (emitEntries new)) := by
    intro pre
    rw [hke] at hk
    simp only [kinds_append, kinds_cons, List.append_assoc, List.cons_append, hk]
    rfl
  rcases hd with ⟨rfl, rfl⟩ | ⟨sp, hne, rfl⟩
  · rw [emitEntries]
    rw [hkk]
    exact hent none
  · rw [emitEntries]
    rw [hkk]
    have := hent (docOf ls)
    refine .doc ls ?_
    cases ls with
    | nil => exact absurd rfl hne
    | cons l ls => exact this

theorem keyText_form {k e s} (h : KeyText k e s) : ∃ t p kk,
    k = .mk (t.map fun n => ⟨n, none⟩) (p.map fun text => .scalar text kk none) none ∧ keyEventOf k = .key t p kk := by
  cases h with
  | scalar => exact ⟨none, some _, _, rfl, rfl⟩
  | unit => exact ⟨none, none, .bare, rfl, rfl⟩
  | tag => exact ⟨some _, none, .bare, rfl, rfl⟩
  | tagged => exact ⟨some _, some _, _, rfl, rfl⟩

theorem keyText_tail {k e s} (h : KeyText k e s) : e = .word ∨ e = .closed := by
  cases h with
  | scalar h hk =>
    cases h with
    | bare => exact .inl rfl
    | quoted => exact .inr rfl
    | raw => exact .inr rfl
    | heredoc => exact absurd rfl hk
  | unit => exact .inl rfl
  | tag => exact .inl rfl
  | tagged _ hs hp _ =>
    cases hs with
    | bare => exact .inl rfl
    | quoted => exact .inr rfl
    | raw => exact .inr rfl
    | heredoc =>
      obtain ⟨c, r, he, hc⟩ := hp
      simp only [List.cons_append, List.cons.injEq] at he
      obtain ⟨rfl, -⟩ := he
      simp at hc

theorem follows_blank {e : Tail} (he : e = .word ∨ e = .closed) {b : List Char} (hb : Blanks b) (hn : b ≠ [])
    (x : List Char) : Follows e (b ++ x) := by
  rcases he with rfl | rfl
  · cases b with
    | nil => exact absurd rfl hn
    | cons c b => exact .inr ⟨c, b ++ x, rfl, by rcases hb c (by simp) with rfl | rfl <;> simp⟩
  · trivial

theorem keyText_blank {k e s} (h : KeyText k e s) {b : List Char} (hb : Blanks b) (hn : b ≠ [])
    (x : List Char) : Follows e (b ++ x) := follows_blank (keyText_tail h) hb hn x

/-- One entry of an object: from its atoms to the whole object. -/
theorem readsEntries_step {input es t' rest k v ke ls} {p' : Nat → Nat} {dt ks tl : List Char} {g : List Char} {p : Nat}
    (hg : Gap true g) (hd : DocLines ls dt) (hkf : KeyText k ke ks)
    (hc : ∀ q, ∃ l lx key rest' evs, lexAt (ks ++ tl) q = l :: lx ∧ l.startsEntry = true ∧
      PCollect input l lx key rest' evs (lexAt (t' ++ rest) (p' q)) ∧ CommentEvents evs ∧
      kinds (emitKey key) = [keyEventOf k] ∧ KeyValue.fromAtom key = kvOf (keyId k) ∧
      (entryValue key rest').2 = none ∧ ValueOf (kinds (emitValue (entryValue key rest').1)) v)
    (ih : ∀ q, ReadsEntries input es t' rest q) (start entries seen)
    (hdist : DistinctKeys (.mk k v (docOf ls) :: es))
    (hfresh : ∀ e ∈ Entry.mk k v (docOf ls) :: es, ∀ x ∈ seen, KeyValue.beq (kvOf (keyId (entryKey e))) x.1 = false) :
    ∃ sp new evs, PObj input start entries seen [] [] (lexAt (g ++ (dt ++ (ks ++ tl))) p)
      (.object sp (entries.reverse ++ new) [] [] false) evs
      (lexAt rest (p' (p + utf8Len g + utf8Len dt) + utf8Len t')) ∧
    CommentEvents evs ∧ EntriesOf none (kinds (emitEntries new)) (.mk k v (docOf ls) :: es) := by
  obtain ⟨gs, h1, h2, -⟩ := lexAt_gap hg (dt ++ (ks ++ tl)) p
  obtain ⟨ds, h3, h4, h5⟩ := lexAt_docLines hd (ks ++ tl) (p + utf8Len g)
  obtain ⟨l, lx, key, rest', evs, h6, h7, h8, h9, h10, h11, h12, h13⟩ := hc (p + utf8Len g + utf8Len dt)
  have hpw := List.pairwise_cons.1 (show ((Entry.mk k v (docOf ls) :: es).map fun e => keyId (entryKey e)).Pairwise (· ≠ ·) from hdist)
  have hnote : noteKey key seen [] = ((kvOf (keyId k), key.span) :: seen, []) := by
    unfold noteKey
    rw [h11, lookupKey_fresh]
    intro x hx
    exact hfresh _ (List.mem_cons_self ..) x hx
  have hcd := combineDocs_lines h5
  obtain ⟨sp, new, evs', g1, g2, g3⟩ := ih (p' (p + utf8Len g + utf8Len dt)) start
    (.mk key (entryValue key rest').1 (combineDocs (docsOf ds)) none :: entries) ((kvOf (keyId k), key.span) :: seen)
    hpw.2 (by
      intro e he x hx
      rcases List.mem_cons.1 hx with rfl | hx
      · rw [kvOf_beq]
        have := hpw.1 (keyId (entryKey e)) (List.mem_map.2 ⟨e, he, rfl⟩)
        simp only [decide_eq_false_iff_not]
        exact fun h => this h.symm
      · exact hfresh e (by simp [he]) x hx)
  refine ⟨sp, .mk key (entryValue key rest').1 (combineDocs (docsOf ds)) none :: new, evs ++ evs', ?_, h9.append g2, ?_⟩
  · rw [h1, h3, h6]
    have hgs : ∀ l ∈ gs ++ ds, l.isLead = true := by
      intro x hx
      rcases List.mem_append.1 hx with hx | hx
      · exact isGap_isLead (h2 x hx)
      · exact h4 x hx
    rw [← List.append_assoc]
    refine .leads hgs ?_
    rw [docsOf_append, docsOf_gap h2, List.nil_append, List.append_nil]
    refine .entry h7 h8 ?_
    rw [hnote, h12, List.reverse_reverse]
    simpa using g1
  · exact entriesOf_entry hcd h10 (keyText_form hkf) h13 g3

theorem valueText_reads (input : List Char) {v e s} (h : ValueText v e s) :
    ∀ rest p, Follows e rest → ReadsAt input v s rest p := by
  refine ValueText.rec
    (motive_1 := fun v e s _ => ∀ rest p, Follows e rest → ReadsAt input v s rest p)
    (motive_2 := fun vs t _ => ∀ rest p, ReadsItems input vs t rest p)
    (motive_3 := fun es t _ => ∀ rest p, ReadsEntries input es t rest p)
    (motive_4 := fun es e t _ => ∀ rest p, Follows e rest → LineRest rest → ReadsAttrs input es t rest p)
    ?_ ?_ ?_ ?_ ?_ ?_ ?_ ?_ ?_ ?_ ?_ ?_ ?_ ?_ h
  · -- scalar
    intro v k e s h rest p hf
    exact ⟨_, _, _, _, lexAt_scalar h hf p, .scalar _ _ _, .nil, .scalar v k, rfl, rfl, rfl⟩
  · -- unit
    intro rest p hf
    exact ⟨_, _, _, _, lexAt_unit hf p, .unit (lexAt_no_eof _ _) (word_no_bare hf _), .nil, .unit, rfl, rfl, rfl⟩
  · -- tag
    intro n hn rest p hf
    refine ⟨_, _, _, _, lexAt_tag hn hf p, .tag (lexAt_no_eof _ _) (splitSlashAt_name (no_slash hn)) (validTag hn)
      ?_ (word_no_bare hf _), .nil, .bareTag n, rfl, rfl, rfl⟩
    rw [utf8Len_at]; simp only; omega
  · -- tagged
    intro n q e s hn hv hp ih rest p hf
    obtain ⟨l, ls, a, evs, h1, h2, h3, h4, h5, h6, h7⟩ := ih rest (p + utf8Len ('@' :: n)) hf
    have hl := lexAt_tagPayload hn hp p (payload_kind hv rfl hp rest)
    have hspan : utf8Len ('@' :: n ++ s) = utf8Len ('@' :: n) + utf8Len s := utf8Len_append _ _
    refine ⟨.tag ⟨p, p + utf8Len ('@' :: n)⟩ n true, l :: ls,
      .tag ⟨p, a.span.stop⟩ n (some a) false none, evs, ?_, ?_, h3, ?_, rfl, rfl, rfl⟩
    · rw [List.append_assoc, hl, h1]
    · rw [hspan, ← Nat.add_assoc]
      exact .tagPayload (splitSlashAt_name (no_slash hn)) (validTag hn) (by rw [utf8Len_at]; simp only; omega) h2
    · have := ValueOf.tag n h4
      rw [emitValue]
      simp only [Bool.false_eq_true, if_false, List.nil_append, kinds_append, kinds_cons, emitPayload]
      exact this
  · -- sequence
    intro vs t _ ih rest p hf
    obtain ⟨sp, new, evs, h1, h2, h3⟩ := ih rest (p + 1) ⟨p, p + 1⟩ []
    refine ⟨_, _, _, evs, lexAt_lparen _ p, .sequence (a := .sequence sp new false []) ?_, h2, ?_, rfl, rfl, rfl⟩
    · have : utf8Len ('(' :: t) = 1 + utf8Len t := by rw [utf8Len_cons]; rfl
      rw [this, ← Nat.add_assoc]
      exact h1
    · rw [emitValue]
      simp only [Bool.false_eq_true, if_false, List.map_nil, List.append_nil, kinds_append, kinds_cons]
      exact .sequence h3
  · -- object
    intro es t _ hd ih rest p hf
    obtain ⟨sp, new, evs, h1, h2, h3⟩ := ih rest (p + 1) ⟨p, p + 1⟩ [] [] hd (by simp)
    refine ⟨_, _, _, evs, lexAt_lbrace _ p, .object (a := .object sp new [] [] false) ?_, h2, ?_, rfl, rfl, rfl⟩
    · have : utf8Len ('{' :: t) = 1 + utf8Len t := by rw [utf8Len_cons]; rfl
      rw [this, ← Nat.add_assoc]
      exact h1
    · rw [emitValue]
      simp only [Bool.false_eq_true, if_false, List.map_nil, List.append_nil, kinds_append, kinds_cons]
      exact .object h3
  · -- attributes
    intro es e t _ ih rest p hf
    obtain ⟨sp, ks, key, l, ls, v, evs, ls', as, evs', h1, h2, h3, h4, h5, h6, h7⟩ := ih rest p hf.1 hf.2
    refine ⟨_, _, _, evs ++ evs', h1, .attrs h3 h4, h5.append h6, ?_, rfl, h2, rfl⟩
    rw [emitValue]
    simp only [kinds_append, kinds_cons]
    exact .object h7
  · -- no items
    intro g hg rest p start elems
    obtain ⟨gs, h1, h2, h3⟩ := lexAt_gap hg (')' :: rest) p
    refine ⟨⟨start.start, p + utf8Len g + 1⟩, [], [], ?_, .nil, .nil⟩
    rw [List.append_assoc, List.singleton_append, h1, lexAt_rparen, utf8Len_append, List.append_nil]
    exact .gaps h2 (h3 rfl) .close
  · -- an item
    intro g v e s vs t hg _ hts hf ihv ihs rest p start elems
    obtain ⟨gs, h1, h2, h3⟩ := lexAt_gap hg (s ++ (t ++ rest)) p
    obtain ⟨l, ls, a, evs, g1, g2, g3, g4, g5, g6, g7⟩ := ihv (t ++ rest) (p + utf8Len g)
      (follows_append hf (itemsText_ink hts) rest)
    obtain ⟨sp, new, evs', k1, k2, k3⟩ := ihs rest (p + utf8Len g + utf8Len s) start (a :: elems)
    refine ⟨sp, a :: new, evs ++ evs', ?_, g3.append k2, ?_⟩
    · have e1 : g ++ s ++ t ++ rest = g ++ (s ++ (t ++ rest)) := by simp
      rw [e1, h1, g1, utf8Len_append, utf8Len_append, ← Nat.add_assoc, ← Nat.add_assoc]
      refine .gaps h2 (h3 rfl) (.elem (startsValue_elem g5).1 g2 ?_)
      simpa using k1
    · rw [emitElems, kinds_append]
      exact .cons g4 k3
  · -- no entries
    intro g hg rest p start entries seen _ _
    obtain ⟨gs, h1, h2, -⟩ := lexAt_gap hg ('}' :: rest) p
    refine ⟨⟨start.start, p + utf8Len g + 1⟩, [], [], ?_, .nil, .nil none⟩
    rw [List.append_assoc, List.singleton_append, h1, lexAt_rbrace, utf8Len_append, List.append_nil]
    refine .leads (fun l hl => isGap_isLead (h2 l hl)) ?_
    rw [docsOf_gap h2]
    exact .close
  · -- an entry with a value
    intro g ls dt k ke ks b v e s tr es t hg hd hk hb hbn hv htr hes hf hend ihv ihs rest p start entries seen
      hdist hfresh
    have hink := entriesText_ink hes
    have hstep := readsEntries_step (input := input) (tl := b ++ (s ++ (tr ++ (t ++ rest)))) (rest := rest) (t' := t)
      (p := p) (p' := fun q => q + utf8Len ks + utf8Len b + utf8Len s + utf8Len tr) hg hd hk (v := v) (es := es) ?_
      (fun q => ihs rest q) start entries seen hdist hfresh
    · obtain ⟨sp, new, evs, h1, h2, h3⟩ := hstep
      refine ⟨sp, new, evs, ?_, h2, h3⟩
      have e1 : g ++ dt ++ ks ++ b ++ s ++ tr ++ t ++ rest =
          g ++ (dt ++ (ks ++ (b ++ (s ++ (tr ++ (t ++ rest)))))) := by simp
      rw [e1]
      simp only [utf8Len_append, Nat.add_assoc] at h1 ⊢
      exact h1
    · intro q
      have hfk : Follows ke (b ++ (s ++ (tr ++ (t ++ rest)))) :=
        keyText_blank hk hb hbn _
      obtain ⟨l, lx, a, hkr⟩ := keyText_reads input hk hfk q
      have hf' : Follows e (tr ++ (t ++ rest)) := by
        rw [← List.append_assoc]
        exact follows_append hf (hink.append_right _) rest
      obtain ⟨l2, lx2, a2, evs, g1, g2, g3, g4, g5, g6, g7⟩ :=
        ihv (tr ++ (t ++ rest)) (q + utf8Len ks + utf8Len b) hf'
      obtain ⟨evs', k1, k2⟩ := PRest.trailing (input := input) (first := a) (only := false) htr
        (entryEnd_append hend hink rest) (q + utf8Len ks + utf8Len b + utf8Len s)
      have hms : missingSpace a true l2 = [] := by
        have hlen : 0 < utf8Len b := by
          cases b with
          | nil => exact absurd rfl hbn
          | cons c b =>
            rw [utf8Len_cons]
            have := Char.utf8Size_pos c
            omega
        have hst := hkr.stop
        unfold missingSpace
        split
        · rename_i sp _
          simp only [Lexeme.span] at g6
          rw [if_neg (by omega)]
        · rename_i sp _
          simp only [Lexeme.span] at g6
          rw [if_neg (by omega)]
        · rfl
      refine ⟨l, lx, a, [a2], [] ++ (missingSpace a true l2 ++ evs ++ evs'), hkr.lex, (startsValue_elem hkr.first).2.1, ?_, ?_,
        hkr.key, hkr.kv, rfl, g4⟩
      · refine .mk hkr.atom ?_
        rw [lexAt_blanks hb, g1]
        exact .more (startsValue_elem g5).2.2 g2 k1
      · rw [hms]
        exact g3.append k2
  · -- an entry without a value
    intro g ls dt k ke ks tr es t hg hd hk htr hes hf hend ihs rest p start entries seen hdist hfresh
    have hink := entriesText_ink hes
    have hstep := readsEntries_step (input := input) (tl := tr ++ (t ++ rest)) (rest := rest) (t' := t)
      (p := p) (p' := fun q => q + utf8Len ks + utf8Len tr) hg hd hk (v := .mk none none none) (es := es) ?_
      (fun q => ihs rest q) start entries seen hdist hfresh
    · obtain ⟨sp, new, evs, h1, h2, h3⟩ := hstep
      refine ⟨sp, new, evs, ?_, h2, h3⟩
      have e1 : g ++ dt ++ ks ++ tr ++ t ++ rest = g ++ (dt ++ (ks ++ (tr ++ (t ++ rest)))) := by simp
      rw [e1]
      simp only [utf8Len_append, Nat.add_assoc] at h1 ⊢
      exact h1
    · intro q
      have hf' : Follows ke (tr ++ (t ++ rest)) := by
        rw [← List.append_assoc]
        exact follows_append hf (hink.append_right _) rest
      obtain ⟨l, lx, a, hkr⟩ := keyText_reads input hk hf' q
      obtain ⟨evs', k1, k2⟩ := PRest.trailing (input := input) (first := a) (only := true) htr
        (entryEnd_append hend hink rest) (q + utf8Len ks)
      exact ⟨l, lx, a, [], [] ++ evs', hkr.lex, (startsValue_elem hkr.first).2.1, .mk hkr.atom k1, k2, hkr.key, hkr.kv,
        rfl, .unit⟩
  · -- one attribute
    intro k v e s hk hv _ ihv rest p hf hlr
    obtain ⟨c, r, hs, hc⟩ := valueText_head hv
    have hl := lexAt_attrKey (s := s ++ rest) hk ⟨c, r ++ rest, by rw [hs]; rfl, hc⟩ p
    obtain ⟨l, lx, a, evs, g1, g2, g3, g4, g5, g6, g7⟩ := ihv rest (p + utf8Len k + 1) hf
    have hspan : utf8Len (k ++ '>' :: s) = utf8Len k + 1 + utf8Len s := by
      rw [utf8Len_append, utf8Len_cons]
      have : '>'.utf8Size = 1 := rfl
      omega
    refine ⟨⟨p, p + utf8Len k + 1⟩, ⟨p, p + utf8Len k⟩, k, l, lx, a, evs,
      lexAt rest (p + utf8Len k + 1 + utf8Len s), [], [], ?_, rfl, g2, ?_, g3, .nil, ?_⟩
    · rw [← g1, ← hl]; simp
    · rw [hspan, ← Nat.add_assoc, ← Nat.add_assoc]
      exact .stop (lexAt_no_eof _ _) (lineRest_no_attr hlr _)
    · rw [kinds_emitAttr]
      exact .entry none (some k) .bare g4 (.nil none)
  · -- several attributes
    intro k v e s b es e' t hk hv _ hb hat hfe ihv iha rest p hf hlr
    obtain ⟨c, r, hs, hc⟩ := valueText_head hv
    have hl := lexAt_attrKey (s := s ++ (b ++ (t ++ rest))) hk ⟨c, r ++ (b ++ (t ++ rest)), by rw [hs]; rfl, hc⟩ p
    have hf1 : Follows e (b ++ (t ++ rest)) := by
      rw [← List.append_assoc]
      exact follows_append hfe ((inkHead (attrsText_head hat)).append_right _) rest
    obtain ⟨l, lx, a, evs, g1, g2, g3, g4, g5, g6, g7⟩ := ihv (b ++ (t ++ rest)) (p + utf8Len k + 1) hf1
    obtain ⟨sp, ks, key, l', ls, v', evs', ls', as, evs'', h1, h2, h3, h4, h5, h6, h7⟩ :=
      iha rest (p + utf8Len k + 1 + utf8Len s + utf8Len b) hf hlr
    have hspan : utf8Len (k ++ '>' :: s ++ b ++ t) = utf8Len k + 1 + utf8Len s + utf8Len b + utf8Len t := by
      simp only [utf8Len_append, utf8Len_cons]
      have : '>'.utf8Size = 1 := rfl
      omega
    rw [lexAt_blanks hb, h1] at g2
    refine ⟨⟨p, p + utf8Len k + 1⟩, ⟨p, p + utf8Len k⟩, k, l, lx, a, evs, _, .mk key ks v' :: as, evs' ++ evs'', ?_, rfl, g2,
      ?_, g3, h5.append h6, ?_⟩
    · rw [← g1, ← hl]; simp
    · rw [hspan]
      simp only [Nat.add_assoc] at h4 ⊢
      exact .attr h3 h4
    · rw [kinds_emitAttr]
      exact .entry none (some k) .bare g4 h7

end Styx
