import Verif.Serde.Write
import Verif.Serde.Safe
import Verif.Cst.Toks
import Verif.Cli.Lemmas
import Verif.Schema.Lemmas

/-! # The deserializer reads back what the serializer writes -/

namespace Styx.Serde

open Styx.Spec Styx.Cst

/-- Does the deserializer see the token? -/
def seen (t : Token) : Bool :=
  t.kind != .whitespace && t.kind != .lineComment && t.kind != .newline && t.kind != .eof

/-- The tokens that the deserializer sees of `s`, which begins at byte `p`. -/
def sigAt (s : List Char) (p : Nat) : List Token := (toksAt s p).filter seen

theorem significant_eq (s : List Char) : significant s = sigAt s 0 := by
  have h : tokenize s = Tok.run ((Tok.mk s 0 none).measure + 1) ⟨s, 0, none⟩ := by
    unfold tokenize
    exact run_fuel _ _ _ (by simp [Tok.new, Tok.measure]) (by simp [Tok.new, Tok.measure])
  unfold significant sigAt toksAt toksFrom
  rw [← h, List.filter_append]
  have h2 : ([⟨.eof, 0 + utf8Len s, 0 + utf8Len s, []⟩] : List Token).filter seen = [] := rfl
  simp only at h2 ⊢
  rw [h2, List.append_nil]
  refine List.filter_congr fun t ht => ?_
  have := (run_kind (s.length + 2) (Tok.new s) (tokInv_new s) t ht).2
  simp [seen, this]

theorem sig_nil (p : Nat) : sigAt [] p = [] := rfl

theorem sig_cons {s s' : List Char} {p p' : Nat} {t : Token} (h : toksAt s p = t :: toksAt s' p')
    (ht : seen t = true) : sigAt s p = t :: sigAt s' p' := by
  unfold sigAt; rw [h, List.filter_cons_of_pos ht]

theorem sig_skip {s s' : List Char} {p p' : Nat} {t : Token} (h : toksAt s p = t :: toksAt s' p')
    (ht : seen t = false) : sigAt s p = sigAt s' p' := by
  unfold sigAt; rw [h, List.filter_cons_of_neg (by simp [ht])]

theorem sig_space (s : List Char) (p : Nat) : sigAt (' ' :: s) p = sigAt s (p + 1) := by
  obtain ⟨b, s', -, -, -, h1, h2⟩ := toks_blank (c := ' ') (.inl rfl) s p
  rw [sig_skip h1 rfl]
  rcases h2 with h2 | ⟨b', h2⟩
  · unfold sigAt; rw [h2]
  · exact (sig_skip h2 rfl).symm

theorem sig_newline (s : List Char) (p : Nat) : sigAt ('\n' :: s) p = sigAt s (p + 1) :=
  sig_skip (toks_newline (n := ['\n']) (.inl rfl) s p) rfl

theorem sig_lparen (s : List Char) (p : Nat) : sigAt ('(' :: s) p = ⟨.lparen, p, p + 1, ['(']⟩ :: sigAt s (p + 1) :=
  sig_cons (toks_lparen s p) rfl
theorem sig_rparen (s : List Char) (p : Nat) : sigAt (')' :: s) p = ⟨.rparen, p, p + 1, [')']⟩ :: sigAt s (p + 1) :=
  sig_cons (toks_rparen s p) rfl
theorem sig_lbrace (s : List Char) (p : Nat) : sigAt ('{' :: s) p = ⟨.lbrace, p, p + 1, ['{']⟩ :: sigAt s (p + 1) :=
  sig_cons (toks_lbrace s p) rfl
theorem sig_rbrace (s : List Char) (p : Nat) : sigAt ('}' :: s) p = ⟨.rbrace, p, p + 1, ['}']⟩ :: sigAt s (p + 1) :=
  sig_cons (toks_rbrace s p) rfl
theorem sig_comma (s : List Char) (p : Nat) : sigAt (',' :: s) p = ⟨.comma, p, p + 1, [',']⟩ :: sigAt s (p + 1) :=
  sig_cons (toks_comma s p) rfl
theorem sig_gt (s : List Char) (p : Nat) : sigAt ('>' :: s) p = ⟨.gt, p, p + 1, ['>']⟩ :: sigAt s (p + 1) :=
  sig_cons (toks_gt s p) rfl
theorem sig_unit {rest : List Char} (hf : Follows .word rest) (p : Nat) :
    sigAt ('@' :: rest) p = ⟨.at, p, p + 1, ['@']⟩ :: sigAt rest (p + 1) :=
  sig_cons (toks_unit hf p) rfl

theorem sig_bare {s rest : List Char} (hs : BareText s) (hf : Follows .word rest) (p : Nat) :
    sigAt (s ++ rest) p = ⟨.bareScalar, p, p + utf8Len s, s⟩ :: sigAt rest (p + utf8Len s) :=
  sig_cons (toks_bare hs (follows_word hf).1 (follows_word hf).2.1 p) rfl

theorem unescape_quotes {body v : List Char} (h : Escaped body v) : unescape ('"' :: body ++ ['"']) = v := by
  simp only [unescape, List.cons_append, List.getLast?_append, List.getLast?_singleton, Option.some_or, if_true,
    List.dropLast_concat]
  exact fmtUnescape_escaped h

theorem sig_quoted {body v : List Char} (hb : QuotedBody body) (he : Escaped body v) (rest : List Char) (p : Nat) :
    ∃ t q, sigAt ('"' :: body ++ ['"'] ++ rest) p = t :: sigAt rest q ∧ t.kind = .quotedScalar ∧ unescape t.text = v ∧
      t.text = '"' :: body ++ ['"'] := by
  have := next_quoted hb rest p
  rw [show '"' :: body ++ ['"'] ++ rest = '"' :: body ++ '"' :: rest by simp]
  exact ⟨_, _, sig_cons (toksFrom_cons this (by simp)) rfl, rfl, unescape_quotes he, rfl⟩

theorem sig_raw {n : Nat} {c : List Char} (hn : n ≤ 255) (hc : ∀ a b, c ≠ a ++ '"' :: List.replicate n '#' ++ b)
    (rest : List Char) (p : Nat) :
    ∃ t q, sigAt ('r' :: List.replicate n '#' ++ '"' :: c ++ '"' :: List.replicate n '#' ++ rest) p = t :: sigAt rest q ∧
      t.kind = .rawScalar ∧ rawInner t.text = some c := by
  refine ⟨_, _, sig_cons (toksFrom_cons (next_raw hn hc rest p) (by simp)) rfl, rfl, ?_⟩
  refine rawInner_eq ?_ (replicate_noQuote _)
  intro h
  rcases List.mem_cons.1 h with h | h
  · revert h; decide
  · exact replicate_noQuote _ h

/-- The token of a string. -/
theorem sig_string {o : FormatOptions} {s rest : List Char} (h : PlainString o false s) (hf : Follows .word rest)
    (p : Nat) :
    ∃ t q, sigAt (scalarText o false s ++ rest) p = t :: sigAt rest q ∧
      (t.kind = .bareScalar ∧ t.text = s ∨ t.kind = .quotedScalar ∧ unescape t.text = s ∨
        t.kind = .rawScalar ∧ rawInner t.text = some s) := by
  obtain ⟨k, e, hs, he⟩ := scalarText_ok h false
  generalize scalarText o false s = text at hs
  cases hs with
  | bare hb => exact ⟨_, _, sig_bare hb hf p, .inl ⟨rfl, rfl⟩⟩
  | quoted hb hx =>
    obtain ⟨t, q, h1, h2, h3, -⟩ := sig_quoted hb hx rest p
    exact ⟨t, q, h1, .inr (.inl ⟨h2, h3⟩)⟩
  | raw hn hc =>
    obtain ⟨t, q, h1, h2, h3⟩ := sig_raw hn hc rest p
    exact ⟨t, q, h1, .inr (.inr ⟨h2, h3⟩)⟩
  | heredoc => simp at he

theorem sig_key {k rest : List Char} (h : PlainKey k) (hf : Follows .word rest) (p : Nat) :
    ∃ t q, sigAt (keyText k ++ rest) p = t :: sigAt rest q ∧
      (t.kind = .bareScalar ∧ t.text = k ∨ t.kind = .quotedScalar ∧ unescape t.text = k) := by
  unfold keyText
  split
  · rename_i hb
    exact ⟨_, _, sig_bare (bareText_of_canBeBare hb (h hb)) hf p, .inl ⟨rfl, rfl⟩⟩
  · obtain ⟨t, q, h1, h2, h3, -⟩ := sig_quoted (escapeQuoted_body k) (escapeQuoted_escaped k) rest p
    exact ⟨t, q, h1, .inr ⟨h2, h3⟩⟩

theorem digitsVal_append (xs ys : List Char) (a : Nat) :
    Schema.digitsVal (xs ++ ys) a = (Schema.digitsVal xs a).bind (Schema.digitsVal ys) := by
  induction xs generalizing a with
  | nil => rfl
  | cons c xs ih =>
    rw [List.cons_append, Schema.digitsVal, Schema.digitsVal]
    split
    · exact ih _
    · rfl

theorem digitsVal_decimal (n : Nat) : Schema.digitsVal (decimal n) 0 = some n := by
  have one : ∀ a m, m < 10 → Schema.digitsVal [digit m] a = some (a * 10 + m) := by
    intro a m hm
    have : m = 0 ∨ m = 1 ∨ m = 2 ∨ m = 3 ∨ m = 4 ∨ m = 5 ∨ m = 6 ∨ m = 7 ∨ m = 8 ∨ m = 9 := by omega
    rcases this with h | h | h | h | h | h | h | h | h | h <;> subst h <;> rfl
  fun_induction decimal n with
  | case1 n hn => simpa using one 0 n hn
  | case2 n hn ih =>
    rw [digitsVal_append, ih]
    simp only [Option.bind_some, one (n / 10) (n % 10) (Nat.mod_lt _ (by decide))]
    congr 1; omega

theorem parseSigned_intText (n : Int) : Schema.parseSigned (intText n) = some n := by
  have hd := fun m => decimal_digits m
  cases n with
  | ofNat n =>
    rw [intText, Cli.showNat_decimal]
    have h := digitsVal_decimal n
    cases hn : decimal n with
    | nil => exact absurd hn (decimal_ne_nil n)
    | cons c cs =>
      rw [hn] at h
      have hc := hd n c (by simp [hn])
      unfold Schema.parseSigned
      split
      all_goals first
        | (rename_i e; cases e; revert hc; decide)
        | simp_all
  | negSucc n =>
    rw [intText, Cli.showNat_decimal]
    have h := digitsVal_decimal (n + 1)
    cases hn : decimal (n + 1) with
    | nil => exact absurd hn (decimal_ne_nil (n + 1))
    | cons c cs =>
      rw [hn] at h
      have : Schema.parseSigned ('-' :: c :: cs) = (Schema.digitsVal (c :: cs) 0).map fun n => -Int.ofNat n := rfl
      rw [this, h]
      rfl

theorem digit_cases {c : Char} (h : c.isDigit = true) :
    c ∈ ['0', '1', '2', '3', '4', '5', '6', '7', '8', '9'] := by
  have h1 : 48 ≤ c.toNat ∧ c.toNat ≤ 57 := by
    simp only [Char.isDigit, Bool.and_eq_true, decide_eq_true_eq] at h
    exact ⟨h.1, h.2⟩
  have h2 := Char.ofNat_toNat c
  have : c.toNat = 48 ∨ c.toNat = 49 ∨ c.toNat = 50 ∨ c.toNat = 51 ∨ c.toNat = 52 ∨ c.toNat = 53 ∨ c.toNat = 54 ∨
      c.toNat = 55 ∨ c.toNat = 56 ∨ c.toNat = 57 := by omega
  rcases this with e | e | e | e | e | e | e | e | e | e <;> rw [e] at h2 <;> rw [← h2] <;> decide

theorem number_char {c : Char} (h : c.isDigit = true ∨ c = '-') :
    (c ∉ bareForbidden ∧ isWhitespace c = false) ∧ c ∉ ['=', '@'] ∧ c ≠ '/' ∧ c ≠ 'r' ∧ c ≠ '<' := by
  rcases h with h | rfl
  · have := digit_cases h
    simp only [List.mem_cons, List.not_mem_nil, or_false] at this
    rcases this with rfl | rfl | rfl | rfl | rfl | rfl | rfl | rfl | rfl | rfl <;> decide
  · decide

theorem number_bare {s : List Char} (hs : s ≠ []) (h : ∀ c ∈ s, c.isDigit = true ∨ c = '-') : BareText s := by
  refine ⟨fun c hc => (number_char (h c hc)).1, ?_⟩
  cases s with
  | nil => exact absurd rfl hs
  | cons c r =>
    obtain ⟨-, h1, h2, h3, h4⟩ := number_char (h c (by simp))
    exact ⟨c, r, rfl, h1, fun e => h2 e.1, fun e => h3 e.1, fun e => h4 e.1⟩

theorem intText_bare (n : Int) : BareText (intText n) := by
  cases n with
  | ofNat n =>
    rw [intText, Cli.showNat_decimal]
    exact number_bare (decimal_ne_nil n) fun c hc => .inl (decimal_digits n c hc)
  | negSucc n =>
    rw [intText, Cli.showNat_decimal]
    refine number_bare (by simp) fun c hc => ?_
    rcases List.mem_cons.1 hc with rfl | hc
    · exact .inr rfl
    · exact .inl (decimal_digits _ c hc)

theorem true_bare : BareText (chars! "true") :=
  ⟨by decide, 't', chars! "rue", rfl, by decide, by decide, by decide, by decide⟩

theorem false_bare : BareText (chars! "false") :=
  ⟨by decide, 'f', chars! "alse", rfl, by decide, by decide, by decide, by decide⟩

theorem sig_tokens (s : List Char) (p : Nat) : Tokens (sigAt s p) := by
  intro t ht
  unfold sigAt toksAt toksFrom at ht
  obtain ⟨h1, h2⟩ := List.mem_filter.1 ht
  rcases List.mem_append.1 h1 with h1 | h1
  · exact (run_kind _ _ (tokInv_none rfl) t h1).1
  · rw [List.mem_singleton.1 h1] at h2
    simp [seen] at h2

/-- The token of a character. -/
theorem sig_char {o : FormatOptions} {c : Char} {rest : List Char}
    (h : o.heredocThreshold ≤ countNewlines [c] → canBeBare [c] = true) (hf : Follows .word rest) (p : Nat) :
    ∃ t q, sigAt (scalarText o false [c] ++ rest) p = t :: sigAt rest q ∧
      ((t.kind = .bareScalar ∨ t.kind = .gt) ∧ t.text = [c] ∨ t.kind = .quotedScalar ∧ unescape t.text = [c]) := by
  by_cases hb : canBeBare [c] = true
  · have e : scalarText o false [c] = [c] := by simp [scalarText, hb]
    rw [e]
    by_cases hg : c = '>'
    · subst hg
      exact ⟨_, _, sig_gt rest p, .inl ⟨.inr rfl, rfl⟩⟩
    · exact ⟨_, _, sig_bare (bareText_of_canBeBare hb (by simpa using fun e => hg e.symm)) hf p, .inl ⟨.inl rfl, rfl⟩⟩
  · have hr : ¬ (3 < countEscapes [c]) := by
      have : countEscapes [c] ≤ [c].length := List.countP_le_length
      simp only [List.length_cons, List.length_nil] at this
      omega
    have e : scalarText o false [c] = quotedText [c] := by
      have h1 : ¬ o.heredocThreshold ≤ countNewlines [c] := fun h' => hb (h h')
      simp [scalarText, hb, h1, hr]
    rw [e]
    obtain ⟨t, q, h1, h2, h3, -⟩ := sig_quoted (escapeQuoted_body [c]) (escapeQuoted_escaped [c]) rest p
    exact ⟨t, q, h1, .inr ⟨h2, h3⟩⟩

theorem hexDigit_good {n : Nat} (h : n < 16) : isHexDigit (hexDigit n) = true ∧ hexVal (hexDigit n) = n ∧
    hexDigit n ≠ '"' ∧ hexDigit n ≠ '\\' ∧ hexDigit n ≠ '+' := by
  have : n = 0 ∨ n = 1 ∨ n = 2 ∨ n = 3 ∨ n = 4 ∨ n = 5 ∨ n = 6 ∨ n = 7 ∨ n = 8 ∨ n = 9 ∨ n = 10 ∨ n = 11 ∨ n = 12 ∨
    n = 13 ∨ n = 14 ∨ n = 15 := by omega
  rcases this with rfl | rfl | rfl | rfl | rfl | rfl | rfl | rfl | rfl | rfl | rfl | rfl | rfl | rfl | rfl | rfl <;> decide

/-- The digits of bytes. -/
def hexText (bs : List UInt8) : List Char := bs.flatMap fun b => [hexDigit (b.toNat / 16), hexDigit (b.toNat % 16)]

theorem hexBytes_hexText (bs : List UInt8) : hexBytes (hexText bs) = some bs := by
  induction bs with
  | nil => rfl
  | cons b bs ih =>
    have hb : b.toNat < 256 := b.toNat_lt
    obtain ⟨h1, h2, -, -, h3⟩ := hexDigit_good (n := b.toNat / 16) (by omega)
    obtain ⟨g1, g2, -⟩ := hexDigit_good (n := b.toNat % 16) (by omega)
    have e : hexText (b :: bs) = hexDigit (b.toNat / 16) :: hexDigit (b.toNat % 16) :: hexText bs := rfl
    rw [e, hexBytes, hexByte, if_neg h3, h1, g1, h2, g2, ih]
    simp only [Bool.and_self, if_true, Option.bind_some, Option.map_some]
    congr 2
    rw [Nat.div_add_mod]
    simp

theorem hexText_body (bs : List UInt8) : QuotedBody (hexText bs) := by
  induction bs with
  | nil => exact .nil
  | cons b bs ih =>
    have hb : b.toNat < 256 := b.toNat_lt
    obtain ⟨-, -, h1, h2, -⟩ := hexDigit_good (n := b.toNat / 16) (by omega)
    obtain ⟨-, -, g1, g2, -⟩ := hexDigit_good (n := b.toNat % 16) (by omega)
    exact .plain h1 h2 (.plain g1 g2 ih)

theorem sig_bytes (bs : List UInt8) (rest : List Char) (p : Nat) :
    ∃ t q, sigAt ('"' :: hexText bs ++ ['"'] ++ rest) p = t :: sigAt rest q ∧ t.kind = .quotedScalar ∧
      t.text = '"' :: hexText bs ++ ['"'] := by
  have := next_quoted (hexText_body bs) rest p
  rw [show '"' :: hexText bs ++ ['"'] ++ rest = '"' :: hexText bs ++ '"' :: rest by simp]
  exact ⟨_, _, sig_cons (toksFrom_cons this (by simp)) rfl, rfl, rfl⟩

/-- The first token of a value. -/
theorem sig_start {o : FormatOptions} {rest : List Char} (hf : Follows .word rest) (p : Nat) : ∀ (d : Data),
    Survives o d → ∃ t ts, sigAt (dataText o d ++ rest) p = t :: ts ∧ t.kind ≠ .comma ∧ t.kind ≠ .rparen ∧
      (notUnit d → t.kind ≠ .at)
  | .unit, h => ⟨_, _, sig_unit hf p, by simp, by simp, fun h => h.elim⟩
  | .none, h => ⟨_, _, sig_unit hf p, by simp, by simp, fun h => h.elim⟩
  | .bool true, h => ⟨_, _, sig_bare true_bare hf p, by simp, by simp, by simp⟩
  | .bool false, h => ⟨_, _, sig_bare false_bare hf p, by simp, by simp, by simp⟩
  | .int n, h => ⟨_, _, sig_bare (intText_bare n) hf p, by simp, by simp, by simp⟩
  | .char c, h => by
    obtain ⟨t, q, h1, h2⟩ := sig_char h hf p
    refine ⟨t, _, h1, ?_⟩
    rcases h2 with ⟨h2 | h2, -⟩ | ⟨h2, -⟩ <;> simp [h2]
  | .str s, h => by
    obtain ⟨t, q, h1, h2⟩ := sig_string h hf p
    refine ⟨t, _, h1, ?_⟩
    rcases h2 with ⟨h2, -⟩ | ⟨h2, -⟩ | ⟨h2, -⟩ <;> simp [h2]
  | .bytes bs, h => by
    obtain ⟨t, q, h1, h2, -⟩ := sig_bytes bs rest p
    exact ⟨t, _, h1, by simp [h2]⟩
  | .some d, h => by
    obtain ⟨t, ts, h1, h2, h3, h4⟩ := sig_start hf p d h.1
    exact ⟨t, ts, h1, h2, h3, fun _ => h4 h.2⟩
  | .seq ds, h => ⟨_, _, sig_lparen _ p, by simp, by simp, by simp⟩
  | .fields fs, h => ⟨_, _, sig_lbrace _ p, by simp, by simp, by simp⟩
  | .unitVariant _, h | .newtypeVariant _ _, h | .tupleVariant _ _, h | .structVariant _ _, h => h.elim

/-- Values of the type are read back. -/
def Reads (o : FormatOptions) (t : Ty) : Prop :=
  ∀ d, HasTy t d → Survives o d → ∀ rest p, Follows .word rest →
    ∃ q, de t (sigAt (dataText o d ++ rest) p) = .ok (d, sigAt rest q)

theorem items_follow (o : FormatOptions) (ds : List Data) (rest : List Char) :
    Follows .word (itemsText o false ds ++ rest) := by
  cases ds with
  | nil => exact .inr ⟨')', rest, by simp [itemsText], by simp⟩
  | cons d ds => exact .inr ⟨' ', dataText o d ++ itemsText o false ds ++ rest, by simp [itemsText], by simp⟩

theorem fields_follow (o : FormatOptions) (fs : List Field) (rest : List Char) :
    Follows .word (fieldsText o false fs ++ rest) := by
  cases fs with
  | nil => exact .inr ⟨'}', rest, by simp [fieldsText], by simp⟩
  | cons f fs =>
    obtain ⟨k, d⟩ := f
    exact .inr ⟨',', ' ' :: (keyText k ++ ' ' :: (dataText o d ++ fieldsText o false fs)) ++ rest,
      by simp [fieldsText], by simp⟩

theorem root_follow (o : FormatOptions) (fs : List Field) : Follows .word (rootFieldsText o false fs) := by
  cases fs with
  | nil => exact .inr ⟨'\n', [], by simp [rootFieldsText], by simp⟩
  | cons f fs =>
    obtain ⟨k, d⟩ := f
    exact .inr ⟨'\n', '\n' :: (keyText k ++ ' ' :: (dataText o d ++ rootFieldsText o false fs)),
      by simp [rootFieldsText], by simp⟩

theorem nextElement_read {o : FormatOptions} {t : Ty} (ht : Reads o t) {d : Data} (hd : HasTy t d) (hs : Survives o d)
    {rest : List Char} (hf : Follows .word rest) (p : Nat) :
    ∃ q, nextElement (de t) (sigAt (dataText o d ++ rest) p) = .ok (some d, sigAt rest q) := by
  obtain ⟨t', ts, h1, h2, h3, -⟩ := sig_start hf p d hs
  obtain ⟨q, hq⟩ := ht d hd hs rest p hf
  refine ⟨q, ?_⟩
  rw [h1] at hq ⊢
  rw [nextElement, skipComma, if_neg h2]
  simp only [h3, if_false, hq]
  rfl

theorem seq_read {o : FormatOptions} {t : Ty} (ht : Reads o t) (rest : List Char) (ds : List Data) :
    ∀ (first : Bool) (acc : List Data) (n p : Nat), (∀ d ∈ ds, HasTy t d) → SurviveAll o ds →
      (sigAt (itemsText o first ds ++ rest) p).length < n →
      ∃ q, seqLoop (de t) n acc (sigAt (itemsText o first ds ++ rest) p) = .ok (.seq (acc ++ ds), sigAt rest q) := by
  induction ds with
  | nil =>
    intro first acc n p _ _ hn
    obtain ⟨n, rfl⟩ : ∃ m, n = m + 1 := ⟨n - 1, by omega⟩
    have e : itemsText o first [] ++ rest = ')' :: rest := by simp [itemsText]
    refine ⟨p + 1, ?_⟩
    rw [e, sig_rparen, seqLoop]
    simp [nextElement, skipComma, Out.bind]
  | cons d ds ih =>
    intro first acc n p hd hs hn
    obtain ⟨n, rfl⟩ : ∃ m, n = m + 1 := ⟨n - 1, by omega⟩
    have e : ∃ p', sigAt (itemsText o first (d :: ds) ++ rest) p =
        sigAt (dataText o d ++ (itemsText o false ds ++ rest)) p' := by
      cases first
      · exact ⟨p + 1, by simp [itemsText, sig_space]⟩
      · exact ⟨p, by simp [itemsText]⟩
    obtain ⟨p', e⟩ := e
    rw [e] at hn ⊢
    obtain ⟨q, hq⟩ := nextElement_read ht (hd d (by simp)) hs.1 (items_follow o ds rest) p'
    have hlt := nextElement_fine (de_good t) (sig_tokens (dataText o d ++ (itemsText o false ds ++ rest)) p')
    rw [hq] at hlt
    obtain ⟨q', hq'⟩ := ih false (acc ++ [d]) n q (fun x hx => hd x (by simp [hx])) hs.2
      (by have := hlt.2; omega)
    refine ⟨q', ?_⟩
    rw [seqLoop, hq]
    simp only [Out.bind]
    rw [hq']
    simp

theorem nextKey_read {k : List Char} (hk : PlainKey k) {rest : List Char} (c : Bool) (p : Nat) :
    ∃ q, nextKey c (sigAt (keyText k ++ ' ' :: rest) p) = .ok (some k, sigAt rest q) := by
  obtain ⟨t, q, h1, h2⟩ := sig_key hk (rest := ' ' :: rest) (.inr ⟨' ', rest, rfl, by simp⟩) p
  refine ⟨q + 1, ?_⟩
  rw [h1, nextKey, sig_space]
  rcases h2 with ⟨h2, h3⟩ | ⟨h2, h3⟩ <;> simp [h2, h3]

theorem key_read {o : FormatOptions} {k : List Char} (hk : PlainKey k) (d : Data) (fs : List Field) (rest : List Char)
    (first : Bool) (p : Nat) :
    ∃ q, nextKey true (sigAt (fieldsText o first (.mk k d :: fs) ++ rest) p) =
      .ok (some k, sigAt (dataText o d ++ (fieldsText o false fs ++ rest)) q) := by
  cases first
  · obtain ⟨q, hq⟩ := nextKey_read hk (rest := dataText o d ++ (fieldsText o false fs ++ rest)) false (p + 1 + 1)
    refine ⟨q, ?_⟩
    have e : fieldsText o false (.mk k d :: fs) ++ rest =
        ',' :: ' ' :: (keyText k ++ ' ' :: (dataText o d ++ (fieldsText o false fs ++ rest))) := by simp [fieldsText]
    rw [e, sig_comma, sig_space, nextKey]
    simpa using hq
  · obtain ⟨q, hq⟩ := nextKey_read hk (rest := dataText o d ++ (fieldsText o false fs ++ rest)) true p
    refine ⟨q, ?_⟩
    have e : fieldsText o true (.mk k d :: fs) ++ rest =
        keyText k ++ ' ' :: (dataText o d ++ (fieldsText o false fs ++ rest)) := by simp [fieldsText]
    rw [e]; exact hq

theorem key_root {o : FormatOptions} {k : List Char} (hk : PlainKey k) (d : Data) (fs : List Field)
    (first : Bool) (p : Nat) :
    ∃ q, nextKey true (sigAt (rootFieldsText o first (.mk k d :: fs)) p) =
      .ok (some k, sigAt (dataText o d ++ rootFieldsText o false fs) q) := by
  cases first
  · obtain ⟨q, hq⟩ := nextKey_read hk (rest := dataText o d ++ rootFieldsText o false fs) true (p + 1 + 1)
    refine ⟨q, ?_⟩
    have e : rootFieldsText o false (.mk k d :: fs) =
        '\n' :: '\n' :: (keyText k ++ ' ' :: (dataText o d ++ rootFieldsText o false fs)) := by simp [rootFieldsText]
    rw [e, sig_newline, sig_newline]
    exact hq
  · obtain ⟨q, hq⟩ := nextKey_read hk (rest := dataText o d ++ rootFieldsText o false fs) true p
    refine ⟨q, ?_⟩
    have e : rootFieldsText o true (.mk k d :: fs) =
        keyText k ++ ' ' :: (dataText o d ++ rootFieldsText o false fs) := by simp [rootFieldsText]
    rw [e]; exact hq

/-- The texts of fields, nested or at the root, as the loops see them; `E` holds for the tokens that are left. -/
structure Layout (o : FormatOptions) (text : Bool → List Field → List Char) (E : List Token → Prop) : Prop where
  nil : ∀ first p, ∃ ts, nextKey true (sigAt (text first []) p) = .ok (none, ts) ∧ E ts
  cons : ∀ first k d fs p, PlainKey k → ∃ q, nextKey true (sigAt (text first (.mk k d :: fs)) p) =
    .ok (some k, sigAt (dataText o d ++ text false fs) q)
  follow : ∀ fs, Follows .word (text false fs)

theorem nested_layout (o : FormatOptions) (rest : List Char) :
    Layout o (fun first fs => fieldsText o first fs ++ rest) (fun ts => ∃ q, ts = sigAt rest q) := by
  refine ⟨?_, fun first k d fs p hk => key_read hk d fs rest first p, fun fs => fields_follow o fs rest⟩
  intro first p
  refine ⟨sigAt rest (p + 1), ?_, _, rfl⟩
  have e : fieldsText o first [] ++ rest = '}' :: rest := by simp [fieldsText]
  rw [e, sig_rbrace, nextKey]
  simp

theorem root_layout (o : FormatOptions) :
    Layout o (fun first fs => rootFieldsText o first fs) (fun _ => True) := by
  refine ⟨?_, fun first k d fs p hk => key_root hk d fs first p, root_follow o⟩
  intro first p
  refine ⟨[], ?_, trivial⟩
  cases first
  · have e : rootFieldsText o false [] = ['\n'] := by simp [rootFieldsText]
    rw [e, sig_newline]; rfl
  · have e : rootFieldsText o true [] = [] := by simp [rootFieldsText]
    rw [e]; rfl

section Loops

variable {o : FormatOptions} {text : Bool → List Field → List Char} {E : List Token → Prop}

/-- One step of a loop over fields: after the key and the value fewer tokens are left. -/
theorem field_step (L : Layout o text E) {t : Ty} (ht : Reads o t) {k : List Char} {d : Data} (hk : PlainKey k)
    (hd : HasTy t d) (hs : Survives o d) (fs : List Field) (first : Bool) (p : Nat) :
    ∃ q q', nextKey true (sigAt (text first (.mk k d :: fs)) p) =
        .ok (some k, sigAt (dataText o d ++ text false fs) q) ∧
      de t (sigAt (dataText o d ++ text false fs) q) = .ok (d, sigAt (text false fs) q') ∧
      (sigAt (text false fs) q').length < (sigAt (text first (.mk k d :: fs)) p).length := by
  obtain ⟨q, hq⟩ := L.cons first k d fs p hk
  obtain ⟨q', hq'⟩ := ht d hd hs (text false fs) q (L.follow fs)
  refine ⟨q, q', hq, hq', ?_⟩
  obtain ⟨x, e, -, h1⟩ := nextKey_fine _ true (sig_tokens (text first (.mk k d :: fs)) p)
  have h2 := h1 k _ (e.symm.trans hq)
  have h3 := (de_good t) _ (sig_tokens (dataText o d ++ text false fs) q)
  rw [hq'] at h3
  have := h3.2.le
  omega

theorem map_read (L : Layout o text E) {t : Ty} (ht : Reads o t) (fs : List Field) :
    ∀ (first : Bool) (acc : List Field) (n p : Nat), (∀ f ∈ fs, HasTy t f.data) → SurviveFields o fs →
      ((acc ++ fs).map Field.key).Nodup → (sigAt (text first fs) p).length < n →
      ∃ ts, mapLoop (de t) n acc (sigAt (text first fs) p) = .ok (.fields (acc ++ fs), ts) ∧ E ts := by
  induction fs with
  | nil =>
    intro first acc n p _ _ _ hn
    obtain ⟨n, rfl⟩ : ∃ m, n = m + 1 := ⟨n - 1, by omega⟩
    obtain ⟨ts, h1, h2⟩ := L.nil first p
    exact ⟨ts, by rw [mapLoop, h1]; simp [Out.bind], h2⟩
  | cons f fs ih =>
    intro first acc n p hd hs hnd hn
    obtain ⟨k, d⟩ := f
    obtain ⟨n, rfl⟩ : ∃ m, n = m + 1 := ⟨n - 1, by omega⟩
    obtain ⟨q, q', h1, h2, h3⟩ := field_step L ht hs.1 (d := d) (hd _ (List.mem_cons_self ..)) hs.2.1 fs first p
    have hnd' := hnd
    obtain ⟨ts, h4, h5⟩ := ih false (acc ++ [.mk k d]) n q' (fun x hx => hd x (by simp [hx])) hs.2.2
      (by simpa using hnd) (by omega)
    refine ⟨ts, ?_, h5⟩
    rw [mapLoop, h1]
    simp only [Out.bind]
    rw [h2]
    simp only
    have hf : acc.filter (fun f => f.key != k) = acc := by
      rw [List.filter_eq_self]
      intro x hx
      rw [List.map_append, List.nodup_append] at hnd'
      have := hnd'.2.2 x.key (List.mem_map_of_mem hx) k (by simp [Field.key])
      simpa using this
    rw [hf, h4]
    simp

/-- The type of a field. -/
def fieldTy : Fields → List Char → Option Ty
  | .nil, _ => none
  | .cons name t rest, k => if k = name then some t else fieldTy rest k

theorem deField_eq : ∀ (fs : Fields) (k : List Char), deField fs k = (fieldTy fs k).map de
  | .nil, k => rfl
  | .cons name t rest, k => by
    rw [deField, fieldTy]
    split
    · rfl
    · exact deField_eq rest k

theorem fieldData_none {k : List Char} {fs : List Field} (h : k ∉ fs.map Field.key) : fieldData k fs = none := by
  induction fs with
  | nil => rfl
  | cons f fs ih =>
    obtain ⟨k', d⟩ := f
    simp only [List.map_cons, Field.key, List.mem_cons, not_or] at h
    rw [fieldData, if_neg (fun e => h.1 e.symm), ih h.2]

theorem fieldData_append {k : List Char} {d : Data} {pre fs : List Field} (h : k ∉ pre.map Field.key) :
    fieldData k (pre ++ .mk k d :: fs) = some d := by
  induction pre with
  | nil => simp [fieldData]
  | cons f pre ih =>
    obtain ⟨k', d'⟩ := f
    simp only [List.map_cons, Field.key, List.mem_cons, not_or] at h
    rw [List.cons_append, fieldData, if_neg (fun e => h.1 e.symm), ih h.2]

theorem hasFields_keys : ∀ (T : Fields) (fs : List Field), HasFields T fs → fs.map Field.key = fieldNames T
  | .nil, [], _ => rfl
  | .nil, .mk _ _ :: _, h => by simp [HasFields] at h
  | .cons _ _ _, [], h => by simp [HasFields] at h
  | .cons name t rest, .mk k d :: fs, h => by
    rw [HasFields] at h
    simp [fieldNames, Field.key, h.1, hasFields_keys rest fs h.2.2]

theorem finishFields_all : ∀ (T : Fields) (pre fs : List Field), HasFields T fs →
    ((pre ++ fs).map Field.key).Nodup → finishFields T (pre ++ fs) = some fs
  | .nil, pre, [], _, _ => rfl
  | .nil, _, .mk _ _ :: _, h, _ => by simp [HasFields] at h
  | .cons _ _ _, _, [], h, _ => by simp [HasFields] at h
  | .cons name t rest, pre, .mk k d :: fs, h, hn => by
    rw [HasFields] at h
    obtain ⟨rfl, -, h3⟩ := h
    have hk : k ∉ pre.map Field.key := by
      rw [List.map_append, List.nodup_append] at hn
      intro hx
      exact hn.2.2 k hx k (by simp [Field.key]) rfl
    have ih := finishFields_all rest (pre ++ [.mk k d]) fs h3 (by simpa using hn)
    simp only [finishFields, fieldData_append hk]
    rw [show pre ++ .mk k d :: fs = pre ++ [.mk k d] ++ fs by simp, ih]
    rfl

/-- Every field has a type, of which it is a value, and whose values are read back. -/
def Typed (o : FormatOptions) (T : Fields) (fs : List Field) : Prop :=
  ∀ f ∈ fs, ∃ t, fieldTy T f.key = some t ∧ HasTy t f.data ∧ Reads o t

theorem struct_read (L : Layout o text E) (T : Fields) (fs : List Field) :
    ∀ (first : Bool) (acc : List Field) (n p : Nat), Typed o T fs → SurviveFields o fs →
      ((acc ++ fs).map Field.key).Nodup → HasFields T (acc ++ fs) → (sigAt (text first fs) p).length < n →
      ∃ ts, structLoop (deField T) T n acc (sigAt (text first fs) p) = .ok (.fields (acc ++ fs), ts) ∧ E ts := by
  induction fs with
  | nil =>
    intro first acc n p _ _ hnd hT hn
    obtain ⟨n, rfl⟩ : ∃ m, n = m + 1 := ⟨n - 1, by omega⟩
    obtain ⟨ts, h1, h2⟩ := L.nil first p
    refine ⟨ts, ?_, h2⟩
    have := finishFields_all T [] (acc ++ []) hT (by simpa using hnd)
    rw [List.append_nil, List.nil_append] at this
    rw [structLoop, h1]
    simp [Out.bind, this]
  | cons f fs ih =>
    intro first acc n p ht hs hnd hT hn
    obtain ⟨k, d⟩ := f
    obtain ⟨n, rfl⟩ : ∃ m, n = m + 1 := ⟨n - 1, by omega⟩
    obtain ⟨t, e, hd, hr⟩ := ht _ (List.mem_cons_self ..)
    simp only [Field.key, Field.data] at e hd
    obtain ⟨q, q', h1, h2, h3⟩ := field_step L hr hs.1 hd hs.2.1 fs first p
    obtain ⟨ts, h4, h5⟩ := ih false (acc ++ [.mk k d]) n q' (fun x hx => ht x (by simp [hx])) hs.2.2
      (by simpa using hnd) (by simpa using hT) (by omega)
    refine ⟨ts, ?_, h5⟩
    have hk : k ∉ acc.map Field.key := by
      rw [List.map_append, List.nodup_append] at hnd
      intro hx
      exact hnd.2.2 k hx k (by simp [Field.key]) rfl
    rw [structLoop, h1]
    simp only [Out.bind]
    rw [deField_eq, e]
    simp only [Option.map_some, fieldData_none hk, Option.isSome_none, Bool.false_eq_true, if_false]
    rw [h2]
    simp only
    rw [h4]
    simp

end Loops

theorem fieldTy_mem : ∀ (T : Fields) (k : List Char) (t : Ty), fieldTy T k = some t → k ∈ fieldNames T
  | .nil, k, t, h => by cases h
  | .cons n t' r, k, t, h => by
    rw [fieldTy] at h
    split at h
    · simp [fieldNames, *]
    · simp [fieldNames, fieldTy_mem r k t h]

theorem typed_of {o : FormatOptions} : ∀ (T : Fields) (fs : List Field), HasFields T fs → (fieldNames T).Nodup →
    (∀ k t, fieldTy T k = some t → Reads o t) → Typed o T fs
  | .nil, [], _, _, _ => fun f hf => by cases hf
  | .nil, .mk _ _ :: _, h, _, _ => by simp [HasFields] at h
  | .cons _ _ _, [], h, _, _ => by simp [HasFields] at h
  | .cons name t rest, .mk k d :: fs, h, hn, hr => by
    rw [HasFields] at h
    obtain ⟨rfl, h2, h3⟩ := h
    rw [fieldNames, List.nodup_cons] at hn
    have hne : ∀ k' t', fieldTy rest k' = some t' → k' ≠ k := by
      intro k' t' e hk
      subst hk
      have : ∀ (T : Fields), fieldTy T k' = some t' → k' ∈ fieldNames T := by
        intro T
        exact fieldTy_mem T k' t'
      exact hn.1 (this rest e)
    have ih := typed_of rest fs h3 hn.2 fun k' t' e => hr k' t' (by rw [fieldTy, if_neg (hne k' t' e)]; exact e)
    intro f hf
    rcases List.mem_cons.1 hf with rfl | hf
    · exact ⟨t, by simp [fieldTy, Field.key], h2, hr k t (by simp [fieldTy])⟩
    · obtain ⟨t', e, h4, h5⟩ := ih f hf
      exact ⟨t', by rw [fieldTy, if_neg (hne _ _ e)]; exact e, h4, h5⟩

theorem hasTy_int {sg : Bool} {bits : Nat} {d : Data} (h : HasTy (.int sg bits) d) :
    ∃ n, d = .int n ∧ intMin sg bits ≤ n ∧ n ≤ intMax sg bits := by
  cases sg <;> cases d <;> simp only [HasTy] at h
  all_goals
    rename_i n
    refine ⟨n, rfl, ?_⟩
    simp only [intMin, intMax, Bool.false_eq_true, if_false, if_true]
    omega

theorem int_parse {sg : Bool} {bits : Nat} {n : Int} (hb : BasicTy (.int sg bits))
    (h : intMin sg bits ≤ n ∧ n ≤ intMax sg bits) :
    (if sg then Schema.parseI64 (intText n) else (parseUsize (intText n)).map Int.ofNat) = some n := by
  rw [BasicTy] at hb
  cases sg
  · simp only [intMin, intMax, Bool.false_eq_true, if_false] at h ⊢
    obtain ⟨m, rfl⟩ := Int.eq_ofNat_of_zero_le h.1
    have h2 : (2 : Nat) ^ bits ≤ 2 ^ 64 := Nat.pow_le_pow_right (by decide) hb
    have h3 : m < 2 ^ bits := by
      have := h.2
      have e : ((2 : Int) ^ bits) = ((2 ^ bits : Nat) : Int) := by simp
      rw [e] at this
      omega
    have h4 : intText (m : Int) = decimal m := Cli.showNat_decimal m
    rw [h4, parseUsize_decimal m (by unfold usizeMax; omega)]
    rfl
  · simp only [intMin, intMax, if_true] at h ⊢
    have h2 : (2 : Nat) ^ (bits - 1) ≤ 2 ^ 63 := Nat.pow_le_pow_right (by decide) (by omega)
    have e : ((2 : Int) ^ (bits - 1)) = ((2 ^ (bits - 1) : Nat) : Int) := by simp
    rw [e] at h
    rw [Schema.parseI64, Schema.parseInt, parseSigned_intText]
    simp only [Option.bind_some]
    rw [if_pos]
    omega

theorem run_ge (n : Nat) (t : Tok) : ∀ k ∈ Tok.run n t, t.pos ≤ k.start := by
  induction n generalizing t with
  | zero => simp [Tok.run]
  | succ n ih =>
    have hs := next_step t
    intro k hk
    rw [Tok.run] at hk
    split at hk
    rename_i tok t' e
    rw [e] at hs
    split at hk
    · cases hk
    · rcases List.mem_cons.1 hk with rfl | hk
      · exact Nat.le_of_eq hs.start.symm
      · have := ih t' k hk
        have h2 := hs.len
        simp only at h2
        omega

/-- After a unit the next token is not a word that begins right there. -/
theorem sig_word_gap {rest : List Char} (hf : Follows .word rest) {p : Nat} {n : Token} {r : List Token}
    (e : sigAt rest p = n :: r) (hk : n.kind = .bareScalar) (hp : n.start = p) : False := by
  cases rest with
  | nil => cases e
  | cons c rest =>
    obtain ⟨x, h1, h2⟩ := next_text_head c rest p
    have hkt := (next_kind ⟨c :: rest, p, none⟩ (tokInv_none rfl)).2
    have hs := next_step ⟨c :: rest, p, none⟩
    rw [h1] at hkt
    unfold sigAt at e
    rw [toksAt, toksFrom_cons (t' := (Tok.next ⟨c :: rest, p, none⟩).2) rfl h2] at e
    have hl := hs.len
    rw [h1] at hl
    have hc : 1 ≤ utf8Len (c :: x) := by
      rw [utf8Len]
      have := c.utf8Size_pos
      omega
    simp only at hl
    rw [List.filter_cons] at e
    split at e
    · injection e with e1 e2
      rw [e1, hk] at hkt
      have := hkt.2 c (by simp)
      have hb := (follows_word hf).1 c rest rfl
      rw [(isBareChar_iff c).2 this] at hb
      cases hb
    · have hm : n ∈ (toksFrom (Tok.next ⟨c :: rest, p, none⟩).2).filter seen := by rw [e]; simp
      obtain ⟨hm, hsn⟩ := List.mem_filter.1 hm
      unfold toksFrom at hm
      rcases List.mem_append.1 hm with hm | hm
      · have := run_ge _ _ n hm
        omega
      · rw [List.mem_singleton.1 hm] at hsn
        simp [seen] at hsn

mutual
theorem de_reads (o : FormatOptions) : ∀ (t : Ty), WfTy t → BasicTy t → Reads o t
  | .unit, _, _ => by
    intro d h hs rest p hf
    cases d <;> simp only [HasTy] at h
    exact ⟨_, by rw [dataText, List.cons_append, List.nil_append, sig_unit hf]; rfl⟩
  | .bool, _, _ => by
    intro d h hs rest p hf
    cases d <;> simp only [HasTy] at h
    rename_i b
    cases b
    · exact ⟨_, by rw [dataText]; simp only [Bool.false_eq_true, if_false]; rw [sig_bare false_bare hf]; rfl⟩
    · exact ⟨_, by rw [dataText]; simp only [if_true]; rw [sig_bare true_bare hf]; rfl⟩
  | .int sg bits, _, hb => by
    intro d h hs rest p hf
    obtain ⟨n, rfl, hn⟩ := hasTy_int h
    refine ⟨_, by rw [dataText, sig_bare (intText_bare n) hf, de, deInt, if_neg (by rw [BasicTy] at hb; omega)]; simp only [nextToken]; rw [int_parse hb hn]; simp only [hn, and_self, if_true]; rfl⟩
  | .char, _, _ => by
    intro d h hs rest p hf
    cases d <;> simp only [HasTy] at h
    rename_i c
    obtain ⟨t, q, h1, h2⟩ := sig_char hs hf p
    refine ⟨q, ?_⟩
    rw [dataText, h1, de, deChar]
    simp only [nextToken]
    rcases h2 with ⟨h2 | h2, h3⟩ | ⟨h2, h3⟩ <;> simp [h2, h3]
  | .str, _, _ => by
    intro d h hs rest p hf
    cases d <;> simp only [HasTy] at h
    obtain ⟨t, q, h1, h2⟩ := sig_string hs hf p
    refine ⟨q, ?_⟩
    rw [dataText, h1, de]
    simp only [nextToken, readStr.eq_def]
    rcases h2 with ⟨h2, h3⟩ | ⟨h2, h3⟩ | ⟨h2, h3⟩ <;> simp [h2, h3, Out.map, Out.bind]
  | .bytes, _, _ => by
    intro d h hs rest p hf
    cases d <;> simp only [HasTy] at h
    rename_i bs
    obtain ⟨t, q, h1, h2, h3⟩ := sig_bytes bs rest p
    refine ⟨q, ?_⟩
    rw [dataText]
    change de .bytes (sigAt ('"' :: hexText bs ++ ['"'] ++ rest) p) = _
    rw [h1, de, deBytes]
    simp only [nextToken, h2, h3, if_true, quoted_slice, hexBytes_hexText]
  | .option t, hw, hb => by
    intro d h hs rest p hf
    rw [WfTy] at hw
    rw [BasicTy] at hb
    cases d <;> simp only [HasTy] at h
    · refine ⟨p + 1, ?_⟩
      rw [dataText, List.cons_append, List.nil_append, sig_unit hf, de, deOption.eq_def]
      simp only [if_true]
      split
      · rename_i n r' e
        rw [if_neg]
        rintro ⟨h1, h2⟩
        exact sig_word_gap hf e h1 h2
      · rfl
    · rename_i d
      obtain ⟨t', ts, h1, -, -, h4⟩ := sig_start hf p d hs.1
      obtain ⟨q, hq⟩ := de_reads o t hw hb d h hs.1 rest p hf
      refine ⟨q, ?_⟩
      rw [dataText]
      rw [h1] at hq ⊢
      rw [de, deOption.eq_def]
      simp only [h4 hs.2, if_false, hq]
      rfl
  | .seq t, hw, hb => by
    intro d h hs rest p hf
    rw [WfTy] at hw
    rw [BasicTy] at hb
    cases d <;> simp only [HasTy] at h
    rename_i ds
    obtain ⟨q, hq⟩ := seq_read (de_reads o t hw hb) rest ds true [] _ (p + 1) h hs (Nat.lt_succ_self _)
    refine ⟨q, ?_⟩
    rw [dataText, List.cons_append, sig_lparen, de, openSeq]
    simp only [nextToken, if_true]
    exact hq
  | .map t, hw, hb => by
    intro d h hs rest p hf
    rw [WfTy] at hw
    rw [BasicTy] at hb
    cases d <;> simp only [HasTy] at h
    rename_i fs
    obtain ⟨ts, hq, q, rfl⟩ := map_read (nested_layout o rest) (de_reads o t hw hb) fs true [] _ (p + 1) h.2 hs
      (by simpa using h.1) (Nat.lt_succ_self _)
    refine ⟨q, ?_⟩
    rw [dataText, List.cons_append, sig_lbrace, de, openMap]
    simp only [if_true]
    exact hq
  | .struct T, hw, hb => by
    intro d h hs rest p hf
    rw [WfTy] at hw
    rw [BasicTy] at hb
    cases d <;> simp only [HasTy] at h
    rename_i fs
    obtain ⟨ts, hq, q, rfl⟩ := struct_read (nested_layout o rest) T fs true [] _ (p + 1)
      (typed_of T fs h hw.1 (fields_read o T hw.2 hb)) hs
      (by simpa [hasFields_keys T fs h] using hw.1) h (Nat.lt_succ_self _)
    refine ⟨q, ?_⟩
    rw [dataText, List.cons_append, sig_lbrace, de, openMap]
    simp only [if_true]
    exact hq
  | .tuple _, _, hb => by rw [BasicTy] at hb; exact hb.elim
  | .enum _, _, hb => by rw [BasicTy] at hb; exact hb.elim
theorem fields_read (o : FormatOptions) : ∀ (T : Fields), WfFields T → BasicFields T →
    ∀ k t, fieldTy T k = some t → Reads o t
  | .nil, _, _, k, t, h => by cases h
  | .cons name t rest, hw, hb, k, t', h => by
    rw [WfFields] at hw
    rw [BasicFields] at hb
    rw [fieldTy] at h
    split at h
    · cases h; exact de_reads o t hw.1 hb.1
    · exact fields_read o rest hw.2 hb.2 k t' h
end

theorem openMap_root {o : FormatOptions} (visit : Reader) {fs : List Field} (hs : SurviveFields o fs) (p : Nat) :
    openMap visit (sigAt (rootFieldsText o true fs) p) = visit (sigAt (rootFieldsText o true fs) p) ∧
      ∀ t r, sigAt (rootFieldsText o true fs) p = t :: r → t.kind ≠ .at := by
  cases fs with
  | nil => exact ⟨rfl, fun t r h => by cases h⟩
  | cons f fs =>
    obtain ⟨k, d⟩ := f
    have hw : Follows .word (' ' :: (dataText o d ++ rootFieldsText o false fs)) := .inr ⟨' ', _, rfl, by simp⟩
    have e : rootFieldsText o true (.mk k d :: fs) = keyText k ++ (' ' :: (dataText o d ++ rootFieldsText o false fs)) := by
      simp [rootFieldsText]
    obtain ⟨t, q, h1, h2⟩ := sig_key hs.1 hw p
    rw [e, h1]
    have hk : t.kind ≠ .lbrace ∧ t.kind ≠ .at := by rcases h2 with ⟨h2, -⟩ | ⟨h2, -⟩ <;> simp [h2]
    refine ⟨by rw [openMap]; simp [hk.1], ?_⟩
    intro t' r' h
    injection h with h
    rw [← h]
    exact hk.2

/-- What is read back at the root. -/
def RootReads (o : FormatOptions) (d : Data) : Prop :=
  ∀ (t : Ty), WfTy t → BasicTy t → HasTy t d → Survives o d →
    ∃ ts, de t (sigAt (rootText o d) 0) = .ok (d, ts) ∧
      (notUnit d → ∀ t r, sigAt (rootText o d) 0 = t :: r → t.kind ≠ .at)

theorem root_plain {o : FormatOptions} {d : Data} (e : rootText o d = dataText o d) : RootReads o d := by
  intro t hw hb h hs
  obtain ⟨q, hq⟩ := de_reads o t hw hb d h hs [] 0 (.inl rfl)
  obtain ⟨x, xs, h1, -, -, h4⟩ := sig_start (.inl rfl) 0 d hs
  rw [List.append_nil] at hq h1
  rw [e]
  refine ⟨_, hq, ?_⟩
  intro hn t' r' h'
  rw [h1] at h'
  injection h' with h'
  rw [← h']
  exact h4 hn

theorem root_fields (o : FormatOptions) (fs : List Field) : RootReads o (.fields fs) := by
  intro t hw hb h hs
  have hr : rootText o (.fields fs) = rootFieldsText o true fs := by rw [rootText]
  rw [hr]
  obtain ⟨ho, hat⟩ : (∀ v, openMap v _ = _) ∧ _ :=
    ⟨fun v => (openMap_root v hs 0).1, (openMap_root (fun _ => .err) hs 0).2⟩
  cases t <;> simp only [HasTy] at h
  · rename_i t
    rw [WfTy] at hw
    rw [BasicTy] at hb
    obtain ⟨ts, hq, -⟩ := map_read (root_layout o) (de_reads o t hw hb) fs true [] _ 0 h.2 hs
      (by simpa using h.1) (Nat.lt_succ_self _)
    exact ⟨ts, by rw [de, ho]; exact hq, fun _ => hat⟩
  · rename_i T
    rw [WfTy] at hw
    rw [BasicTy] at hb
    obtain ⟨ts, hq, -⟩ := struct_read (root_layout o) T fs true [] _ 0
      (typed_of T fs h hw.1 (fields_read o T hw.2 hb)) hs
      (by simpa [hasFields_keys T fs h] using hw.1) h (Nat.lt_succ_self _)
    exact ⟨ts, by rw [de, ho]; exact hq, fun _ => hat⟩
  · rw [BasicTy] at hb; exact hb.elim

theorem root_some {o : FormatOptions} {d : Data} (ih : RootReads o d) : RootReads o (.some d) := by
  intro t hw hb h hs
  cases t <;> simp only [HasTy] at h
  · rename_i t
    rw [WfTy] at hw
    rw [BasicTy] at hb
    obtain ⟨ts, h1, h2⟩ := ih t hw hb h hs.1
    rw [rootText]
    refine ⟨ts, ?_, fun hn => h2 hn⟩
    have h3 := h2 hs.2
    rw [de, deOption.eq_def]
    revert h1 h3
    generalize sigAt (rootText o d) 0 = toks
    intro h1 h3
    cases toks with
    | nil => simp only [h1]; rfl
    | cons x xs =>
      simp only [h3 x xs rfl, if_false, h1]
      rfl
  · rw [BasicTy] at hb; exact hb.elim

/-- The deserializer reads back what the serializer writes at the root. -/
theorem root_reads (o : FormatOptions) : ∀ (d : Data), RootReads o d
  | .some d => root_some (root_reads o d)
  | .fields fs => root_fields o fs
  | .unit | .bool _ | .int _ | .char _ | .str _ | .bytes _ | .none | .seq _ | .unitVariant _ | .newtypeVariant _ _
  | .tupleVariant _ _ | .structVariant _ _ => root_plain (by rw [rootText]; all_goals simp)

theorem toStyx_fromStyx {o : FormatOptions} {t : Ty} {d : Data} (hw : WfTy t) (hb : BasicTy t) (h : HasTy t d)
    (hs : Survives o d) : ∃ s, toStyx o d = some s ∧ fromStyx t s = .ok d := by
  refine ⟨_, ser_root o d hs, ?_⟩
  obtain ⟨ts, h1, -⟩ := root_reads o d t hw hb h hs
  rw [fromStyx, significant_eq, h1]
  rfl

theorem toCompact_fromStyx {t : Ty} {d : Data} (hw : WfTy t) (hb : BasicTy t) (h : HasTy t d)
    (hs : Survives { forceStyle := .inline } d) : ∃ s, toCompact d = some s ∧ fromStyx t s = .ok d := by
  refine ⟨_, ser_compact d hs, ?_⟩
  obtain ⟨q, h1⟩ := de_reads _ t hw hb d h hs [] 0 (.inl rfl)
  rw [List.append_nil] at h1
  rw [fromStyx, significant_eq, h1]
  rfl

end Styx.Serde
