import Verif.Parse.Events
import Verif.Parse.EscapeLemmas
import Verif.Tokenizer.RunLemmas

/-! # Lemmas about the lexer: what it does on texts of a known shape -/

namespace Styx

open Spec

theorem next_quote (cs : List Char) (p : Nat) :
    Tok.next ⟨'"' :: cs, p, none⟩ =
      match scanQuoted cs with
      | (true, a, b) => Tok.emit ⟨'"' :: cs, p, none⟩ .quotedScalar ('"' :: a) b none
      | (false, a, b) => Tok.emit ⟨'"' :: cs, p, none⟩ .error ('"' :: a) b none := rfl

theorem next_nil (p : Nat) : Tok.next ⟨[], p, none⟩ = (⟨.eof, p, p, []⟩, ⟨[], p, none⟩) := rfl

theorem skipWs_of_ne {t : Tok} (h : t.next.1.kind ≠ .whitespace) : t.skipWs = t := by
  unfold Tok.skipWs; rw [if_neg h]

theorem nextLexeme_of_ne {t : Tok} (h : t.next.1.kind ≠ .whitespace) :
    nextLexeme t = lexToken t.next.1 t.next.2 := by
  unfold nextLexeme; rw [skipWs_of_ne h]

theorem nextLexeme_nil (p : Nat) : nextLexeme ⟨[], p, none⟩ = (.eof, ⟨[], p, none⟩) := rfl

theorem next_quoted {body : List Char} (h : QuotedBody body) (rest : List Char) (p : Nat) :
    Tok.next ⟨'"' :: body ++ '"' :: rest, p, none⟩ =
      (⟨.quotedScalar, p, p + utf8Len body + 2, '"' :: body ++ ['"']⟩,
        ⟨rest, p + utf8Len body + 2, none⟩) := by
  rw [List.cons_append, next_quote, scanQuoted_quotedBody h]
  have e : '"'.utf8Size = 1 := rfl
  simp [Tok.emit, e]
  omega

theorem quotedInner_body (body : List Char) : quotedInner ('"' :: body ++ ['"']) = body := by
  simp [quotedInner]

/-- The lexeme of a quoted string. -/
theorem nextLexeme_quoted {body : List Char} (h : QuotedBody body) (rest : List Char) (p : Nat) :
    nextLexeme ⟨'"' :: body ++ '"' :: rest, p, none⟩ =
      (match processEscapes body with
        | .ok v => .scalar ⟨p, p + utf8Len body + 2⟩ v .quoted
        | .error m => .error ⟨p, p + utf8Len body + 2⟩ m,
       ⟨rest, p + utf8Len body + 2, none⟩) := by
  have hn := next_quoted h rest p
  rw [nextLexeme_of_ne (by rw [hn]; simp), hn]
  simp only [lexToken, quotedInner_body, Token.span]
  cases processEscapes body <;> rfl

/-! ## Single-lexeme texts -/

theorem lex_single {s : List Char} {l : Lexeme} {p : Nat}
    (h : nextLexeme (Tok.new s) = (l, ⟨[], p, none⟩)) (hl : l ≠ .eof) : lex s = [l] := by
  unfold lex
  rw [lexRun, h]
  simp only [hl, if_false]
  rw [lexRun, nextLexeme_nil]
  simp

theorem parseExpr_scalar {s : List Char} {sp : Span} {v : List Char} {k : ScalarKind}
    (h : lex s = [.scalar sp v k]) : parseExprEvents s = some [⟨sp, .scalar v k⟩] := by
  unfold parseExprEvents
  rw [h]
  rfl

/-! ## Raw strings -/

theorem next_r (cs : List Char) (p : Nat) (h : cs.head? = some '#' ∨ cs.head? = some '"') :
    Tok.next ⟨'r' :: cs, p, none⟩ = Tok.rawString ⟨'r' :: cs, p, none⟩ cs := by
  unfold Tok.next
  simp [h]

theorem hashesFollow_replicate (n : Nat) (r : List Char) :
    hashesFollow n (List.replicate n '#' ++ r) = true := by
  induction n with
  | zero => rfl
  | succ n ih => rw [List.replicate_succ, List.cons_append]; simp [hashesFollow, ih]

theorem hashesFollow_prefix {n : Nat} {xs r : List Char}
    (h : hashesFollow n (xs ++ '"' :: r) = true) : ∃ b, xs = List.replicate n '#' ++ b := by
  induction n generalizing xs with
  | zero => exact ⟨xs, rfl⟩
  | succ n ih =>
    cases xs with
    | nil => simp [hashesFollow] at h
    | cons x xs =>
      simp only [List.cons_append, hashesFollow] at h
      split at h
      · rename_i hx
        obtain ⟨b, rfl⟩ := ih h
        exact ⟨b, by simp [hx, List.replicate_succ]⟩
      · cases h

theorem scanRaw_closed {n : Nat} {c : List Char}
    (h : ∀ a b, c ≠ a ++ '"' :: List.replicate n '#' ++ b) (rest : List Char) :
    scanRaw n (c ++ '"' :: List.replicate n '#' ++ rest) =
      (true, c ++ '"' :: List.replicate n '#', rest) := by
  induction c with
  | nil =>
    simp only [List.nil_append, List.cons_append, scanRaw]
    rw [if_pos ⟨by trivial, hashesFollow_replicate n rest⟩]
    simp
  | cons x xs ih =>
    have ih := ih (fun a b he => h (x :: a) b (by rw [he]; simp))
    simp only [List.cons_append, List.append_assoc] at ih ⊢
    rw [scanRaw, if_neg ?_, ih]
    rintro ⟨rfl, hf⟩
    obtain ⟨b, rfl⟩ := hashesFollow_prefix hf
    exact h [] b (by simp)

theorem sliceBytes_eq (s : List Char) (a b : Nat) : sliceBytes s a b = slice s a b := by
  have h1 : ∀ n (s : List Char), dropBytes n s = Spec.dropBytes n s := by
    intro n s
    induction s generalizing n with
    | nil => cases n <;> rfl
    | cons c cs ih => cases n <;> simp [dropBytes, Spec.dropBytes, ih]
  have h2 : ∀ n (s : List Char), takeBytes n s = Spec.takeBytes n s := by
    intro n s
    induction s generalizing n with
    | nil => cases n <;> rfl
    | cons c cs ih => cases n <;> simp [takeBytes, Spec.takeBytes, ih]
  unfold sliceBytes slice
  rw [h1, funext (h2 (b - a))]

theorem utf8Len_hashes (n : Nat) : utf8Len (List.replicate n '#') = n := by
  have e : '#'.utf8Size = 1 := rfl
  induction n with
  | zero => rfl
  | succ n ih => rw [List.replicate_succ, utf8Len_cons, ih, e]; omega

theorem takeWhile_hashes (n : Nat) (r : List Char) :
    (List.replicate n '#' ++ '"' :: r).takeWhile (· == '#') = List.replicate n '#' := by
  induction n with
  | zero => rfl
  | succ n ih => rw [List.replicate_succ, List.cons_append, List.takeWhile_cons]; simp [ih]

theorem dropWhile_hashes (n : Nat) (r : List Char) :
    (List.replicate n '#' ++ '"' :: r).dropWhile (· == '#') = '"' :: r := by
  induction n with
  | zero => rfl
  | succ n ih => rw [List.replicate_succ, List.cons_append, List.dropWhile_cons]; simp [ih]

theorem rawContent_eq (n : Nat) (c : List Char) :
    rawContent ('r' :: List.replicate n '#' ++ '"' :: c ++ '"' :: List.replicate n '#') = some c := by
  have er : 'r'.utf8Size = 1 := rfl
  have eq : '"'.utf8Size = 1 := rfl
  unfold rawContent
  simp only [List.cons_append, List.drop_succ_cons, List.drop_zero, List.append_assoc,
    takeWhile_hashes, List.length_replicate]
  simp only [utf8Len_cons, utf8Len_append, utf8Len_hashes, er, eq]
  rw [if_neg (by omega), sliceBytes_eq]
  have := slice_append ('r' :: List.replicate n '#' ++ ['"']) c ('"' :: List.replicate n '#')
  simp only [utf8Len_cons, utf8Len_append, utf8Len_hashes, er, eq, utf8Len_nil] at this
  rw [show 1 + n + 1 = 1 + n + (1 + 0) by omega,
    show 1 + (n + (1 + (utf8Len c + (1 + n)))) - n - 1 = 1 + n + (1 + 0) + utf8Len c by omega]
  simpa using this

theorem next_raw {n : Nat} (hn : n ≤ 255) {c : List Char}
    (h : ∀ a b, c ≠ a ++ '"' :: List.replicate n '#' ++ b) (rest : List Char) (p : Nat) :
    Tok.next ⟨'r' :: List.replicate n '#' ++ '"' :: c ++ '"' :: List.replicate n '#' ++ rest, p, none⟩ =
      (⟨.rawScalar, p, p + utf8Len c + 2 * n + 3,
        'r' :: List.replicate n '#' ++ '"' :: c ++ '"' :: List.replicate n '#'⟩,
       ⟨rest, p + utf8Len c + 2 * n + 3, none⟩) := by
  have er : 'r'.utf8Size = 1 := rfl
  have eq : '"'.utf8Size = 1 := rfl
  have hs := scanRaw_closed h rest
  simp only [List.cons_append, List.append_assoc] at hs ⊢
  rw [next_r _ _ (by cases n <;> simp [List.replicate_succ])]
  unfold Tok.rawString
  simp only [takeWhile_hashes, dropWhile_hashes, List.length_replicate]
  rw [satHash, Nat.min_eq_left hn, hs]
  simp [Tok.emit, utf8Len_hashes, er, eq]
  omega

theorem nextLexeme_raw {n : Nat} (hn : n ≤ 255) {c : List Char}
    (h : ∀ a b, c ≠ a ++ '"' :: List.replicate n '#' ++ b) (rest : List Char) (p : Nat) :
    nextLexeme
        ⟨'r' :: List.replicate n '#' ++ '"' :: c ++ '"' :: List.replicate n '#' ++ rest, p, none⟩ =
      (.scalar ⟨p, p + utf8Len c + 2 * n + 3⟩ c .raw, ⟨rest, p + utf8Len c + 2 * n + 3, none⟩) := by
  have hnx := next_raw hn h rest p
  rw [nextLexeme_of_ne (by rw [hnx]; simp), hnx]
  simp only [lexToken, rawContent_eq, Token.span]

/-! ## Escape validation of ASCII texts does not panic -/

theorem takeBytes_ascii {s : List Char} (h : ∀ c ∈ s, c.utf8Size = 1) {n : Nat}
    (hn : n ≤ utf8Len s) : ∃ r, takeBytes n s = some r := by
  induction s generalizing n with
  | nil => simp at hn; subst hn; exact ⟨_, rfl⟩
  | cons c cs ih =>
    cases n with
    | zero => exact ⟨_, rfl⟩
    | succ n =>
      have hc := h c (by simp)
      rw [utf8Len_cons, hc] at hn
      obtain ⟨r, hr⟩ := ih (fun x hx => h x (by simp [hx])) (n := n) (by omega)
      exact ⟨c :: r, by simp [takeBytes, hc, hr]⟩

/-- The text a mode of `validateEscapesAux` has collected. -/
def ValMode.seen : ValMode → List Char
  | .braced _ s _ => s
  | _ => []

theorem bracedErr_ascii {st : Nat} {s : List Char} (h : ∀ c ∈ s, c.utf8Size = 1) :
    bracedErr st s ≠ .panic := by
  unfold bracedErr
  obtain ⟨r, hr⟩ := takeBytes_ascii h (n := min (utf8Len s) 12) (by omega)
  rw [hr]; simp

theorem validate_ascii {m : ValMode} {i : Nat} {s : List Char} (h : ∀ c ∈ s, c.utf8Size = 1)
    (hm : ∀ c ∈ m.seen, c.utf8Size = 1) : EscErr.panic ∉ validateEscapesAux m i s := by
  have e1 : '\\'.utf8Size = 1 := rfl
  have e2 : '{'.utf8Size = 1 := rfl
  have e3 : 'u'.utf8Size = 1 := rfl
  fun_induction validateEscapesAux m i s <;>
    (try simp only [ValMode.seen, List.forall_mem_cons] at *) <;>
    (try first | simp; done | (simp; grind [bracedErr_ascii]) | grind [bracedErr_ascii])

end Styx
