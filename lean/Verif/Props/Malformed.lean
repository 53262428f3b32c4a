import Verif.Impl.Malformed
import Verif.Parse.Malformed
import Verif.Swift.Malformed
import Verif.Props.Agreement
import Verif.Props.Implementations
import Verif.Props.Swift
import Verif.Props.Tree

/-! # Property theorem C115: a malformed token is never passed over

A text with a string that is not closed, an escape that does not exist, a heredoc without end, ... is rejected, wherever
the malformed token is; an accepted text has been read as tokens up to its end.  `AllTokens` says that the lexer of
an implementation, started at the beginning and again behind each token, comes to the end of the text without an error. -/

namespace Styx.Props

open Styx

/-- **C115** for Python and JavaScript: an accepted text has no malformed token. -/
theorem C115_others {d : Impl.Dialect} (hd : d ≠ .go) {s : List Char} {es : List Entry} (h : Answers d s (.ok es)) :
    Impl.AllTokens d s := by
  obtain ⟨n, h⟩ := h
  exact Impl.accepted_tokens hd (h n (Nat.le_refl n))

/-- **C115** for Swift. -/
theorem C115_swift {U : Swift.Classes} {s : List Char} {es : List Entry} (h : SwiftAnswers U s (.ok es)) :
    Swift.AllTokens U ⟨s, false⟩ := by
  obtain ⟨n, h⟩ := h
  exact Swift.accepted_tokens (h n (Nat.le_refl n))

/-- **C115**, partly, for Rust: if a tree comes out, the lexer has reported no error at all, or only ones about escapes
in strings that the parser's own check lets pass.  (Missing: those, see `C115_rust_false`.) -/
theorem C115_rust_partial {s : List Char} {v : Value} (h : parseTree s = some (.ok v)) : ∀ l ∈ lex s, Sound s l := by
  obtain ⟨evs, h1, h2⟩ := parseEvents_run s
  exact run_sound h2 (nofun) (C20_parse s evs h1 v h)

/-- **C115** is false for Rust: an escape that the lexer rejects is accepted. -/
theorem C115_rust_false : ∃ s sp m, Lexeme.error sp m ∈ lex s ∧ ∃ v, parseTree s = some (.ok v) := by
  refine ⟨(chars! "a \"\\u{}\""), ⟨2, 8⟩, .invalidUnicodeEscape, ?_, ?_⟩
  · decide +kernel
  · have h : ∀ {ε : Type} (x : Option (Except ε Value)), (match x with | some (.ok _) => true | _ => false) = true →
        ∃ v, x = some (.ok v) := by
      intro ε x hx
      match x, hx with
      | some (.ok v), _ => exact ⟨v, rfl⟩
    exact h _ (by decide +kernel)

/-- **C115** is false for Go: behind a string at the root that is not closed everything is dropped without an error,
however much it is; Python and JavaScript reject the text. -/
theorem C115_go_false (z : List Char) (h1 : '"' ∉ z) (h2 : '\\' ∉ z) :
    Answers .go ((chars! "a 1\n\"") ++ z) (.ok [.mk (Impl.bareValue ['a']) (Impl.bareValue ['1']) none]) ∧
      ¬ Impl.AllTokens .go ((chars! "a 1\n\"") ++ z) ∧
      ∀ d, d ≠ .go → ∀ es, ¬ Answers d ((chars! "a 1\n\"") ++ z) (.ok es) := by
  have hno : ∀ d, ¬ Impl.AllTokens d ((chars! "a 1\n\"") ++ z) := by
    intro d h
    have e1 : Impl.nextToken d ((chars! "a 1\n\"") ++ z) =
      .ok (⟨.scalar, ['a'], false, false⟩, (chars! " 1\n\"") ++ z) := rfl
    have e2 : Impl.nextToken d ((chars! " 1\n\"") ++ z) =
      .ok (⟨.scalar, ['1'], true, false⟩, '\n' :: '"' :: z) := rfl
    have e3 := Impl.lex_open d z h1 h2
    cases h with
    | done h hk => rw [e1] at h; cases h; cases hk
    | next h _ h' =>
      rw [e1] at h; cases h
      cases h' with
      | done h hk => rw [e2] at h; cases h; cases hk
      | next h _ h' =>
        rw [e2] at h; cases h
        cases h' with
        | done h hk => rw [e3] at h; cases h
        | next h _ _ => rw [e3] at h; cases h
  exact ⟨⟨20, fun _ hm => Impl.parse_mono _ hm _ (Impl.go_open z h1 h2)⟩, hno .go,
    fun d hd es h => hno d (C115_others hd h)⟩

/-- The document of `C115_go_false` with an entry behind the string is rejected by Rust, and a like one by Swift. -/
example : (∃ e, parseTree (chars! "a 1\n\"b\nc 2") = some (.error e)) ∧
    ∀ U, ∃ e, SwiftAnswers U (chars! "\"a\" \"1\"\n\"b") (.error e) :=
  ⟨⟨_, rfl⟩, fun _ => ⟨_, 20, fun _ hm => Swift.parse_mono _ hm _ rfl⟩⟩

/-- `{a 1} "b` and a heredoc without end are further texts that Go accepts. -/
example : Answers .go (chars! "{a 1} \"b") (.ok [.mk Impl.unitValue
      (Impl.objectValue [.mk (Impl.bareValue ['a']) (Impl.bareValue ['1']) none]) none]) ∧
    Answers .python (chars! "{a 1} \"b") (.error .unexpectedToken) ∧
    Answers .go (chars! "a 1\n<<X\nb 2") (.ok [.mk (Impl.bareValue ['a']) (Impl.bareValue ['1']) none]) ∧
    Answers .javascript (chars! "a 1\n<<X\nb 2") (.error .unexpectedToken) :=
  ⟨⟨20, fun _ hm => Impl.parse_mono _ hm _ rfl⟩, ⟨20, fun _ hm => Impl.parse_mono _ hm _ rfl⟩,
    ⟨20, fun _ hm => Impl.parse_mono _ hm _ rfl⟩, ⟨20, fun _ hm => Impl.parse_mono _ hm _ rfl⟩⟩

/-- The hypotheses of `C115_others`, `C115_swift` and `C115_rust_partial` are met by documents with strings, and those
of `C115_go_false` by a document behind the string. -/
example : Answers .python (chars! "a \"b\"") (.ok [.mk (Impl.bareValue ['a'])
      (.mk none (some (.scalar ['b'] .quoted none)) none) none]) ∧
    (∀ U, ∃ es, SwiftAnswers U (chars! "\"a\" (\"b\")") (.ok es)) ∧
    (∃ v, parseTree (chars! "a \"b\"") = some (.ok v)) ∧
    ('"' ∉ (chars! "b\nc {d 2}\n") ∧ '\\' ∉ (chars! "b\nc {d 2}\n")) :=
  ⟨⟨20, fun _ hm => Impl.parse_mono _ hm _ rfl⟩, fun _ => ⟨_, 20, fun _ hm => Swift.parse_mono _ hm _ rfl⟩,
    ⟨_, rfl⟩, by decide⟩

end Styx.Props
