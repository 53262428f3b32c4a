import Verif.Cli.Sexp

/-!
# Model of the S-expressions of the JavaScript, Python, Go and Swift implementations

Sources: implementations/styx-js/src/sexp.ts, implementations/styx-py/styx/compliance.py,
implementations/styx-go/cmd/styx-compliance/main.go, implementations/styx-swift/Sources/Styx/Sexp.swift.

All print their trees in the format of the compliance suite.  Their trees are modelled by the type of the trees of the
Rust implementation: a place `[-1, -1]` is `none`.  Their documents have entries and no place.
-/

namespace Styx.Impl

open Styx Styx.Cli

/-! ## JavaScript -/

/-- `padStart(4, "0")` (sexp.ts:24). -/
def padStart4 (s : List Char) : List Char := List.replicate (4 - s.length) '0' ++ s

/-- One round of the loop in sexp.ts:3-31 `jsonEscape`. -/
def jsChar (c : Char) : List Char :=
  if c = '"' then ['\\', '"'] else if c = '\\' then ['\\', '\\'] else if c = '\n' then ['\\', 'n']
  else if c = '\r' then ['\\', 'r'] else if c = '\t' then ['\\', 't']
  else if c.toNat < 32 then ['\\', 'u'] ++ padStart4 (Nat.toDigits 16 c.toNat) else [c]

/-- sexp.ts:3-31 `jsonEscape`. -/
def jsEscape (s : List Char) : List Char := s.flatMap jsChar

/-- The characters that `\s` matches. -/
def isJsSpace (c : Char) : Bool :=
  c = ' ' || c = '\t' || c = '\n' || c = '\r' || c = '\x0b' || c = '\x0c' || c = '\u00a0' || c = '\ufeff' ||
  c = '\u1680' || ('\u2000' ≤ c && c ≤ '\u200a') || c = '\u2028' || c = '\u2029' || c = '\u202f' || c = '\u205f' ||
  c = '\u3000'

/-- `result.replace(/\n\s*\)$/, ")")` (sexp.ts:113): the first line feed of the white space before the closing parenthesis
at the end starts the match. -/
def foldClose (s : List Char) : List Char :=
  match s.reverse with
  | ')' :: rest =>
    let white := (rest.takeWhile isJsSpace).reverse
    if '\n' ∈ white then (rest.dropWhile isJsSpace).reverse ++ white.takeWhile (· ≠ '\n') ++ [')'] else s
  | _ => s

mutual
/-- sexp.ts:62-88 `valueToSexp`. -/
def jsValue (level : Nat) : Value → List Char
  | .mk none none sp => sexpPad level ++ (chars! "(unit ") ++ spanText sp ++ (chars! ")")
  | .mk (some t) (some p) sp => sexpPad level ++ (chars! "(tag ") ++ spanText sp ++ (chars! " \"") ++ jsEscape t.name ++
      (chars! "\"\n") ++ jsPayload (level + 1) p ++ (chars! ")")
  | .mk (some t) none sp => sexpPad level ++ (chars! "(tag ") ++ spanText sp ++ (chars! " \"") ++ jsEscape t.name ++
      (chars! "\")")
  | .mk none (some p) _ => jsPayload level p
/-- sexp.ts:90-131 `payloadToSexp`. -/
def jsPayload (level : Nat) : Payload → List Char
  | .scalar text kind sp => sexpPad level ++ (chars! "(scalar ") ++ spanText sp ++ ' ' :: kindName kind ++ (chars! " \"") ++
      jsEscape text ++ (chars! "\")")
  | .sequence [] sp => sexpPad level ++ (chars! "(sequence ") ++ spanText sp ++ (chars! ")")
  | .sequence (v :: vs) sp => foldClose (joinLines ((sexpPad level ++ (chars! "(sequence ") ++ spanText sp) ::
      jsValue (level + 1) v :: (jsItems (level + 1) vs ++ [(sexpPad level).drop 2 ++ (chars! ")")])))
  | .object [] sp => sexpPad level ++ (chars! "(object ") ++ spanText sp ++ (chars! ")")
  | .object (e :: es) sp => joinLines ((sexpPad level ++ (chars! "(object ") ++ spanText sp) ::
      jsEntry (level + 1) e :: (jsEntries (level + 1) es ++ [sexpPad level ++ (chars! ")")]))
/-- sexp.ts:106-108. -/
def jsItems (level : Nat) : List Value → List (List Char)
  | [] => []
  | v :: vs => jsValue level v :: jsItems level vs
/-- sexp.ts:53-60 `entryToSexp`. -/
def jsEntry (level : Nat) : Entry → List Char
  | .mk k v _ => joinLines [sexpPad level ++ (chars! "(entry"), jsValue (level + 1) k, jsValue (level + 1) v ++ (chars! ")")]
/-- sexp.ts:123-125. -/
def jsEntries (level : Nat) : List Entry → List (List Char)
  | [] => []
  | e :: es => jsEntry level e :: jsEntries level es
end

/-- sexp.ts:41-51 `documentToSexp`. -/
def jsDocument (es : List Entry) : List Char :=
  joinLines ((chars! "(document [-1, -1]") :: (jsEntries 1 es ++ [chars! ")"]))

/-- sexp.ts:133-137 `errorToSexp`. -/
def jsError (message : List Char) (sp : Span) : List Char :=
  let full := chars! "parse error at " ++ Nat.toDigits 10 sp.start ++ '-' :: Nat.toDigits 10 sp.stop ++ (chars! ": ") ++ message
  chars! "(error [" ++ Nat.toDigits 10 sp.start ++ (chars! ", ") ++ Nat.toDigits 10 sp.stop ++ (chars! "] \"") ++
    jsEscape full ++ (chars! "\")")

/-! ## Python, Go and Swift

The three printers are the same program, except for the escaping in Swift, which is one pass over the text. -/

/-- `s.replace(c, by)` for a single character. -/
def replaceChar (c : Char) (by' s : List Char) : List Char := s.flatMap fun d => if d = c then by' else [d]

/-- compliance.py:22-30 `escape_string`, main.go:81-88 `escapeString`. -/
def pyEscape (s : List Char) : List Char :=
  replaceChar '\t' ['\\', 't'] (replaceChar '\r' ['\\', 'r'] (replaceChar '\n' ['\\', 'n']
    (replaceChar '"' ['\\', '"'] (replaceChar '\\' ['\\', '\\'] s))))

mutual
/-- compliance.py:33-54 `format_value`, main.go:90-115 `formatValue`, Sexp.swift:22-43 `Value.toSexp`. -/
def pyValue (ind : Nat) : Value → List Char
  | .mk none none sp => chars! "(unit " ++ spanText sp ++ (chars! ")")
  | .mk (some t) none sp => chars! "(tag " ++ spanText sp ++ (chars! " \"") ++ t.name ++ (chars! "\")")
  | .mk (some t) (some p) sp => chars! "(tag " ++ spanText sp ++ (chars! " \"") ++ t.name ++ (chars! "\"\n") ++
      sexpPad ind ++ (chars! "  ") ++ pyPayload (ind + 1) p ++ (chars! ")")
  | .mk none (some p) _ => pyPayload ind p
/-- compliance.py:57-79 `format_payload`, main.go:117-149 `formatPayload`, Sexp.swift:45-72 `payloadToSexp`. -/
def pyPayload (ind : Nat) : Payload → List Char
  | .scalar text kind sp => chars! "(scalar " ++ spanText sp ++ ' ' :: kindName kind ++ (chars! " \"") ++ pyEscape text ++
      (chars! "\")")
  | .sequence [] sp => chars! "(sequence " ++ spanText sp ++ (chars! ")")
  | .sequence (v :: vs) sp => chars! "(sequence " ++ spanText sp ++ '\n' ::
      joinLines ((sexpPad ind ++ (chars! "  ") ++ pyValue (ind + 1) v) :: pyItems ind vs) ++ (chars! ")")
  | .object [] sp => chars! "(object " ++ spanText sp ++ (chars! ")")
  | .object (e :: es) sp => chars! "(object " ++ spanText sp ++ '\n' ::
      joinLines (pyEntry (ind + 1) e :: pyEntries (ind + 1) es) ++ '\n' :: sexpPad ind ++ (chars! ")")
/-- compliance.py:70, main.go:130-133, Sexp.swift:60-61. -/
def pyItems (ind : Nat) : List Value → List (List Char)
  | [] => []
  | v :: vs => (sexpPad ind ++ (chars! "  ") ++ pyValue (ind + 1) v) :: pyItems ind vs
/-- compliance.py:82-87 `format_entry`, main.go:151-156 `formatEntry`, Sexp.swift:13-18 `Entry.toSexp`. -/
def pyEntry (ind : Nat) : Entry → List Char
  | .mk k v _ => sexpPad ind ++ (chars! "(entry\n") ++ sexpPad ind ++ (chars! "  ") ++ pyValue (ind + 1) k ++
      '\n' :: sexpPad ind ++ (chars! "  ") ++ pyValue (ind + 1) v ++ (chars! ")")
/-- compliance.py:76, main.go:141-144, Sexp.swift:68. -/
def pyEntries (ind : Nat) : List Entry → List (List Char)
  | [] => []
  | e :: es => pyEntry ind e :: pyEntries ind es
end

/-- compliance.py:90-95 `format_document`, main.go:158-167 `formatDocument`, Sexp.swift:3-9 `Document.toSexp`. -/
def pyDocument (es : List Entry) : List Char :=
  if es.isEmpty then chars! "(document [-1, -1]\n)"
  else chars! "(document [-1, -1]\n" ++ joinLines (pyEntries 1 es) ++ (chars! "\n)")

/-- compliance.py:98-101 `format_error`, main.go:169-172 `formatError`. -/
def pyError (message : List Char) (sp : Span) : List Char :=
  chars! "(error [" ++ Nat.toDigits 10 sp.start ++ (chars! ", ") ++ Nat.toDigits 10 sp.stop ++
    (chars! "] \"parse error at ") ++ Nat.toDigits 10 sp.start ++ '-' :: Nat.toDigits 10 sp.stop ++ (chars! ": ") ++
    replaceChar '\\' ['\\', '\\'] message ++ (chars! "\")")

/-- Sexp.swift:75-89 `escapeString`. -/
def swiftEscape (s : List Char) : List Char :=
  s.flatMap fun c =>
    if c = '\\' then ['\\', '\\'] else if c = '"' then ['\\', '"'] else if c = '\n' then ['\\', 'n']
    else if c = '\r' then ['\\', 'r'] else if c = '\t' then ['\\', 't'] else [c]

/-- Sexp.swift:92-96 `ParseError.toSexp`. -/
def swiftError (message : List Char) (sp : Span) : List Char :=
  chars! "(error [" ++ Nat.toDigits 10 sp.start ++ (chars! ", ") ++ Nat.toDigits 10 sp.stop ++
    (chars! "] \"parse error at ") ++ Nat.toDigits 10 sp.start ++ '-' :: Nat.toDigits 10 sp.stop ++ (chars! ": ") ++
    swiftEscape message ++ (chars! "\")")

end Styx.Impl
