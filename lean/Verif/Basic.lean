/-!
# Basics shared by all layers

Source text is modelled as `List Char`; Lean's `Char` and Rust's `char` are both exactly the Unicode
scalar values.  Byte offsets are computed with `Char.utf8Size`.
-/

namespace Styx

open Lean in
/-- Test helper: `chars! "ab"` expands to the literal list `['a', 'b']`, which the kernel evaluates
directly (a `String` literal is stored as UTF-8 bytes).  Models no code. -/
macro "chars!" s:str : term => do
  let mut r : TSyntax `term ← `(([] : List Char))
  for c in s.getString.toList.reverse do
    let l : TSyntax `term := ⟨Syntax.mkCharLit c⟩
    r ← `(List.cons $l $r)
  return r

/-- UTF-8 length in bytes of a text.  Models Rust's `str::len` (and the sum of `char::len_utf8`
used by `Tokenizer::advance`, crates/styx-tokenizer/src/tokenizer.rs:75-80). -/
def utf8Len : List Char → Nat
  | [] => 0
  | c :: cs => c.utf8Size + utf8Len cs

/-- Rust's `char::is_whitespace`: the Unicode `White_Space` property, written out.
Used by `is_bare_scalar_start` / `is_bare_scalar_char`
(crates/styx-tokenizer/src/tokenizer.rs:606-619). -/
def isWhitespace (c : Char) : Bool :=
  let n := c.toNat
  (9 ≤ n && n ≤ 13) || n == 0x20 || n == 0x85 || n == 0xA0 || n == 0x1680 ||
  (0x2000 ≤ n && n ≤ 0x200A) || n == 0x2028 || n == 0x2029 || n == 0x202F || n == 0x205F ||
  n == 0x3000

/-- `str::strip_prefix`: the rest of the text after prefix `p`, if it starts with `p`. -/
def stripPrefix : List Char → List Char → Option (List Char)
  | [], s => some s
  | _ :: _, [] => none
  | p :: ps, c :: cs => if p = c then stripPrefix ps cs else none

/-- `str::starts_with` for a literal prefix
(crates/styx-tokenizer/src/tokenizer.rs:90-93). -/
def startsWith (s p : List Char) : Bool := (stripPrefix p s).isSome

end Styx
