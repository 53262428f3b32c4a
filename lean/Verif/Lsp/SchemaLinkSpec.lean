import Verif.Lsp.LoadSpec
import Verif.Lsp.SchemaLink
import Verif.Lsp.Spec

/-! # Specification: the link and the hint at the declaration of the schema -/

namespace Styx.Spec

open Styx Styx.Cli

variable {F : Type}

/-- The range cuts the text out of the document: from its start on, the document goes on with the text; from its end
on, with what comes after it. -/
def CutsOut (content : List Char) (start stop : Lsp.Position) (text : List Char) : Prop :=
  ∃ before after, content = before ++ text ++ after ∧ fromPosition content start = text ++ after ∧
    fromPosition content stop = after

/-- The cache is in order for a text that goes to the path: the path is absolute, and the file there either holds the
text, or is not there and can be written in full and read. -/
def CacheWorks (W : World F) (mkdirs : List Char → Bool) (d : Disk) (path text : List Char) : Prop :=
  path.head? = some '/' ∧
  (HoldsText W d path text ∨
    ∃ f, W.lead path = some f ∧ d f = none ∧ mkdirs path = true ∧ W.mayRead f = true ∧ W.mayWrite f = true ∧
      (W.parts f (utf8 text)).flatten = utf8 text)

/-- The declaration is an object with the texts for `id` and `cli`. -/
def NamesProgram (w : Value) (id cli : List Char) : Prop :=
  w.asStr = none ∧ ∃ es i c, w.asObject = some es ∧ objGet es (chars! "id") = some i ∧ i.asStr = some id ∧
    objGet es (chars! "cli") = some c ∧ c.asStr = some cli

/-- The block `meta` of a schema says the text for the key. -/
def SaysMeta (source key text : List Char) : Prop :=
  ∃ v es m ms i, parseTree source = some (.ok v) ∧ v.asObject = some es ∧ objGet es (chars! "meta") = some m ∧
    m.asObject = some ms ∧ objGet ms key = some i ∧ i.asStr = some text

/-- The schema says the text for the key, or (for `none`) nothing. -/
def Says (source key : List Char) : Option (List Char) → Prop
  | some text => SaysMeta source key text
  | none => ∀ text, ¬ SaysMeta source key text

/-- A line without the white space around it. -/
def Trimmed (line short : List Char) : Prop :=
  ∃ a b, line = a ++ short ++ b ∧ (∀ c ∈ a, isWhitespace c = true) ∧ (∀ c ∈ b, isWhitespace c = true) ∧
    (∀ c, short.head? = some c → isWhitespace c = false) ∧ ∀ c, short.getLast? = some c → isWhitespace c = false

/-- The first line of a description, without the white space around it; an empty description has none. -/
def FirstLine : Option (List Char) → Option (List Char) → Prop
  | some (c :: cs), some short => ∃ line, Trimmed line short ∧ '\n' ∉ line ∧
      (c :: cs = line ∨ ∃ rest, c :: cs = line ++ '\n' :: rest)
  | some [], none => True
  | none, none => True
  | _, _ => False

/-- What the hint shows for a description in one line and a version. -/
inductive Announces : Option (List Char) → Option (List Char) → List Char → Prop
  | both (desc ver) : Announces (some desc) (some ver) (chars! " — " ++ desc ++ chars! " (" ++ ver ++ chars! ")")
  | plain (desc) : Announces (some desc) none (chars! " — " ++ desc)
  | version (ver) : Announces none (some ver) (chars! " — v" ++ ver)

/-- What the tooltip of the hint shows for an identifier and a description: descriptions of one line are left out. -/
inductive Explains : Option (List Char) → Option (List Char) → Option (List Char) → Prop
  | nothing {desc} : (∀ x, desc = some x → '\n' ∉ x) → Explains none desc none
  | id (i) {desc} : (∀ x, desc = some x → '\n' ∉ x) → Explains (some i) desc (some (chars! "Schema ID: " ++ i))
  | both (i x) : '\n' ∈ x → Explains (some i) (some x) (some (chars! "Schema ID: " ++ i ++ chars! "\n\n" ++ x))
  | description (x) : '\n' ∈ x → Explains none (some x) (some ('\n' :: x))

end Styx.Spec
