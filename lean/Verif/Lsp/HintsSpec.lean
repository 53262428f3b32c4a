import Verif.Lsp.Hints

/-! # Specification: which files belong to which tool -/

namespace Styx.Lsp.Hints

open Styx

/-- An absolute path from its parts. -/
def spell (parts : List (List Char)) : List Char := parts.flatMap ('/' :: ·)

/-- Two absolute paths are the same up to parts that are empty or a single dot. -/
def SamePath (s t : List Char) : Prop :=
  ∃ ps qs, (∀ p ∈ ps ++ qs, '/' ∉ p) ∧ s = spell ps ∧ t = spell qs ∧
    (ps.filter fun p => p ∉ [[], ['.']]) = qs.filter fun p => p ∉ [[], ['.']]

/-- The file is one of the tool, by the registry: `dirs` is any text, `config` the directory of the user's
configuration. -/
inductive Belongs (config : Option (List Char)) : List Char → List Char → Prop where
  | captain (dirs : List Char) : Belongs config (chars! "captain") (dirs ++ chars! "/.config/captain/config.styx")
  | dodeca (dirs : List Char) : Belongs config (chars! "dodeca") (dirs ++ chars! "/.config/dodeca.styx")
  | tracey (dirs : List Char) : Belongs config (chars! "tracey") (dirs ++ chars! "/.config/tracey/config.styx")
  | dibs (dirs : List Char) : Belongs config (chars! "dibs") (dirs ++ chars! "/.config/dibs.styx")
  | queries (dirs rest : List Char) :
      Belongs config (chars! "dibs-queries") (dirs ++ chars! "/.dibs-queries/" ++ rest ++ chars! ".styx")
  | server {dir file : List Char} (h : config = some dir)
      (same : SamePath file (dir ++ chars! "/styx/config.styx")) :
      Belongs config (chars! "styx-lsp") file
  | squiggles (dirs : List Char) :
      Belongs config (chars! "squiggles") (dirs ++ chars! "/.config/squiggles/config.styx")

end Styx.Lsp.Hints
