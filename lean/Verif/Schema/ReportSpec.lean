import Verif.Schema.Spec

/-!
# Specification: what validating an object reports
-/

namespace Styx.Schema

variable {F : Type}

/-- The path of the field `key` of the object at `path`. -/
def pathAt (path key : List Char) : List Char :=
  match path with
  | [] => key
  | _ => path ++ ['.'] ++ key

/-- How a key is shown in a path: the text of a scalar, `@` for unit. -/
def KeyShown (e : Entry) (shown : List Char) : Prop :=
  KeyIs e shown ∨ IsUnitValue e.key ∧ shown = ['@']

/-- The key of the entry is not one of the named fields. -/
def NoNamedField (fields : List (ObjectKey × Schema F)) (e : Entry) : Prop :=
  ∀ name s, KeyIs e name → (⟨some name, none⟩, s) ∉ fields

/-- The errors reported for one entry of an object: those of validating its value against the
schema of its field, or against the catch-all when there is no such field, or one unknown-field
error when there is no catch-all either.  A key that is neither scalar nor unit is an error. -/
inductive EntryReport (E : Env F) (sf : SchemaFile F) (fields : List (ObjectKey × Schema F))
    (path : List Char) (e : Entry) : List Err → Prop where
  | field {name s m r} : KeyIs e name → (⟨some name, none⟩, s) ∈ fields →
      validate E sf m e.value s (pathAt path name) = some r → EntryReport E sf fields path e r.errors
  | additional {shown k s m r} : KeyShown e shown → NoNamedField fields e →
      (k, s) ∈ fields → k.tag.isSome → validate E sf m e.value s (pathAt path shown) = some r →
      EntryReport E sf fields path e r.errors
  | unknown {shown suggestion} : KeyShown e shown → NoNamedField fields e →
      (∀ f ∈ fields, f.1.tag = none) →
      EntryReport E sf fields path e
        [⟨pathAt path shown, e.key.span,
          .unknownField shown (fields.filterMap (·.1.value)) suggestion⟩]
  | badKey : (¬ ∃ shown, KeyShown e shown) →
      EntryReport E sf fields path e [⟨path, e.key.span, .invalidValue .badKey⟩]

/-- The error for a missing field. -/
def IsMissing (fields : List (ObjectKey × Schema F)) (es : List Entry) (path : List Char)
    (span : Option Span) (err : Err) : Prop :=
  ∃ name s, (⟨some name, none⟩, s) ∈ fields ∧ (∀ e ∈ es, ¬ KeyIs e name) ∧
    (∀ i, s ≠ Schema.optional i) ∧ (∀ t i, s ≠ Schema.default t i) ∧
    err = ⟨pathAt path name, span, .missingField name⟩

end Styx.Schema
