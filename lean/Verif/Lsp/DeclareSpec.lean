import Verif.Lsp.Declare
import Verif.Text.Grammar
import Verif.Schema.Spec

/-!
# Specification: the schema declaration of a document

After the comment of `find_schema_declaration` and docs/content: `@schema @`, `@schema path`, `@schema {id …, cli …}`.
Uses the type of schema references and none of the functions of the model.
-/

namespace Styx.Spec

open Styx.Lsp (SchemaRef)
open Styx.Schema (KeyIs IsUnitValue)

/-- An untagged text. -/
def IsText (v : Value) (text : List Char) : Prop := ∃ kind sp sp', v = .mk none (some (.scalar text kind sp)) sp'

/-- The first field with this name has this value. -/
def FirstField (es : List Entry) (name : List Char) (v : Value) : Prop :=
  ∃ pre k d post, es = pre ++ Entry.mk k v d :: post ∧ IsText k name ∧ ∀ e ∈ pre, ¬ KeyIs e name

/-- The entry declares a schema. -/
inductive Declares : Entry → SchemaRef → Prop
  | optOut {t p sp v d} : t.name = chars! "schema" → IsUnitValue v → Declares (.mk (.mk (some t) p sp) v d) .optOut
  | external {t p sp v d path} : t.name = chars! "schema" → IsText v path →
      Declares (.mk (.mk (some t) p sp) v d) (.external path)
  | embedded {t p sp vt es osp vsp d id cli i c} : t.name = chars! "schema" → FirstField es (chars! "id") i →
      IsText i id → FirstField es (chars! "cli") c → IsText c cli →
      Declares (.mk (.mk (some t) p sp) (.mk vt (some (.object es osp)) vsp) d) (.embedded id cli)

/-- A root entry is not in the way of `@schema`: its name is another one. -/
def NotSchema (e : RootEntry) : Prop := e.path.head? ≠ some (chars! "@schema")

/-- The key `@schema`. -/
def schemaKey : Value := .mk (some ⟨chars! "schema", none⟩) none none

/-- The value `{id …, cli …}`. -/
def schemaFields (id cli : List Char) : Value :=
  .mk none (some (.object [.mk (scalarValue (chars! "id") .bare) (scalarValue id .bare) none,
    .mk (scalarValue (chars! "cli") .bare) (scalarValue cli .bare) none] none)) none

end Styx.Spec
