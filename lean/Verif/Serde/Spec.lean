import Verif.Serde.Model
import Verif.Format.PrintSpec

/-!
# Specification: values of a type, and those that survive a round trip
-/

namespace Styx.Spec

open Styx.Serde

mutual
/-- `HasTy t d`: `d` is a value of the type `t`. -/
def HasTy : Ty → Data → Prop
  | .unit, .unit => True
  | .bool, .bool _ => True
  | .int true bits, .int n => -(2 ^ (bits - 1)) ≤ n ∧ n < 2 ^ (bits - 1)
  | .int false bits, .int n => 0 ≤ n ∧ n < 2 ^ bits
  | .char, .char _ => True
  | .str, .str _ => True
  | .bytes, .bytes _ => True
  | .option _, .none => True
  | .option t, .some d => HasTy t d
  | .seq t, .seq ds => ∀ d ∈ ds, HasTy t d
  | .map t, .fields fs => (fs.map Field.key).Nodup ∧ ∀ f ∈ fs, HasTy t f.data
  | .struct ts, .fields fs => HasFields ts fs
  | .tuple ts, .seq ds => HasTys ts ds
  | .enum vs, d => HasVariant vs d
  | _, _ => False
/-- A value for each field, in order. -/
def HasFields : Fields → List Field → Prop
  | .nil, [] => True
  | .cons name t rest, .mk k d :: fs => k = name ∧ HasTy t d ∧ HasFields rest fs
  | _, _ => False
/-- A value for each component. -/
def HasTys : Tys → List Data → Prop
  | .nil, [] => True
  | .cons t rest, d :: ds => HasTy t d ∧ HasTys rest ds
  | _, _ => False
/-- A value of one of the variants. -/
def HasVariant : Variants → Data → Prop
  | .nil, _ => False
  | .cons name s rest, d => HasShape name s d ∨ HasVariant rest d
/-- A value of the variant `name`. -/
def HasShape (name : List Char) : Shape → Data → Prop
  | .unit, .unitVariant n => n = name
  | .newtype t, .newtypeVariant n d => n = name ∧ HasTy t d
  | .tuple ts, .tupleVariant n ds => n = name ∧ HasTys ts ds
  | .struct ts, .structVariant n fs => n = name ∧ HasFields ts fs
  | _, _ => False
end

/-- The names of the fields of a struct. -/
def fieldNames : Fields → List (List Char)
  | .nil => []
  | .cons name _ rest => name :: fieldNames rest

mutual
/-- A type that Rust accepts: the fields of a struct have different names, and so have the variants of an enum. -/
def WfTy : Ty → Prop
  | .option t => WfTy t
  | .seq t => WfTy t
  | .map t => WfTy t
  | .struct fs => (fieldNames fs).Nodup ∧ WfFields fs
  | .tuple ts => WfTys ts
  | .enum vs => (variantNames vs).Nodup ∧ WfVariants vs
  | _ => True
/-- … for the types of fields … -/
def WfFields : Fields → Prop
  | .nil => True
  | .cons _ t rest => WfTy t ∧ WfFields rest
/-- … of components … -/
def WfTys : Tys → Prop
  | .nil => True
  | .cons t rest => WfTy t ∧ WfTys rest
/-- … and of variants. -/
def WfVariants : Variants → Prop
  | .nil => True
  | .cons _ s rest => WfShape s ∧ WfVariants rest
/-- What a variant carries. -/
def WfShape : Shape → Prop
  | .unit => True
  | .newtype t => WfTy t
  | .tuple ts => WfTys ts
  | .struct fs => (fieldNames fs).Nodup ∧ WfFields fs
/-- The names of variants. -/
def variantNames : Variants → List (List Char)
  | .nil => []
  | .cons name _ rest => name :: variantNames rest
end

mutual
/-- Types without enums, tuples and 128-bit integers. -/
def BasicTy : Ty → Prop
  | .int _ bits => bits ≤ 64
  | .option t => BasicTy t
  | .seq t => BasicTy t
  | .map t => BasicTy t
  | .struct fs => BasicFields fs
  | .tuple _ => False
  | .enum _ => False
  | _ => True
/-- … for the types of fields. -/
def BasicFields : Fields → Prop
  | .nil => True
  | .cons _ t rest => BasicTy t ∧ BasicFields rest
end

/-- A type for each component, without enums, tuples and 128-bit integers. -/
def BasicTys : Tys → Prop
  | .nil => True
  | .cons t rest => BasicTy t ∧ BasicTys rest

/-- A key that is written faithfully: if no character forces quotes there is no `>`. -/
def PlainKey (k : List Char) : Prop := canBeBare k = true → '>' ∉ k

mutual
/-- A value that survives the round trip: strings are short of being heredocs and have no `>` when they are
written bare, the payload of `Some` is not itself written `@`, and there are no variants of enums. -/
def Survives (o : FormatOptions) : Data → Prop
  | .char c => o.heredocThreshold ≤ countNewlines [c] → canBeBare [c] = true
  | .str s => PlainString o false s
  | .some d => Survives o d ∧ notUnit d
  | .seq ds => SurviveAll o ds
  | .fields fs => SurviveFields o fs
  | .unitVariant _ => False
  | .newtypeVariant _ _ => False
  | .tupleVariant _ _ => False
  | .structVariant _ _ => False
  | _ => True
/-- … for all elements … -/
def SurviveAll (o : FormatOptions) : List Data → Prop
  | [] => True
  | d :: ds => Survives o d ∧ SurviveAll o ds
/-- … and all fields. -/
def SurviveFields (o : FormatOptions) : List Field → Prop
  | [] => True
  | .mk k d :: fs => PlainKey k ∧ Survives o d ∧ SurviveFields o fs
/-- The value is not written `@`. -/
def notUnit : Data → Prop
  | .unit => False
  | .none => False
  | .some d => notUnit d
  | _ => True
end

/-- `gs` lists the fields `fs` of a struct in some order: optional fields that are `None` may be left out, and there
may be fields that the struct does not have, whose values are not written `@`. -/
def Listed (T : Fields) (fs gs : List Field) : Prop :=
  (gs.map Field.key).Nodup ∧
  (∀ f ∈ fs, f ∈ gs ∨ f.data = .none ∧ f.key ∉ gs.map Field.key) ∧
  ∀ g ∈ gs, g ∈ fs ∨ g.key ∉ fieldNames T ∧ notUnit g.data

end Styx.Spec
