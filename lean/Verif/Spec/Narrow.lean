import Verif.Spec.Response
/-
A new version of a schema that promises more (C121).
-/
set_option autoImplicit false

namespace Qlc.Spec

/-- The first type is the second with more non-null marks. -/
def NarrowerTy : VarTy → VarTy → Prop
  | .named A, .named B => A = B
  | .list a, .list b => NarrowerTy a b
  | .nonNull a, .nonNull b => NarrowerTy a b
  | .nonNull a, b => NarrowerTy a b
  | _, _ => False

/-- The new version of the schema has the same types with the same members and fields; field types may have got
non-null marks, and enums may have lost values. -/
structure PromisesMore (new old : JSchema) : Prop where
  members : ∀ P T, T ∈ objectTypes new P ↔ T ∈ objectTypes old P
  fields : ∀ P name k t', fieldType new P name = some (k, t') →
    ∃ t, fieldType old P name = some (k, t) ∧ NarrowerTy t' t
  enums : ∀ n j' vs', typeNamed new n = some j' → j'.enumValues = some vs' →
    ∃ j vs, typeNamed old n = some j ∧ j.enumValues = some vs ∧ ∀ s ∈ vs', s ∈ vs

end Qlc.Spec
