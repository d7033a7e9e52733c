import Verif.Spec.Response
/-
A server that is upgraded while the generated files are not (C134).
-/
set_option autoImplicit false

namespace Qlc.Spec

/-- The first type has at least the non-null marks of the second, the same lists, and a named type that `ok` lets stand
for the second's. -/
def SaferTy (ok : String → String → Prop) : VarTy → VarTy → Prop
  | .named A, .named B => ok A B
  | .list a, .list b => SaferTy ok a b
  | .nonNull a, .nonNull b => SaferTy ok a b
  | .nonNull a, b => SaferTy ok a b
  | _, _ => False

/-- The new version of the schema gives no answers that the old one does not let expect: the interfaces and unions of the
old version get no further object types, fields may get non-null marks or more special types, enums get no further values.
Types, fields and arguments may be added without restriction; and fields, enum values and members may be dropped. -/
structure AnswersSafe (new old : JSchema) : Prop where
  /-- The old composite types get no further object types … -/
  objects : ∀ C, CompositeNamed old C → ∀ T ∈ objectTypes new C, T ∈ objectTypes old C
  /-- … and lose only those that are dropped altogether. -/
  kept : ∀ C, CompositeNamed old C → ∀ T ∈ objectTypes old C, kindNamed new T = some "OBJECT" → T ∈ objectTypes new C
  /-- A scalar or enum field keeps its type, but for non-null marks. -/
  leaves : ∀ T name k t k' t', fieldType old T name = some (k, t) → fieldType new T name = some (k', t') →
    ¬ CompositeKind k → k' = k ∧ SaferTy (· = ·) t' t
  /-- Another field keeps the lists of its type, and has objects only of types that it had before. -/
  composites : ∀ T name k t k' t', fieldType old T name = some (k, t) → fieldType new T name = some (k', t') →
    CompositeKind k → CompositeKind k' ∧ SaferTy (fun a b => ∀ U ∈ objectTypes new a, U ∈ objectTypes old b) t' t
  /-- Enums get no further values. -/
  enums : ∀ n, kindNamed old n = some "ENUM" → ∀ j' vs', typeNamed new n = some j' → j'.enumValues = some vs' →
    ∃ j vs, typeNamed old n = some j ∧ j.enumValues = some vs ∧ ∀ s ∈ vs', s ∈ vs
  /-- No type has a field with one of the names of introspection. -/
  reserved : ∀ T, fieldType new T "__schema" = none ∧ fieldType new T "__type" = none

end Qlc.Spec
