import Verif.Spec.Response
/-
When one introspection document only adds to another (C97).
-/
set_option autoImplicit false

namespace Qlc.Spec

/-- The schema `doc'` adds to the schema `doc`: every type keeps its kind, every declared field of an object type
or interface keeps its description, and every interface and union keeps its object types.  Types, fields,
enum values and input fields may have been added, and input objects and enums changed. -/
structure Grows (doc doc' : JSchema) : Prop where
  kinds : ∀ n k, kindNamed doc n = some k → kindNamed doc' n = some k
  fields : ∀ P name f, lastNamed JField.name name (declaredFields doc P) = some f →
    lastNamed JField.name name (declaredFields doc' P) = some f
  objects : ∀ P, CompositeNamed doc P → ∀ T, T ∈ objectTypes doc P ↔ T ∈ objectTypes doc' P

/-- Every enum and input object of `doc` is described in `doc'` as it is in `doc`. -/
def SameInputs (doc doc' : JSchema) : Prop :=
  ∀ n, kindNamed doc n = some "ENUM" ∨ kindNamed doc n = some "INPUT_OBJECT" → typeNamed doc' n = typeNamed doc n

end Qlc.Spec
