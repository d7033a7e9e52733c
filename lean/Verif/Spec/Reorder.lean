import Verif.Spec.Response
/-
When two introspection documents list the same things in another order (C113).
-/
set_option autoImplicit false

namespace Qlc.Spec

/-- Both lists are missing, or both are there and hold the same, in any order. -/
def SameUpToOrder {α : Type} : Option (List α) → Option (List α) → Prop
  | none, none => True
  | some a, some b => a.Perm b
  | _, _ => False

/-- Two descriptions of a type that differ only in the order of its fields, input fields, possible types and enum
values. -/
structure SameType (j j' : JType) : Prop where
  kind : j'.kind = j.kind
  name : j'.name = j.name
  description : j'.description = j.description
  possibleTypes : SameUpToOrder j.possibleTypes j'.possibleTypes
  inputFields : SameUpToOrder j.inputFields j'.inputFields
  fields : SameUpToOrder j.fields j'.fields
  enumValues : SameUpToOrder j.enumValues j'.enumValues

/-- The documents list the same types, in any order, and each type as in `SameType`. -/
def Reordered (doc doc' : JSchema) : Prop :=
  ∃ types, doc.types.Perm types ∧ List.Forall₂ SameType types doc'.types

/-- No type is listed twice, and no type lists a field or input field twice. -/
structure UniqueNames (doc : JSchema) : Prop where
  types : (doc.types.map JType.name).Nodup
  fields : ∀ j ∈ doc.types, ∀ fs, j.fields = some fs → (fs.map JField.name).Nodup
  inputFields : ∀ j ∈ doc.types, ∀ fs, j.inputFields = some fs → (fs.map JField.name).Nodup

end Qlc.Spec
