import Verif.Spec.Narrow
import Verif.Spec.EndToEnd
/-
New versions of a schema and of a document that ask for less (C122).
-/
set_option autoImplicit false

namespace Qlc.Spec

/-- The new version of the schema takes at least the input of the old one: types of input fields may have lost
non-null marks, nullable input fields may have been added, and enums may have got values. -/
structure DemandsLess (new old : JSchema) : Prop where
  kinds : ∀ n k, k ∈ ["SCALAR", "ENUM", "INPUT_OBJECT"] → kindNamed old n = some k → kindNamed new n = some k
  fields : ∀ P name k t, inputFieldType old P name = some (k, t) →
    ∃ t', inputFieldType new P name = some (k, t') ∧ NarrowerTy t t'
  added : ∀ P, kindNamed old P = some "INPUT_OBJECT" → ∀ name ∈ (inputFields new P).map JField.name,
    name ∉ (inputFields old P).map JField.name →
    ∃ k t, inputFieldType new P name = some (k, t) ∧ isNullable t = true
  enums : ∀ n j vs, typeNamed old n = some j → j.enumValues = some vs →
    ∃ j' vs', typeNamed new n = some j' ∧ j'.enumValues = some vs' ∧ ∀ s ∈ vs, s ∈ vs'

/-- The new variables take at least the values of the old ones: none is dropped, types may have lost non-null
marks, and nullable variables may have been added. -/
structure WiderVars (new old : List VarDef) : Prop where
  kept : ∀ x ∈ old, ∃ y ∈ new, y.name = x.name
  types : ∀ x ∈ old, ∀ y ∈ new, y.name = x.name → NarrowerTy x.type y.type
  added : ∀ y ∈ new, (∀ x ∈ old, x.name ≠ y.name) → isNullable y.type = true

/-- The conditions on a document under which C80 describes its variables type. -/
structure VariablesFit (cfg : TsConfig) (doc : JSchema) (frags : Frags) (d : Definition) : Prop where
  name : IsBinding (dataName d)
  keys : ∀ k ∈ fieldKeys (itemsOf d), IsGqlName k
  fragmentKeys : ∀ name fd, AMap.get? frags name = some fd → ∀ k ∈ fieldKeys fd.items, IsGqlName k
  variablesValid : ValidVars doc (varsOf d)
  variableNames : ∀ x ∈ varsOf d, IsGqlName x.name
  apart : ∀ n, Outside cfg doc n ∨ kindNamed doc n = some "INPUT_OBJECT" →
    ¬ Generated (dataName d) n ∧ n ≠ dataName d ++ "Variables"

end Qlc.Spec
