import Verif.Model.Typescript
/-
How scalars are to be spelled in generated files.
-/
set_option autoImplicit false

namespace Qlc.Spec

/-- How a scalar name should be spelled in TypeScript. -/
def scalarSpelling (cfg : TsConfig) (name : String) : String :=
  if name = "Boolean" then "boolean"
  else if name = "String" ∨ name = "ID" then "string"
  else if name = "Int" ∨ name = "Float" then "number"
  else match cfg.bottomTypeConfig with
    | .defaultBottomType => "any"
    | .realName => name
    | .realNameWithPrefix p => p ++ name

end Qlc.Spec
