import Verif.Spec.Alike
import Verif.Spec.Types
/-
When two documents, possibly read against two schemas, ask for the same data (C95).
-/
set_option autoImplicit false

namespace Qlc.Spec

/-- The collected fields `L` and `L'` have the same response keys, and under each key the first fields have
the same documentation, the same deprecation mark and the same values; `S` compares what is selected under two
keys. -/
def SameFields (S : String → List (List Selection) → String → List (List Selection) → Prop)
    (L L' : List Contribution) : Prop :=
  ∀ key, match L.filter (fun c => decide (c.key = key)), L'.filter (fun c => decide (c.key = key)) with
    | [], [] => True
    | c :: _, c' :: _ =>
      c.field.documentation = c'.field.documentation ∧ c.field.deprecated = c'.field.deprecated ∧
      SameValues (S c.field.type.name (merged L key) c'.field.type.name (merged L' key)) c.field.type c'.field.type
    | _, _ => False

/-- Down to depth `n`: the selection sets `sets` on type `P` of one schema collect for the same object types the
same fields as `sets'` on type `P'` of another. -/
def SameTo (schema schema' : Schema) (frags frags' : Frags) : Nat → String → List (List Selection) → String →
    List (List Selection) → Prop
  | 0, _, _, _, _ => True
  | n + 1, P, sets, P', sets' =>
    (∀ T, T ∈ possibleTypes schema P ↔ T ∈ possibleTypes schema' P') ∧
    ∀ T ∈ possibleTypes schema P, ∀ L L', CollMany schema frags T P sets L →
      CollMany schema' frags' T P' sets' L' → SameFields (SameTo schema schema' frags frags' n) L L'

/-- The selection sets ask for the same data, at every depth. -/
def AskSame (schema schema' : Schema) (frags frags' : Frags) (P : String) (sets : List (List Selection))
    (P' : String) (sets' : List (List Selection)) : Prop :=
  ∀ n, SameTo schema schema' frags frags' n P sets P' sets'

/-- What a variable is called and the type it is declared with. -/
def declared (v : VarDef) : String × VarTy := (v.name, v.type)

/-- Two definitions of the same sort with the same name and the same variables.  Positions, directives, default
values, selections and, for fragments, the type condition may differ. -/
inductive SameHead : Definition → Definition → Prop where
  | operation {kw : OpKeyword} {pos pos' : Pos} {name : Option String} {vars vars' : List VarDef}
      {dirs dirs' : List Directive} {items items' : List Selection} :
      vars.map declared = vars'.map declared →
      SameHead (.operation kw pos name vars dirs items) (.operation kw pos' name vars' dirs' items')
  | fragment {f f' : FragmentDef} : f.name = f'.name → SameHead (.fragment f) (.fragment f')

/-- The name is the name of a scalar type. -/
def IsScalarType (schema : Schema) (n : String) : Prop :=
  ∃ t s, schema.getType n = some t ∧ t.definition = .scalar s

/-- The schemas agree on which types of the variables, apart from the built-in ones, are scalars. -/
def VariableKindsAgree (schema schema' : Schema) (d : Definition) : Prop :=
  ∀ v ∈ varsOf d, baseName v.type ∉ ["ID", "String", "Float", "Int", "Boolean"] →
    (IsScalarType schema (baseName v.type) ↔ IsScalarType schema' (baseName v.type))

end Qlc.Spec
