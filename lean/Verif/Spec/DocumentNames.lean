import Verif.Spec.Guideline
import Verif.Spec.GraphqlText
/-
What is left to ask of the names in documents that were read from texts (C130).
-/
set_option autoImplicit false

namespace Qlc.Spec

/-- The name of the definition is neither a reserved word nor a type of TypeScript, and the types that are generated
from it are not called like types of the schema. -/
structure NameFree (cfg : TsConfig) (doc : JSchema) (d : Definition) : Prop where
  notReserved : dataName d ∉ reservedWords
  notPredefined : dataName d ∉ predefinedTypes
  apart : ∀ n, Outside cfg doc n ∨ kindNamed doc n = some "INPUT_OBJECT" →
    ¬ Generated (dataName d) n ∧ n ≠ dataName d ++ "Variables"

/-- What is asked of a file besides what GraphQL asks (see `RuledFile`), if it is read as GraphQL. -/
def RuledText (ext : Ext) (w : World) (cfg : CompileConfig) (doc : JSchema) (schema : Schema)
    (applies : List Directive → Prop) (p : Path) : Prop :=
  ∀ contents d, w.read p = .ok contents → ext.parse contents = .ok [d] →
    ValidVars doc (varsOf d) ∧ Unconditional applies (itemsOf d) ∧ NameFree cfg.toTsConfig doc d ∧
    ∀ frags, InScope ext w cfg p contents frags → FragsApply applies frags ∧
      ∀ P, serverRoot d = some P → ShapesAgree schema frags P [itemsOf d] ∧ FollowsRule doc frags P (itemsOf d)

end Qlc.Spec
