import Verif.Spec.Inputs
import Verif.Spec.Program
import Verif.Spec.Alike
/-
What a schema and a document have to fulfil for the guarantee about a whole run (C89).
-/
set_option autoImplicit false

namespace Qlc.Spec

/-- The schema is valid, avoids the two shapes of types that are generated wrongly (C01, C02), and its names
can be written in TypeScript. -/
structure SchemaFit (cfg : TsConfig) (doc : JSchema) : Prop where
  valid : ValidDoc doc
  validInputs : ValidInputs doc
  lists : NoNonNullListInNullableList doc
  inputLists : OneListLevel doc
  writable : Writable cfg doc
  globalsWritable : GlobalsWritable cfg doc
  scalarsApart : ScalarsApart cfg doc

/-- The document is a query, mutation or fragment without conditional parts, with valid variables; at no
place do look-alike object types differ or does a key have two types (C23, C21); and its names can be written
in TypeScript and do not clash with those of the schema. -/
structure DocumentFit (cfg : TsConfig) (doc : JSchema) (schema : Schema) (frags : Frags) (d : Definition)
    (applies : List Directive → Prop) (P : String) : Prop where
  notSubscription : isSubscription d = false
  root : serverRoot d = some P
  oneType : OneTypePerKey schema frags P [itemsOf d]
  lookAlikes : LookAlikesAgree schema frags P [itemsOf d]
  unconditional : Unconditional applies (itemsOf d)
  fragsApply : FragsApply applies frags
  name : IsBinding (dataName d)
  keys : ∀ k ∈ fieldKeys (itemsOf d), IsGqlName k
  fragmentKeys : ∀ name fd, AMap.get? frags name = some fd → ∀ k ∈ fieldKeys fd.items, IsGqlName k
  variablesValid : ValidVars doc (varsOf d)
  variableNames : ∀ x ∈ varsOf d, IsGqlName x.name
  apart : ∀ n, Outside cfg doc n ∨ kindNamed doc n = some "INPUT_OBJECT" →
    ¬ Generated (dataName d) n ∧ n ≠ dataName d ++ "Variables"

/-- Everything that the file imports, directly or not, lies in the tree. -/
def ImportsInTree (w : World) (cfg : CompileConfig) (root : Entry) (p : Path) (contents : String) : Prop :=
  ∀ q, Loads w cfg p contents q → FoundIn root q

/-- The module that a file holds. -/
def HoldsModule (w : World) (id : String) (m : List TsStmt) : Prop :=
  ∃ text, w.disk id = .ok text ∧ parseModule text = some m

end Qlc.Spec
