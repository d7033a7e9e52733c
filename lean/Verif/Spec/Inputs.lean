import Verif.Spec.Grammar
import Verif.Spec.Globals
import Verif.Spec.Scalars
/-
What a GraphQL server takes as input - values of enums, input objects and variables - given only the
introspection document, and when the globals file can be written in TypeScript.
-/
set_option autoImplicit false

namespace Qlc.Spec

/-- The fields of an input object type. -/
def inputFields (doc : JSchema) (P : String) : List JField :=
  match typeNamed doc P with
  | none => []
  | some j => if j.kind = "INPUT_OBJECT" then j.inputFields.getD [] else []

/-- The type of a field of an input object type, with the kind of its named type. -/
def inputFieldType (doc : JSchema) (P name : String) : Option (String × VarTy) :=
  (lastNamed JField.name name (inputFields doc P)).bind (fun f => refType f.typeInformation)

/-- The values of an enum. -/
def enumValuesOf (doc : JSchema) (n : String) : List String :=
  ((typeNamed doc n).bind JType.enumValues).getD []

/-- The document describes valid input types: the types of input fields are well formed, can be used for
input, and refer to listed types by their kind. -/
def ValidInputs (doc : JSchema) : Prop :=
  ∀ P, ∀ f ∈ inputFields doc P, ∃ k t, refType f.typeInformation = some (k, t) ∧ WellFormed t ∧
    k ∈ ["SCALAR", "ENUM", "INPUT_OBJECT"] ∧ kindNamed doc (baseName t) = some k

/-- No input field has a list of lists (see C02). -/
def OneListLevel (doc : JSchema) : Prop :=
  ∀ P name k t, inputFieldType doc P name = some (k, t) → listDepth t ≤ 1

/-- A value, other than null, of a scalar or enum. -/
def LeafOf (doc : JSchema) (scalars : String → JVal → Prop) (n : String) (v : JVal) : Prop :=
  ∃ kind ∈ ["SCALAR", "ENUM"], kindNamed doc n = some kind ∧ LeafValue doc scalars kind n v

/-- `InputOf k n v`: down to depth `k`, a server takes `v`, other than null, for the type `n`.  Values of
scalars and enums are those of `LeafValue`.  An input object has no other properties than the fields of its
type; a field has a value of its type, or, if it is nullable, is left out.  Since JSON values are finite,
`∀ k, InputOf k n v` says that `v` is a value of the type.  (Default values of fields are not looked at here;
GraphQL's coercions - one value for a list of one, a number for an ID - are left out.) -/
def InputOf (doc : JSchema) (scalars : String → JVal → Prop) : Nat → String → JVal → Prop
  | 0, n, v => kindNamed doc n = some "INPUT_OBJECT" ∨ LeafOf doc scalars n v
  | k + 1, n, v => LeafOf doc scalars n v ∨ kindNamed doc n = some "INPUT_OBJECT" ∧
      ∃ fs : List (String × JVal), v = .obj fs ∧ (fs.map Prod.fst).Nodup ∧
        (∀ key ∈ fs.map Prod.fst, key ∈ (inputFields doc n).map JField.name) ∧
        ∀ name ∈ (inputFields doc n).map JField.name, ∃ kind t, inputFieldType doc n name = some (kind, t) ∧
          ((∃ x, (name, x) ∈ fs ∧ Admits (InputOf doc scalars k (baseName t)) t x) ∨
           (isNullable t = true ∧ name ∉ fs.map Prod.fst))

/-- How a type is called in an input type: scalars as configured, enums and input objects by their names. -/
def inputSpelling (cfg : TsConfig) (doc : JSchema) (n : String) : String :=
  if kindNamed doc n = some "SCALAR" then scalarSpelling cfg n else n

/-- The names and descriptions of the input types can be written in TypeScript. -/
structure GlobalsWritable (cfg : TsConfig) (doc : JSchema) : Prop where
  enums : ∀ n, kindNamed doc n = some "ENUM" → IsBinding n ∧ ∀ v ∈ enumValuesOf doc n, IsIdent v.toList
  inputs : ∀ n, kindNamed doc n = some "INPUT_OBJECT" → IsBinding n
  fields : ∀ P, ∀ f ∈ inputFields doc P, IsIdent f.name.toList ∧ DocOk f.description
  scalars : ∀ n, kindNamed doc n = some "SCALAR" → IsTypeRef (scalarSpelling cfg n)
  docs : ∀ n j, typeNamed doc n = some j → j.kind = "ENUM" → DocOk j.description

/-- The property printed for an input field of type `t`: its type mentions one name, the spelling of the named
type; and, with at most one list level, it is optional exactly when `t` is nullable and its type admits exactly
the values of `t`. -/
def InputMember (cfg : TsConfig) (doc : JSchema) (t : VarTy) (m : TsMember) : Prop :=
  m.readonly = false ∧ m.type.refs = [inputSpelling cfg doc (baseName t)] ∧
  (listDepth t ≤ 1 → m.optional = isNullable t ∧ ∀ env : String → JVal → Prop,
    ¬ env (inputSpelling cfg doc (baseName t)) .null →
    ∀ v, TsAdmits env m.type v ↔ Admits (env (inputSpelling cfg doc (baseName t))) t v)

/-- The statement declares the enum or input object `n` of the schema. -/
def GlobalStmt (cfg : TsConfig) (doc : JSchema) (n : String) (s : TsStmt) : Prop :=
  (kindNamed doc n = some "ENUM" ∧ ∃ vs : List String, vs.Perm (enumValuesOf doc n) ∧
    vs.Pairwise (fun a b => a ≤ b) ∧ s = .enum n (vs.map (fun v => (v, v)))) ∨
  (kindNamed doc n = some "INPUT_OBJECT" ∧ ∃ ms : List TsMember,
    s = .typeAlias n (.object ms) ∧
    (ms.map TsMember.name).Pairwise (fun a b => a < b) ∧
    (∀ name, name ∈ ms.map TsMember.name ↔ name ∈ (inputFields doc n).map JField.name) ∧
    ∀ m ∈ ms, ∃ kind t, inputFieldType doc n m.name = some (kind, t) ∧ InputMember cfg doc t m)

/-- No scalar is spelled like an enum or input object, nor does the configured prefix make it look like one. -/
def ScalarsApart (cfg : TsConfig) (doc : JSchema) : Prop :=
  ∀ n, kindNamed doc n = some "SCALAR" →
    kindNamed doc (scalarSpelling cfg n) ≠ some "ENUM" ∧
    kindNamed doc (scalarSpelling cfg n) ≠ some "INPUT_OBJECT" ∧
    ∀ p, cfg.bottomTypeConfig = .realNameWithPrefix p →
      kindNamed doc (p ++ n) ≠ some "ENUM" ∧ kindNamed doc (p ++ n) ≠ some "INPUT_OBJECT"

/-- `env` gives the types of TypeScript, and the scalars under their configured names, (at least) the meanings
they should have; `scalars` gives the values of the scalars of the schema. -/
structure ScalarEnv (cfg : TsConfig) (doc : JSchema) (scalars env : String → JVal → Prop) : Prop where
  string : ∀ s, env "string" (.str s)
  number : ∀ s, env "number" (.num s)
  boolean : ∀ b, env "boolean" (.bool b)
  any : ∀ v, env "any" v
  custom : ∀ n v, kindNamed doc n = some "SCALAR" → scalars n v → match cfg.bottomTypeConfig with
    | .defaultBottomType => True
    | .realName => env n v
    | .realNameWithPrefix p => env (p ++ n) v

/-- The meaning of names in a file that imports from the module `g`. -/
def linked (g : List TsStmt) (env : String → JVal → Prop) (n : String) (v : JVal) : Prop :=
  if n ∈ g.flatMap TsStmt.exports then ∀ k, ModuleAdmits g env k n v else env n v

/-- The variables have input types, and the built-in scalars are scalars. -/
def ValidVars (doc : JSchema) (ds : List VarDef) : Prop :=
  ∀ d ∈ ds, ∃ k ∈ ["SCALAR", "ENUM", "INPUT_OBJECT"], kindNamed doc (baseName d.type) = some k ∧
    (baseName d.type ∈ ["ID", "String", "Float", "Int", "Boolean"] → k = "SCALAR")

/-- The values of the variables that a server takes: an object without other properties than the declared
variables; a variable has a value of its type, or, if it is nullable, is left out.  (A server also lets
variables with a default value be left out; see `C80_default_value_witness`.) -/
def VariablesOf (doc : JSchema) (scalars : String → JVal → Prop) (ds : List VarDef) (v : JVal) : Prop :=
  ∃ fs : List (String × JVal), v = .obj fs ∧ (fs.map Prod.fst).Nodup ∧
    (∀ key ∈ fs.map Prod.fst, key ∈ ds.map VarDef.name) ∧
    ∀ d ∈ ds, (∃ x, (d.name, x) ∈ fs ∧ Admits (fun y => ∀ k, InputOf doc scalars k (baseName d.type) y) d.type x) ∨
      (isNullable d.type = true ∧ d.name ∉ fs.map Prod.fst)

end Qlc.Spec
