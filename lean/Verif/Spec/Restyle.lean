import Verif.Spec.Emit
import Verif.Model.Compile
/-
Generated files under settings that differ in how things are written (C142).
-/
set_option autoImplicit false

namespace Qlc.Spec

/-- The settings make the program read the same files and warn about the same things; they may differ in whether
properties are marked `readonly`, in how custom scalars are written, and in the names of the two modules that
generated files import from. -/
structure SameSources (cfg cfg' : CompileConfig) : Prop where
  rootDir : cfg'.rootDir = cfg.rootDir
  importPrefix : cfg'.rootDirImportPrefix = cfg.rootDirImportPrefix
  deprecations : cfg'.showDeprecationWarnings = cfg.showDeprecationWarnings

/-- A reference, with a custom scalar `n` written as the settings say. -/
def Flat.spelled (cfg : TsConfig) : Flat → Flat
  | .custom n => scalarFlat cfg (.custom n)
  | x => x

/-- An exported type with custom scalars written as the settings say. -/
def TsDecl.spelled (cfg : TsConfig) : TsDecl → TsDecl
  | .object n props => .object n (props.map (fun p => { p with flat := p.flat.spelled cfg }))
  | .union n alts => .union n alts

/-- A file in which custom scalars stand under their own names, printed as the settings say: custom scalars are
written as set, the two modules have the names that are set, and properties are marked if that is set. -/
def TsFile.printed (cfg : TsConfig) (f : TsFile) : String :=
  TsFile.text cfg.useReadonlyTypes
    { f with
      docModule := cfg.typedGraphqlDocumentnodeModuleName
      globalsModule := cfg.globalTypesModuleName
      decls := f.decls.map (TsDecl.spelled cfg)
      vars := f.vars.map (fun v => (v.1, v.2.map (fun x => { x with flat := x.flat.spelled cfg }))) }

/-- The same file, but that the properties of the variables type may stand in another order. -/
structure SameButVariableOrder (f f' : TsFile) : Prop where
  rest : f' = { f with vars := f'.vars }
  vars : match f.vars, f'.vars with
    | none, none => True
    | some v, some v' => v'.1 = v.1 ∧ v.2.Perm v'.2
    | _, _ => False

/-- A field of an input object in the globals file. -/
structure GlobalField where
  name : String
  documentation : Option String
  deprecated : Bool
  last : Mod
  flat : Flat
  deriving DecidableEq, Repr

/-- A type of the globals file. -/
inductive GlobalDecl where
  | enum (name : String) (documentation : Option String) (values : List String)
  | input (name : String) (fields : List GlobalField)
  deriving DecidableEq, Repr

/-- A type of the globals file, with custom scalars written as the settings say; no other setting matters. -/
def GlobalDecl.printed (cfg : TsConfig) : GlobalDecl → String
  | .enum n doc vs => enumDefFromType n doc vs
  | .input n fs => "export type " ++ n ++ " = {\n" ++ joinWith "\n" (fs.map (fun f =>
      "  " ++ compileDocumentation f.documentation f.deprecated 2 ++
        inputFieldText f.name (f.flat.spelled cfg).text f.last)) ++ "\n};"

/-- The globals file. -/
def globalsPrinted (cfg : TsConfig) (ds : List GlobalDecl) : String :=
  header ++ joinWith "\n\n" (ds.map (GlobalDecl.printed cfg))

/-- No variable is declared twice. -/
def VariablesOnce (f : TsFile) : Prop := ∀ v, f.vars = some v → (v.2.map TsVar.name).Nodup

/-- What compiling a document, whose output goes to the file `out`, does under the one and under the other settings:
it fails with the same messages, or it gives the same report and prints the same file in the one and in the other
way.  Only if a variable is declared twice and custom scalars are written differently, the two properties with the
same name may be swapped. -/
def Restyled (cfg cfg' : TsConfig) (out : String) (r r' : CompileResult) : Prop :=
  (∀ id, id ≠ out → r'.world.disk id = r.world.disk id) ∧
  match r.result, r'.result with
  | .error m, .error m' => m' = m
  | .ok a, .ok a' => a' = a ∧ ∃ f f', r.world.disk out = .ok (TsFile.printed cfg f) ∧
      r'.world.disk out = .ok (TsFile.printed cfg' f') ∧ SameButVariableOrder f f' ∧
      (cfg'.bottomTypeConfig = cfg.bottomTypeConfig ∨ VariablesOnce f → f' = f)
  | _, _ => False

end Qlc.Spec
