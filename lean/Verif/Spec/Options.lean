import Verif.Spec.Emit
import Verif.Model.Compile
/-
What the command line options and the settings of the configuration file mean for the generated files.
-/
set_option autoImplicit false

namespace Qlc.Spec

/-- The contents of the configuration file: what is in it, or nothing if none was named and the default one
does not exist. -/
def ConfigIs (read : Path → ConfigRead) (a : CliArgs) (c : ConfigFile) : Prop :=
  read (a.configFile.getD ⟨false, [".qlcrc.json"]⟩) = .parsed c ∨
  (a.configFile = none ∧ c = {} ∧ ∃ e, read ⟨false, [".qlcrc.json"]⟩ = .notFound e)

/-- Deprecation warnings are asked for. -/
def WantsDeprecations (a : CliArgs) (c : ConfigFile) : Prop :=
  a.showDeprecationWarnings = true ∨ c.showDeprecationWarnings = some true

/-- Properties are to be marked `readonly`. -/
def readonlyMeant (a : CliArgs) (c : ConfigFile) : Bool :=
  !(a.disableReadonlyTypes || decide (c.disableReadonlyTypes = some true))

/-- How custom scalars are to be printed. -/
def scalarsMeant (a : CliArgs) (c : ConfigFile) : BottomTypeConfig :=
  if a.useCustomScalars = true ∨ c.useCustomScalars = some true then
    match a.customScalarPrefix, c.useCustomScalars, c.customScalarPrefix with
    | some p, _, _ => .realNameWithPrefix p
    | none, some _, some p => .realNameWithPrefix p
    | none, _, _ => .realName
  else .defaultBottomType

/-- The module that enums and input objects are to be imported from. -/
def globalsModuleMeant (a : CliArgs) (c : ConfigFile) : String :=
  match a.globalTypesModuleName, c.globalTypesModuleName with
  | some m, _ => m
  | none, some m => m
  | none, none => "graphql-globals"

/-- The module that the document node types are to be imported from. -/
def docModuleMeant (a : CliArgs) (c : ConfigFile) : String :=
  match a.typedGraphqlDocumentnodeModuleName, c.typedGraphqlDocumentnodeModuleName with
  | some m, _ => m
  | none, some m => m
  | none, none => "@notarize/qlc-cli/typed-documentnode"

/-- All settings that generated text depends on. -/
def settingsMeant (a : CliArgs) (c : ConfigFile) : TsConfig :=
  ⟨readonlyMeant a c, scalarsMeant a c, globalsModuleMeant a c, docModuleMeant a c⟩

/-- The directory that is searched, and that import paths are relative to. -/
def rootMeant (a : CliArgs) : Path := a.rootDir.getD ⟨false, ["."]⟩

/-- The prefix of import paths that stands for that directory. -/
def prefixMeant (a : CliArgs) (c : ConfigFile) : Option String :=
  match a.rootDirImportPrefix with
  | some p => some p
  | none => c.rootDirImportPrefix

/-- All settings of a compilation. -/
def compilationMeant (a : CliArgs) (c : ConfigFile) : CompileConfig :=
  { settingsMeant a c with
    rootDir := rootMeant a
    showDeprecationWarnings := a.showDeprecationWarnings || decide (c.showDeprecationWarnings = some true)
    rootDirImportPrefix := prefixMeant a c }

end Qlc.Spec
