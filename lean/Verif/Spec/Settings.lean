import Verif.Model.Cli
/-
The two places in which the program's settings can be made: the command line and the configuration file.
-/
set_option autoImplicit false

namespace Qlc.Spec

/-- A switch as a member of the configuration file: left out unless it is on. -/
def switched (b : Bool) : Option Bool := if b then some true else none

/-- The configuration file says what the options of the command line say, member by member. -/
structure FileSays (a : CliArgs) (c : ConfigFile) : Prop where
  schemaPath : c.schemaPath = a.schemaPath
  useCustomScalars : c.useCustomScalars = switched a.useCustomScalars
  customScalarPrefix : c.customScalarPrefix = a.customScalarPrefix
  disableReadonlyTypes : c.disableReadonlyTypes = switched a.disableReadonlyTypes
  showDeprecationWarnings : c.showDeprecationWarnings = switched a.showDeprecationWarnings
  numThreads : c.numThreads = a.numThreads
  rootDirImportPrefix : c.rootDirImportPrefix = a.rootDirImportPrefix
  globalTypesModuleName : c.globalTypesModuleName = a.globalTypesModuleName
  typedGraphqlDocumentnodeModuleName :
    c.typedGraphqlDocumentnodeModuleName = a.typedGraphqlDocumentnodeModuleName

/-- A command line on which nothing is said that a configuration file could say. -/
structure Bare (a : CliArgs) : Prop where
  schemaPath : a.schemaPath = none
  useCustomScalars : a.useCustomScalars = false
  customScalarPrefix : a.customScalarPrefix = none
  disableReadonlyTypes : a.disableReadonlyTypes = false
  showDeprecationWarnings : a.showDeprecationWarnings = false
  numThreads : a.numThreads = none
  rootDirImportPrefix : a.rootDirImportPrefix = none
  globalTypesModuleName : a.globalTypesModuleName = none
  typedGraphqlDocumentnodeModuleName : a.typedGraphqlDocumentnodeModuleName = none

/-- The options of the command line say what the configuration file `file` says.  A path to the schema is
meant relative to the directory of the file, and a prefix for custom scalars only counts in a file that
switches custom scalars on. -/
structure LineSays (file : Path) (c : ConfigFile) (a : CliArgs) : Prop where
  schemaPath : a.schemaPath = c.schemaPath.map (fun p => Path.join ⟨file.abs, file.comps.dropLast⟩ p)
  useCustomScalars : a.useCustomScalars = true ↔ c.useCustomScalars = some true
  customScalarPrefix : a.customScalarPrefix = if c.useCustomScalars = some true then c.customScalarPrefix else none
  disableReadonlyTypes : a.disableReadonlyTypes = true ↔ c.disableReadonlyTypes = some true
  showDeprecationWarnings : a.showDeprecationWarnings = true ↔ c.showDeprecationWarnings = some true
  numThreads : a.numThreads = c.numThreads
  rootDirImportPrefix : a.rootDirImportPrefix = c.rootDirImportPrefix
  globalTypesModuleName : a.globalTypesModuleName = c.globalTypesModuleName
  typedGraphqlDocumentnodeModuleName :
    a.typedGraphqlDocumentnodeModuleName = c.typedGraphqlDocumentnodeModuleName

end Qlc.Spec
