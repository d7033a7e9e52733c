import Verif.Model.Cli
/-
What the command line of the program means, as its help text says it.
-/
set_option autoImplicit false

namespace Qlc.Spec

/-- A word that begins with a dash and is not just a dash. -/
def Dashed (w : String) : Prop := ∃ c cs, w.toList = '-' :: c :: cs

/-- What can be said on the command line. -/
inductive Setting where
  | rootDir (p : Path)
  | configFile (p : Path)
  | schemaPath (p : Path)
  | useCustomScalars
  | customScalarPrefix (s : String)
  | rootDirImportPrefix (s : String)
  | globalTypesModuleName (s : String)
  | typedGraphqlDocumentnodeModuleName (s : String)
  | disableReadonlyTypes
  | showDeprecationWarnings
  | numThreads (n : Nat)
  | noColor
  deriving DecidableEq

/-- The number that decimal digits denote. -/
def decimal : List Char → Nat
  | [] => 0
  | d :: ds => (d.toNat - 48) * 10 ^ ds.length + decimal ds

/-- `w` is a decimal numeral, perhaps with a plus sign, for the 64-bit number `n`. -/
def Numeral (w : String) (n : Nat) : Prop :=
  ∃ ds, (w.toList = ds ∨ w.toList = '+' :: ds) ∧ ds ≠ [] ∧ (∀ d ∈ ds, d ∈ "0123456789".toList) ∧
    n = decimal ds ∧ n < 2 ^ 64

/-- The options without a value. -/
inductive Switch : Setting → String → Prop where
  | useCustomScalars : Switch .useCustomScalars "--use-custom-scalars"
  | disableReadonlyTypes : Switch .disableReadonlyTypes "--disable-readonly-types"
  | showDeprecationWarnings : Switch .showDeprecationWarnings "--show-deprecation-warnings"
  | noColor : Switch .noColor "--no-color"

/-- The options with a value: their name, and which setting the value `w` makes. -/
inductive Valued : Setting → String → String → Prop where
  | configFile {w : String} : w ≠ "" → Valued (.configFile (Path.ofString w)) "--config-file" w
  | schemaPath {w : String} : w ≠ "" → Valued (.schemaPath (Path.ofString w)) "--schema-path" w
  | customScalarPrefix {w : String} : Valued (.customScalarPrefix w) "--custom-scalar-prefix" w
  | rootDirImportPrefix {w : String} : Valued (.rootDirImportPrefix w) "--root-dir-import-prefix" w
  | globalTypesModuleName {w : String} : Valued (.globalTypesModuleName w) "--global-types-module-name" w
  | typedGraphqlDocumentnodeModuleName {w : String} : Valued (.typedGraphqlDocumentnodeModuleName w)
      "--typed-graphql-documentnode-module-name" w
  | numThreads {w : String} {n : Nat} : Numeral w n → Valued (.numThreads n) "--num-threads" w

/-- The options that can be abbreviated. -/
inductive Abbreviated : String → String → Prop where
  | configFile : Abbreviated "--config-file" "-c"
  | schemaPath : Abbreviated "--schema-path" "-s"

/-- The words that make a setting. -/
inductive Written : Setting → List String → Prop where
  | switch {s : Setting} {name : String} : Switch s name → Written s [name]
  | equals {s : Setting} {name w : String} : Valued s name w → Written s [name ++ "=" ++ w]
  | next {s : Setting} {name w : String} : Valued s name w → ¬ Dashed w → Written s [name, w]
  | shortEquals {s : Setting} {name short w : String} : Valued s name w → Abbreviated name short →
      Written s [short ++ "=" ++ w]
  | shortNext {s : Setting} {name short w : String} : Valued s name w → Abbreviated name short → ¬ Dashed w →
      Written s [short, w]
  | shortAttached {s : Setting} {name short w : String} : Valued s name w → Abbreviated name short →
      w.toList.head? ≠ some '=' → Written s [short ++ w]
  | directory {w : String} : w ≠ "" → ¬ Dashed w → Written (.rootDir (Path.ofString w)) [w]

/-- The words make these settings, one after the other. -/
inductive Words : List Setting → List String → Prop where
  | nil : Words [] []
  | cons {s : Setting} {ss : List Setting} {ws rest : List String} : Written s ws → Words ss rest →
      Words (s :: ss) (ws ++ rest)

/-- A command line: settings, then perhaps `--` and a directory that may begin with a dash. -/
inductive CommandLine : List Setting → List String → Prop where
  | plain {ss : List Setting} {ws : List String} : Words ss ws → CommandLine ss ws
  | dashes {ss : List Setting} {ws : List String} : Words ss ws → CommandLine ss (ws ++ ["--"])
  | directory {ss : List Setting} {ws : List String} {w : String} : Words ss ws → w ≠ "" →
      CommandLine (ss ++ [.rootDir (Path.ofString w)]) (ws ++ ["--", w])

/-- Two settings of the same option. -/
def SameOption : Setting → Setting → Prop
  | .rootDir _, .rootDir _ | .configFile _, .configFile _ | .schemaPath _, .schemaPath _
  | .useCustomScalars, .useCustomScalars | .customScalarPrefix _, .customScalarPrefix _
  | .rootDirImportPrefix _, .rootDirImportPrefix _ | .globalTypesModuleName _, .globalTypesModuleName _
  | .typedGraphqlDocumentnodeModuleName _, .typedGraphqlDocumentnodeModuleName _
  | .disableReadonlyTypes, .disableReadonlyTypes | .showDeprecationWarnings, .showDeprecationWarnings
  | .numThreads _, .numThreads _ | .noColor, .noColor => True
  | _, _ => False

/-- No option is set twice. -/
def Once (ss : List Setting) : Prop := ss.Pairwise (fun s t => ¬ SameOption s t)

/-- The arguments say what the settings say. -/
structure Means (ss : List Setting) (a : CliArgs) : Prop where
  rootDir : ∀ p, a.rootDir = some p ↔ .rootDir p ∈ ss
  configFile : ∀ p, a.configFile = some p ↔ .configFile p ∈ ss
  schemaPath : ∀ p, a.schemaPath = some p ↔ .schemaPath p ∈ ss
  useCustomScalars : a.useCustomScalars = true ↔ .useCustomScalars ∈ ss
  customScalarPrefix : ∀ s, a.customScalarPrefix = some s ↔ .customScalarPrefix s ∈ ss
  rootDirImportPrefix : ∀ s, a.rootDirImportPrefix = some s ↔ .rootDirImportPrefix s ∈ ss
  globalTypesModuleName : ∀ s, a.globalTypesModuleName = some s ↔ .globalTypesModuleName s ∈ ss
  typedGraphqlDocumentnodeModuleName : ∀ s, a.typedGraphqlDocumentnodeModuleName = some s ↔
    .typedGraphqlDocumentnodeModuleName s ∈ ss
  disableReadonlyTypes : a.disableReadonlyTypes = true ↔ .disableReadonlyTypes ∈ ss
  showDeprecationWarnings : a.showDeprecationWarnings = true ↔ .showDeprecationWarnings ∈ ss
  numThreads : ∀ n, a.numThreads = some n ↔ .numThreads n ∈ ss
  noColor : a.noColor = true ↔ .noColor ∈ ss

/-- A prefix for custom scalars is only allowed together with custom scalars. -/
def PrefixAllowed (ss : List Setting) : Prop :=
  (∃ s, .customScalarPrefix s ∈ ss) → .useCustomScalars ∈ ss

/-- A word that asks for help (`-h`, whatever is glued to it). -/
def AsksHelp (w : String) : Prop := w = "--help" ∨ ∃ cs, w.toList = '-' :: 'h' :: cs

/-- A word that asks for the version. -/
def AsksVersion (w : String) : Prop := w = "--version" ∨ ∃ cs, w.toList = '-' :: 'V' :: cs

end Qlc.Spec
