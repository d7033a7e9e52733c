import Verif.Spec.DocumentNames
import Verif.Spec.Ordinary
import Verif.Spec.Project
import Verif.Spec.Reproducible
import Verif.Spec.Exact
import Verif.Spec.JsonText
import Verif.Spec.Options
/-
What is asked of the files of a project, as they lie on the disk, for the generated types to be right (C131).
-/
set_option autoImplicit false

namespace Qlc.Spec

/-- The configuration, if the files hold these bytes: what the file says that the command line names, or the one with the
default name; or nothing, if none is named and there is none with the default name. -/
def ConfigBytes (configs : Path → FileRead) (a : CliArgs) (c : ConfigFile) : Prop :=
  (∃ bs j, configs (a.configFile.getD ⟨false, [".qlcrc.json"]⟩) = .bytes bs ∧ HoldsDocument bs j ∧ ReadsConfig j c) ∨
  (a.configFile = none ∧ c = {} ∧ ∃ e, configs ⟨false, [".qlcrc.json"]⟩ = .notFound e)

/-- A project in which nothing is out of the ordinary: the schema is valid and can be written in TypeScript, paths do not
meet, every document is valid GraphQL without the constructs that are not supported, and follows the rule of thumb. -/
structure SoundProject (ext : Ext) (cwd : List String) (w : World) (cfg : CompileConfig) (doc : JSchema) (schema : Schema)
    (applies : List Directive → Prop) (rootPath : Path) (root : Entry) : Prop where
  schemaFit : SchemaFit cfg.toTsConfig doc
  namedTypes : KeepsNamedTypes doc
  ordinary : Ordinary cwd w cfg rootPath root
  fine : ProjectFine ext w cfg doc rootPath root
  merging : ∀ p, FoundIn root p → MergingFile ext w cfg doc p
  ruled : ∀ p, FoundIn root p → RuledText ext w cfg doc schema applies p

/-- The file also meets what exact types need (see `ExactFit`). -/
def ExactFile (ext : Ext) (w : World) (cfg : CompileConfig) (doc : JSchema) (schema : Schema)
    (scalars env : String → JVal → Prop) (p : Path) : Prop :=
  ∀ contents d, w.read p = .ok contents → ext.parse contents = .ok [d] →
    ∀ frags, InScope ext w cfg p contents frags → ∀ P, serverRoot d = some P →
      ExactFit cfg.toTsConfig doc schema frags d P scalars env

/-- The types in the module `m` admit every answer of a server to the definition, and every object of variables that it
takes, if the module `g` says what the global types mean. -/
def TypesAdmit (doc : JSchema) (applies : List Directive → Prop) (scalars env : String → JVal → Prop) (frags : Frags)
    (d : Definition) (T₀ : String) (m g : List TsStmt) : Prop :=
  (∀ T ∈ objectTypes doc T₀, ∀ v, (∀ n, AnswersTo doc frags applies scalars n T [itemsOf d] v) →
    ∀ n, ModuleAdmits m (linked g env) n (dataName d) v) ∧
  (varsOf d ≠ [] → ∀ v, VariablesOf doc scalars (varsOf d) v →
    ∀ n, ModuleAdmits m (linked g env) n (dataName d ++ "Variables") v)

/-- They admit nothing else. -/
def TypesAdmitOnly (doc : JSchema) (applies : List Directive → Prop) (scalars env : String → JVal → Prop) (frags : Frags)
    (d : Definition) (T₀ : String) (m g : List TsStmt) : Prop :=
  (∀ v, (∀ n, ModuleAdmits m (linked g env) n (dataName d) v) →
    ∃ T ∈ objectTypes doc T₀, ∀ n, AnswersTo doc frags applies scalars n T [itemsOf d] v) ∧
  (varsOf d ≠ [] → ∀ v, (∀ n, ModuleAdmits m (linked g env) n (dataName d ++ "Variables") v) →
    VariablesOf doc scalars (varsOf d) v)

end Qlc.Spec
