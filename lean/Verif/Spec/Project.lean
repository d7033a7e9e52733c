import Verif.Spec.Graphql
import Verif.Spec.Ends
/-
When a whole project is valid: its tree, its documents, their imports, and the files to write (C111).
-/
set_option autoImplicit false

namespace Qlc.Spec

/-- The imports of a file are in order: every import line on the way ends with a quote and names a readable file,
which holds one fragment; different fragments have different names; and no chain of imports is infinite. -/
structure ImportsFine (ext : Ext) (w : World) (cfg : CompileConfig) (p : Path) (contents : String) : Prop where
  closed : ¬ Broken w cfg p contents
  readable : ∀ m, ¬ ImportErr w cfg p contents m
  fragments : ∀ q c, Loads w cfg p contents q → w.read q = .ok c → ∃ f, ext.parse c = .ok [.fragment f]
  names : ∀ f f', ImportedFragment ext w cfg p contents f → ImportedFragment ext w cfg p contents f' →
    f.name = f'.name → f = f'
  finite : Acc (ImportEdge w cfg) (p, contents)

/-- The file holds one definition that GraphQL accepts, together with the fragments it imports, and that uses
nothing unsupported. -/
def GqlFile (ext : Ext) (w : World) (cfg : CompileConfig) (doc : JSchema) (p : Path) : Prop :=
  ∃ contents d, w.read p = .ok contents ∧ ext.parse contents = .ok [d] ∧ ImportsFine ext w cfg p contents ∧
    (∀ frags, InScope ext w cfg p contents frags → GqlValid doc frags d) ∧ Supported doc d

/-- The input object `a` has a field whose type is, or is a list of, the input object `b`. -/
def InputNests (doc : JSchema) (a b : String) : Prop :=
  ∃ name t, inputFieldType doc a name = some ("INPUT_OBJECT", t) ∧ baseName t = b

/-- A valid project: the directories can be listed, every document is valid, the outputs and the globals file can
be written, the input types of the schema are valid, and no input object contains itself. -/
structure ProjectFine (ext : Ext) (w : World) (cfg : CompileConfig) (doc : JSchema) (rootPath : Path)
    (root : Entry) : Prop where
  directories : dirErrors root = []
  files : ∀ p, FoundIn root p → GqlFile ext w cfg doc p
  outputs : ∀ p, FoundIn root p → w.writeErr (w.resolve (outputPath p)) = none
  globalsFile : w.writeErr (globalsId w cfg rootPath) = none
  inputs : ValidInputs doc
  noNesting : ∀ n, ¬ Relation.TransGen (InputNests doc) n n

end Qlc.Spec
