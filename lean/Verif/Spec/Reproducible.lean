import Verif.Spec.Project
import Verif.Spec.Ordinary
import Verif.Spec.Compose
/-
When a project is generated reproducibly, in GraphQL's own terms (C123).
-/
set_option autoImplicit false

namespace Qlc.Spec

/-- An object type gives the fields of its interfaces types of the same name; it may still make them non-null. -/
def KeepsNamedTypes (doc : JSchema) : Prop :=
  ∀ P, ∀ T ∈ objectTypes doc P, ∀ name k t, fieldType doc P name = some (k, t) →
    ∃ k' t', fieldType doc T name = some (k', t') ∧ baseName t' = baseName t

/-- GraphQL's rule on merging fields holds for the definition, on every object it may be evaluated on, at every
depth and whatever its directives say. -/
def FieldsMerge (doc : JSchema) (frags : Frags) (d : Definition) : Prop :=
  ∀ P, serverRoot d = some P → ∀ T ∈ objectTypes doc P, ∀ n,
    MergesWell doc frags (fun _ => True) n T [itemsOf d]

/-- What else GraphQL and this program ask of a valid file: its fields merge, and the fragments it imports use
nothing unsupported either. -/
def MergingFile (ext : Ext) (w : World) (cfg : CompileConfig) (doc : JSchema) (p : Path) : Prop :=
  ∀ contents d, w.read p = .ok contents → ext.parse contents = .ok [d] →
    (∀ frags, InScope ext w cfg p contents frags → FieldsMerge doc frags d) ∧
    ∀ f, ImportedFragment ext w cfg p contents f → Supported doc (.fragment f)

end Qlc.Spec
