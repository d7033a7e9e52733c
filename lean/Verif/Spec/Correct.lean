import Verif.Spec.Project
import Verif.Spec.Move
/-
When a document, and a project, is correct: what the exit status tells (C118).
-/
set_option autoImplicit false

namespace Qlc.Spec

/-- The document is correct: it can be read and holds one definition; its imports are in order; its root type exists
and is composite, and everything written in it is valid there, with the fragments it imports; and its variables
have input types that exist and that the program supports. -/
def DocumentCorrect (ext : Ext) (doc : JSchema) (schema : Schema) (w : World) (cfg : CompileConfig) (p : Path) : Prop :=
  ∃ contents d P frags, w.read p = .ok contents ∧ ext.parse contents = .ok [d] ∧ ImportsInOrder ext cfg w p ∧
    rootType d = some P ∧ CompositeNamed doc P ∧
    InScope ext w cfg p contents frags ∧ Valid schema frags P (itemsOf d) ∧
    ∀ v ∈ varsOf d, SupportedVarType v.type ∧ InputTypeNamed doc (baseName v.type)

/-- The project is correct: all its directories can be listed, and all its documents are correct and their output
files can be written. -/
structure ProjectCorrect (ext : Ext) (doc : JSchema) (schema : Schema) (w : World) (cfg : CompileConfig)
    (root : Entry) : Prop where
  directories : dirErrors root = []
  documents : ∀ p, FoundIn root p → DocumentCorrect ext doc schema w cfg p
  outputs : ∀ p, FoundIn root p → w.writeErr (w.resolve (outputPath p)) = none

end Qlc.Spec
