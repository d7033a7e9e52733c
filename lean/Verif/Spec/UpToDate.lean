import Verif.Spec.History
/-
Are the generated files that lie in a directory the ones that would be generated (C140)?
-/
set_option autoImplicit false

namespace Qlc.Spec

/-- A run changed no file. -/
def NothingChanged (before after : World) : Prop := ∀ id, after.disk id = before.disk id

/-- Where `fresh` holds the results of a run, the same files lie on the disk of `w`: for each document its output, and,
if `globals` tells that there is one, the globals file. -/
structure UpToDate (cfg : CompileConfig) (rootPath : Path) (root : Entry) (globals : Prop) (w fresh : World) : Prop where
  outputs : ∀ p, FoundIn root p → w.disk (w.resolve (outputPath p)) = fresh.disk (w.resolve (outputPath p))
  globals : globals → w.disk (globalsId w cfg rootPath) = fresh.disk (globalsId w cfg rootPath)

end Qlc.Spec
