import Verif.Spec.VariableOrder
import Verif.Spec.Files
/-
Two states of a project whose operations declare the same variables in another order (C146).
-/
set_option autoImplicit false

namespace Qlc.Spec

/-- The document `p` is the same in both states of the files, or its operation declares the same variables, of different
names, in another order, with the same import lines above. -/
def VariablesReordered (ext : Ext) (w w' : World) (p : Path) : Prop :=
  w'.read p = w.read p ∨ ∃ contents contents' d d', w.read p = .ok contents ∧ w'.read p = .ok contents' ∧
    ext.parse contents = .ok [d] ∧ ext.parse contents' = .ok [d'] ∧ importsOf contents' = importsOf contents ∧
    ReordersVariables d d' ∧ ((varsOf d).map VarDef.name).Nodup

/-- The files that `p` imports, directly or not, are the same in both states. -/
def SameImports (cfg : CompileConfig) (w w' : World) (p : Path) : Prop :=
  ∀ contents il q q', w.read p = .ok contents → Imports cfg p contents il q → Reads w cfg q q' → w'.read q' = w.read q'

end Qlc.Spec
