import Verif.Spec.Files
import Verif.Spec.Same
import Verif.Spec.Rewrite
/-
Two states of a project whose documents ask for the same data (C143).
-/
set_option autoImplicit false

namespace Qlc.Spec

/-- What the file `p` asks for in the project `w` with the one schema is what it asks for in `w'` with the other: the
definitions have the same name and variables, and their selections, with the fragments that each imports, ask for the same
data. -/
def AsksSameIn (ext : Ext) (cfg : CompileConfig) (schema schema' : Schema) (w w' : World) (p : Path) : Prop :=
  ∀ contents d contents' d', w.read p = .ok contents → ext.parse contents = .ok [d] →
    w'.read p = .ok contents' → ext.parse contents' = .ok [d'] →
    SameHead d d' ∧ VariableKindsAgree schema schema' d ∧
    ∀ frags frags' P P', InScope ext w cfg p contents frags → InScope ext w' cfg p contents' frags' →
      rootType d = some P → rootType d' = some P' →
      AskSame schema schema' frags frags' P [itemsOf d] P' [itemsOf d']

/-- The file `p` of `w'` is the one of `w` after tidying (C96): the same name, variables and root type, selections that come
about by the steps of C96, and no fragments in scope that were not before. -/
def TidiedIn (ext : Ext) (cfg : CompileConfig) (schema : Schema) (w w' : World) (p : Path) : Prop :=
  ∀ contents d contents' d', w.read p = .ok contents → ext.parse contents = .ok [d] →
    w'.read p = .ok contents' → ext.parse contents' = .ok [d'] →
    SameHead d d' ∧ rootType d' = rootType d ∧
    (∀ f, ImportedFragment ext w' cfg p contents' f → ImportedFragment ext w cfg p contents f) ∧
    ∀ frags P, InScope ext w cfg p contents frags → rootType d = some P →
      Rewrites schema frags P (itemsOf d) (itemsOf d')

end Qlc.Spec
