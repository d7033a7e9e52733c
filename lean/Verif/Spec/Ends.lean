import Verif.Spec.Program
/-
When compiling a file comes to an end.
-/
set_option autoImplicit false

namespace Qlc.Spec

/-- If the file is readable and holds one definition, the fragments it imports have different names. -/
def NamesDiffer (ext : Ext) (w : World) (cfg : CompileConfig) (p : Path) : Prop :=
  ∀ contents d f f', w.read p = .ok contents → ext.parse contents = .ok [d] → ImportedFragment ext w cfg p contents f →
    ImportedFragment ext w cfg p contents f' → f.name = f'.name → f = f'

/-- If the file is readable and holds one definition: no chain of imports starting at it is infinite, all import
lines on these chains end with a quote, and no chain of selection sets, each entered from the one before, is
infinite. -/
def FileEnds (ext : Ext) (cfg : CompileConfig) (schema : Schema) (w : World) (p : Path) : Prop :=
  ∀ contents d, w.read p = .ok contents → ext.parse contents = .ok [d] →
    Acc (ImportEdge w cfg) (p, contents) ∧ ¬ Broken w cfg p contents ∧
    ∀ frags, InScope ext w cfg p contents frags → ∀ P, rootType d = some P → IsComposite schema P →
      ¬ InfiniteChain schema frags P (itemsOf d)

/-- No chain of input objects below a global that some file uses is infinite. -/
def InputsEnd (ext : Ext) (cfg : CompileConfig) (schema : Schema) (w : World) (root : Entry) : Prop :=
  ∀ ω fuel u t, UsedGlobal ω fuel ext cfg schema w root u → schema.getType u = some t →
    Acc (SubInput schema) t

end Qlc.Spec
