import Verif.Spec.Correct
import Verif.Spec.Edit
/-
What a run leaves although some documents are faulty (C137).
-/
set_option autoImplicit false

namespace Qlc.Spec

/-- A file can be generated for the document: it can be read and holds one definition; its root type exists and is
composite, everything written in it is valid there, with the fragments it imports; and its variables have types that
exist and that the program supports.  The imports need not be in order. -/
def Generable (ext : Ext) (doc : JSchema) (schema : Schema) (w : World) (cfg : CompileConfig) (p : Path) : Prop :=
  ∃ contents d P frags, w.read p = .ok contents ∧ ext.parse contents = .ok [d] ∧
    rootType d = some P ∧ CompositeNamed doc P ∧
    InScope ext w cfg p contents frags ∧ Valid schema frags P (itemsOf d) ∧
    ∀ v ∈ varsOf d, SupportedVarType v.type ∧
      (baseName v.type ∈ ["ID", "String", "Float", "Int", "Boolean"] ∨ ∃ k, kindNamed doc (baseName v.type) = some k)

/-- The output of `p` can be written. -/
def OutputWritable (w : World) (p : Path) : Prop := w.writeErr (w.resolve (outputPath p)) = none

/-- The document `p` looks the same in both projects: all files that compiling it reads are the same, and so is where
its output goes and whether that can be written. -/
structure SharedDocument (cfg : CompileConfig) (p : Path) (w v : World) : Prop where
  reads : ∀ q, Reads w cfg p q → v.read q = w.read q
  resolve : v.resolve = w.resolve
  writeErr : v.writeErr = w.writeErr

end Qlc.Spec
