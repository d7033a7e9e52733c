import Verif.Spec.Faults
/-
What earlier runs have left does not matter (C138).
-/
set_option autoImplicit false

namespace Qlc.Spec

/-- The two directories hold the same project: the same documents and the same unlistable directories, the same
contents in everything that compiling a document reads, and the same answers to where a path leads and what can be
written.  They may differ in everything else: outputs, the globals file, files of other kinds. -/
structure SameProject (cfg : CompileConfig) (root root' : Entry) (w w' : World) : Prop where
  documents : (filesOf root).Perm (filesOf root')
  directories : dirErrors root = dirErrors root'
  resolve : w'.resolve = w.resolve
  writeErr : w'.writeErr = w.writeErr
  sources : ∀ p q, FoundIn root p → Reads w cfg p q → w'.read q = w.read q

/-- Both runs left the same text in the file. -/
def SameText (id : String) (w₁ w₂ : World) : Prop := ∃ text, w₁.disk id = .ok text ∧ w₂.disk id = .ok text

/-- Neither run changed the file. -/
def BothUntouched (id : String) (w w₁ w' w₂ : World) : Prop := w₁.disk id = w.disk id ∧ w₂.disk id = w'.disk id

end Qlc.Spec
