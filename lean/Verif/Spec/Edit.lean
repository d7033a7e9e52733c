import Verif.Spec.Files
/-
Files that are edited between two runs (C99).
-/
set_option autoImplicit false

namespace Qlc.Spec

/-- `w'` differs from `w` in the files `E` at most: these may have been changed, added or removed. -/
def EditedAt (E : String → Prop) (w w' : World) : Prop :=
  w'.resolve = w.resolve ∧ w'.writeErr = w.writeErr ∧ ∀ id, ¬ E id → w'.disk id = w.disk id

/-- Compiling `p` reads an edited file: itself or one that it imports, directly or not. -/
def Affected (E : String → Prop) (w : World) (cfg : CompileConfig) (p : Path) : Prop :=
  ∃ q, Reads w cfg p q ∧ E (w.resolve q)

end Qlc.Spec
