import Verif.Spec.Files
/-
Independent specification of when two reports say the same.
-/
set_option autoImplicit false

namespace Qlc.Spec

/-- Two printed texts that are equal, or differ only in the order in which one list of quoted names is
written. -/
inductive SameUpToList : String → String → Prop where
  | same (t : String) : SameUpToList t t
  | listed {names names' : List String} (before after : String) : names.Perm names' →
      SameUpToList (before ++ "`" ++ joinWith "`, `" names ++ "`" ++ after)
        (before ++ "`" ++ joinWith "`, `" names' ++ "`" ++ after)

/-- Two lists of printed texts with the same texts, each as often, up to their order and the order of the
names listed in a text. -/
def SameReport (texts texts' : List String) : Prop :=
  ∃ reordered : List String, reordered.Perm texts' ∧ List.Forall₂ SameUpToList texts reordered

end Qlc.Spec
