import Verif.Spec.Globals
import Verif.Spec.Faults
/-
What a globals file declares, piece by piece (C144).
-/
set_option autoImplicit false

namespace Qlc.Spec

/-- The text is a globals file for these used names: after the header stand the declarations `ds`, each with the name that
it declares, in the order of the names, of exactly the types that the names reach. -/
structure GlobalsText (cfg : TsConfig) (schema : Schema) (used : List String) (ds : List (String × String)) (text : String) :
    Prop where
  sorted : (ds.map Prod.fst).Pairwise (fun a b => a < b)
  names : ∀ n, n ∈ ds.map Prod.fst ↔ GlobalName schema used n
  declares : ∀ d ∈ ds, DeclaresGlobal cfg schema d.1 d.2
  text : text = generatedHeader ++ joinWith "\n\n" (ds.map Prod.snd)

end Qlc.Spec
