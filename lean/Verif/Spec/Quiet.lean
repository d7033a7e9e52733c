import Verif.Model.Main
/-
Reports with and without the warnings about deprecated fields (C141).
-/
set_option autoImplicit false

namespace Qlc.Spec

/-- A warning that a deprecated field is used. -/
def IsDeprecation (m : Msg) : Prop :=
  ∃ field parent path contents pos, m = .located .compileWarning
    ("use of deprecated field `" ++ field ++ "` on type `" ++ parent ++ "`") path contents pos none

/-- The second list of messages is the first without the warnings about deprecated fields; nothing else is left out
and the order is the same. -/
inductive Quieter : List Msg → List Msg → Prop where
  | nil : Quieter [] []
  | keep (m : Msg) {l l' : List Msg} : ¬ IsDeprecation m → Quieter l l' → Quieter (m :: l) (m :: l')
  | drop (m : Msg) {l l' : List Msg} : IsDeprecation m → Quieter l l' → Quieter (m :: l) l'

/-- Two ends of the program: the same files everywhere, the same exit status, and reports that differ in the
warnings about deprecated fields only. -/
structure SameButWarnings (paint : Paint) (f f' : Finished) : Prop where
  files : f'.world = f.world
  status : f'.exit.code = f.exit.code
  report : ∃ ms ms', f.exit = printExitInfo paint ms ∧ f'.exit = printExitInfo paint ms' ∧ Quieter ms ms'

end Qlc.Spec
