import Verif.Spec.Compose
/-
Documents that ask for more (C120).
-/
set_option autoImplicit false

namespace Qlc.Spec

mutual
/-- The second selection asks for at least what the first does: a field of the same name under the same key, an
inline fragment on the same type, or a spread of the same fragment, and so on inside.  Positions and arguments do
not matter. -/
def MoreSel : Selection → Selection → Prop
  | .field _ al name _ dirs sub, s' => ∃ pos' args' sub', s' = .field pos' al name args' dirs sub' ∧ MoreSels sub sub'
  | .inline _ cond dirs sub, s' => ∃ pos' sub', s' = .inline pos' cond dirs sub' ∧ MoreSels sub sub'
  | .spread _ name dirs, s' => ∃ pos', s' = .spread pos' name dirs
/-- Every selection of the first set has one in the second that asks for at least as much. -/
def MoreSels : List Selection → List Selection → Prop
  | [], _ => True
  | s :: rest, items' => (∃ s' ∈ items', MoreSel s s') ∧ MoreSels rest items'
end

/-- The second fragments ask for at least what the first do: the same names are defined, on the same types, with
more selections. -/
def MoreFrags (frags frags' : Frags) : Prop :=
  ∀ name fd, AMap.get? frags name = some fd → ∃ fd', AMap.get? frags' name = some fd' ∧
    fd'.typeCond = fd.typeCond ∧ MoreSels fd.items fd'.items

end Qlc.Spec
