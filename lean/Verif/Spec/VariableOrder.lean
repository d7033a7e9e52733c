import Verif.Spec.Same
/-
Operations that declare the same variables in another order (C146).
-/
set_option autoImplicit false

namespace Qlc.Spec

/-- Two operations that differ in the order of their variables, and perhaps in where these stand, in their default values
and in the directives of the operation. -/
inductive ReordersVariables : Definition → Definition → Prop where
  | operation {kw : OpKeyword} {pos : Pos} {name : Option String} {vars vars' : List VarDef}
      {dirs dirs' : List Directive} {items : List Selection} :
      (vars.map declared).Perm (vars'.map declared) →
      ReordersVariables (.operation kw pos name vars dirs items) (.operation kw pos name vars' dirs' items)

end Qlc.Spec
