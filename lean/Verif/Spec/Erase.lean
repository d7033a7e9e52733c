import Verif.Model.Compile
/-
Documents without their arguments, directives and default values.
-/
set_option autoImplicit false

namespace Qlc.Spec

mutual
/-- A selection without its arguments and directives. -/
def bareSel : Selection → Selection
  | .field pos al name _ _ items => .field pos al name [] [] (bareSels items)
  | .inline pos cond _ items => .inline pos cond [] (bareSels items)
  | .spread pos name _ => .spread pos name []
/-- A selection set without arguments and directives. -/
def bareSels : List Selection → List Selection
  | [] => []
  | s :: rest => bareSel s :: bareSels rest
end

/-- A fragment without arguments and directives. -/
def bareFragment (f : FragmentDef) : FragmentDef := ⟨f.pos, f.name, f.typeCond, [], bareSels f.items⟩

/-- A definition without arguments, directives and default values of variables. -/
def bareDef : Definition → Definition
  | .selectionSet pos items => .selectionSet pos (bareSels items)
  | .operation kw pos name vars _ items =>
    .operation kw pos name (vars.map (fun v => { v with default := none })) [] (bareSels items)
  | .fragment f => .fragment (bareFragment f)

/-- Fragments by name, each without arguments and directives. -/
def bareFrags (m : AMap String FragmentDef) : AMap String FragmentDef :=
  m.map (fun e => (e.1, bareFragment e.2))

/-- What a parser returns, without arguments and directives. -/
def bareParse (r : Except String Document) : Except String Document :=
  match r with
  | .error e => .error e
  | .ok ds => .ok (ds.map bareDef)

end Qlc.Spec
