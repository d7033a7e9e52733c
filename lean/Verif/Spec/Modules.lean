import Verif.Spec.Imports
/-
Where a module with a given name is looked for: vocabulary for the location of the globals file.
-/
set_option autoImplicit false

namespace Qlc.Spec

/-- `rest` is what is left of the module name `name` when the prefix that stands for the root directory is
taken off, if there is one and the name starts with it. -/
inductive BelowRoot (pre : Option String) (name : List Char) : List Char → Prop where
  | stripped {p : String} {rest : List Char} : pre = some p → name = p.toList ++ rest → BelowRoot pre name rest
  | whole : (∀ p, pre = some p → ¬ p.toList <+: name) → BelowRoot pre name name

/-- `dirs ++ base` is a path text with `base` as its last component. -/
structure LastComponent (dirs base : List Char) : Prop where
  dirs : dirs = [] ∨ dirs.getLast? = some '/'
  nonempty : base ≠ []
  noSlash : '/' ∉ base

end Qlc.Spec
