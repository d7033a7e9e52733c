import Verif.Model.Basic
/-
Texts of paths that differ in redundant separators and `.` only (C106).
-/
set_option autoImplicit false

namespace Qlc.Spec

/-- `a` and `b` are spellings of one path: they differ by doubled separators, by `.` between separators, and
by a separator or `/.` at the end. -/
inductive Respelled : List Char → List Char → Prop where
  | refl (a) : Respelled a a
  | symm {a b} : Respelled a b → Respelled b a
  | trans {a b c} : Respelled a b → Respelled b c → Respelled a c
  /-- `x//y` for `x/y`. -/
  | slashes (x y) : Respelled (x ++ "//".toList ++ y) (x ++ "/".toList ++ y)
  /-- `x/./y` for `x/y`. -/
  | dot (x y) : Respelled (x ++ "/./".toList ++ y) (x ++ "/".toList ++ y)
  /-- `x/.` for `x/`. -/
  | endDot (x) : Respelled (x ++ "/.".toList) (x ++ "/".toList)
  /-- `x/` for `x`, unless `x` is empty. -/
  | endSlash (x) : x ≠ [] → Respelled (x ++ "/".toList) x

/-- A text without anything redundant. -/
structure Tidy (t : List Char) : Prop where
  /-- No doubled separator. -/
  noSlashes : ¬ "//".toList <:+: t
  /-- No `.` between separators. -/
  noDot : ¬ "/./".toList <:+: t
  /-- No separator at the end, except for the root. -/
  noEndSlash : ∀ x, x ≠ [] → t ≠ x ++ "/".toList
  /-- No `/.` at the end. -/
  noEndDot : ∀ x, t ≠ x ++ "/.".toList

end Qlc.Spec
