import Verif.Spec.Response
/-
When object types with the same response keys may share one printed type (C23), said of the document instead
of the generated tree.
-/
set_option autoImplicit false

namespace Qlc.Spec

/-- Two collected fields have types with the same values: the same list and null modifiers around the same
scalar or enum, or around composite types that `S` relates. -/
def SameValues (S : Prop) (t t' : FieldType) : Prop :=
  t.last = t'.last ∧ t.rest = t'.rest ∧
    ((t.definition.isComplex = true ∧ t'.definition.isComplex = true ∧ S) ∨
     (t.definition.isComplex = false ∧ t.definition = t'.definition ∧
        (t.definition = .enum → t.name = t'.name)))

/-- The collected fields `L` and `L'` have the same response keys, and under each key the first fields have
the same values; `S` compares what is selected under two keys. -/
def AlikeFields (S : String → List (List Selection) → String → List (List Selection) → Prop)
    (L L' : List Contribution) : Prop :=
  ∀ key, match L.filter (fun c => decide (c.key = key)), L'.filter (fun c => decide (c.key = key)) with
    | [], [] => True
    | c :: _, c' :: _ =>
      SameValues (S c.field.type.name (merged L key) c'.field.type.name (merged L' key)) c.field.type c'.field.type
    | _, _ => False

/-- Down to depth `n`: the selection sets `sets` on type `P` yield for the same object types the same fields
as `sets'` on `P'`. -/
def AlikeTo (schema : Schema) (frags : Frags) : Nat → String → List (List Selection) → String →
    List (List Selection) → Prop
  | 0, _, _, _, _ => True
  | n + 1, P, sets, P', sets' =>
    (∀ T, T ∈ possibleTypes schema P ↔ T ∈ possibleTypes schema P') ∧
    ∀ T ∈ possibleTypes schema P, ∀ L L', CollMany schema frags T P sets L →
      CollMany schema frags T P' sets' L' → AlikeFields (AlikeTo schema frags n) L L'

/-- At every position, object types with the same response keys have the same fields, all the way down. -/
def LookAlikesAgree (schema : Schema) (frags : Frags) (P : String) (sets : List (List Selection)) : Prop :=
  ∀ P' sets', Position schema frags P sets P' sets' →
    ∀ T ∈ possibleTypes schema P', ∀ T' ∈ possibleTypes schema P', ∀ L L',
      CollMany schema frags T P' sets' L → CollMany schema frags T' P' sets' L' →
      (∀ key, (∃ c ∈ L, c.key = key) ↔ ∃ c ∈ L', c.key = key) →
      ∀ n, AlikeFields (AlikeTo schema frags n) L L'

/-- The selection set consists of fields, all the way down: no inline fragments, no spreads. -/
inductive OnlyFields : List Selection → Prop where
  | nil : OnlyFields []
  | cons {pos : Pos} {al : Option String} {name : String} {args : List (String × Value)}
      {dirs : List Directive} {items rest : List Selection} : OnlyFields items → OnlyFields rest →
      OnlyFields (.field pos al name args dirs items :: rest)

end Qlc.Spec
