import Verif.Spec.Selections
/-
Typing mistakes (C136).
-/
set_option autoImplicit false

namespace Qlc.Spec

/-- One typing mistake: a character too many, a character left out, a wrong character, or two neighbours swapped. -/
inductive OneEdit {α : Type} : List α → List α → Prop where
  | insert (u v : List α) (x : α) : OneEdit (u ++ v) (u ++ x :: v)
  | delete (u v : List α) (x : α) : OneEdit (u ++ x :: v) (u ++ v)
  | replace (u v : List α) (x y : α) : OneEdit (u ++ x :: v) (u ++ y :: v)
  | swap (u v : List α) (x y : α) : OneEdit (u ++ x :: y :: v) (u ++ y :: x :: v)

/-- `n` typing mistakes, one after the other, lead from one text to the other. -/
inductive Edits {α : Type} : Nat → List α → List α → Prop where
  | none (a : List α) : Edits 0 a a
  | more {n : Nat} {a b c : List α} : Edits n a b → OneEdit b c → Edits (n + 1) a c

/-- At most two typing mistakes lead from one name to the other. -/
def NearName (a b : String) : Prop := ∃ n ≤ 2, Edits n a.toList b.toList

/-- A name in plain letters, digits and signs: one byte for each character.  All GraphQL names are. -/
def PlainName (s : String) : Prop := ∀ c ∈ s.toList, c.toNat < 128

instance (s : String) : Decidable (PlainName s) := by unfold PlainName; infer_instance

/-- The help for a name that is not among the candidates: it lists those candidates that are at most two typing mistakes
away, all of them and no other; if there are none it is `other`. -/
def SuggestsNear (name : String) (candidates : List String) (other text : String) : Prop :=
  ∃ near far : List String, (near ++ far).Perm candidates ∧ (∀ c ∈ near, NearName name c) ∧ (∀ c ∈ far, ¬ NearName name c) ∧
    (near = [] → text = other) ∧
    (near ≠ [] → text = " Did you mean one of the following: `" ++ String.intercalate "`, `" near ++ "`?")

/-- What the text about an unknown field or fragment, written where the static type is `P`, ends with. -/
def HelpsWith (schema : Schema) (frags : Frags) (P : String) (text : String) : Selection → Prop
  | .field _ _ name _ _ _ => ∀ fl, fieldsOf schema P = some fl → AMap.get? fl name = none →
      ∃ before s, SuggestsNear name (AMap.keys fl) "" s ∧ text = before ++ "Check the fields of `" ++ P ++ "`." ++ s
  | .spread _ name _ => AMap.get? frags name = none →
      ∃ before s, SuggestsNear name (AMap.keys frags) " Did you forget to import it?" s ∧
        text = before ++ "This fragment name doesn't appear to be in scope." ++ s
  | .inline .. => True

/-- The names written in a selection itself, not below it: that of a field, or of the fragment that is spread. -/
def writtenName : Selection → List String
  | .field _ _ name _ _ _ => [name]
  | .spread _ name _ => [name]
  | .inline .. => []

/-- The fields of all types have plain names. -/
def PlainFields (schema : Schema) : Prop := ∀ T fl, fieldsOf schema T = some fl → ∀ c ∈ AMap.keys fl, PlainName c

end Qlc.Spec
