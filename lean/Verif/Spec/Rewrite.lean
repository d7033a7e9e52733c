import Verif.Spec.Same
/-
Changes to the selections of a document that do not change what it asks for (C96).
-/
set_option autoImplicit false

namespace Qlc.Spec

/-- No object type of `P` collects the same response key from both selection sets. -/
def NoCommonKey (schema : Schema) (frags : Frags) (P : String) (a b : List Selection) : Prop :=
  ∀ T ∈ possibleTypes schema P, ∀ L L', Coll schema frags T P a L → Coll schema frags T P b L' →
    ∀ c ∈ L, ∀ c' ∈ L', c.key ≠ c'.key

/-- `Rewrites schema frags P items items'`: the selection set `items`, written where the static type is `P`, can be
changed into `items'` step by step, each step being one a developer takes when tidying a document. -/
inductive Rewrites (schema : Schema) (frags : Frags) : String → List Selection → List Selection → Prop where
  /-- Nothing is changed. -/
  | refl {P : String} {items : List Selection} : Rewrites schema frags P items items
  /-- A change is undone. -/
  | symm {P : String} {items items' : List Selection} :
      Rewrites schema frags P items items' → Rewrites schema frags P items' items
  /-- One change after another. -/
  | trans {P : String} {items items' items'' : List Selection} : Rewrites schema frags P items items' →
      Rewrites schema frags P items' items'' → Rewrites schema frags P items items''
  /-- Only part of a selection set is changed. -/
  | append {P : String} {a a' b b' : List Selection} : Rewrites schema frags P a a' →
      Rewrites schema frags P b b' → Rewrites schema frags P (a ++ b) (a' ++ b')
  /-- A field keeps its response key; its arguments, directives and position are immaterial, and its own
  selections may be changed. -/
  | field {P : String} {pos pos' : Pos} {al al' : Option String} {name : String} {args args' : List (String × Value)}
      {dirs dirs' : List Directive} {items items' : List Selection} {f : SField} :
      fieldOf schema P name = some f → al.getD name = al'.getD name →
      Rewrites schema frags f.type.name items items' →
      Rewrites schema frags P [.field pos al name args dirs items] [.field pos' al' name args' dirs' items']
  /-- The selections of an inline fragment may be changed. -/
  | inline {P C : String} {pos pos' : Pos} {dirs dirs' : List Directive} {items items' : List Selection} :
      Rewrites schema frags C items items' →
      Rewrites schema frags P [.inline pos (some C) dirs items] [.inline pos' (some C) dirs' items']
  /-- A fragment spread is replaced by the fragment. -/
  | spread {P name : String} {pos pos' : Pos} {dirs dirs' : List Directive} {fd : FragmentDef} :
      AMap.get? frags name = some fd →
      Rewrites schema frags P [.spread pos name dirs] [.inline pos' (some fd.typeCond) dirs' fd.items]
  /-- An inline fragment on the type it is written on is replaced by its selections. -/
  | unwrap {P : String} {pos : Pos} {dirs : List Directive} {items : List Selection} :
      Rewrites schema frags P [.inline pos (some P) dirs items] items
  /-- An inline fragment that never applies is removed. -/
  | never {P C : String} {pos : Pos} {dirs : List Directive} {items : List Selection} :
      (∀ T ∈ possibleTypes schema P, T ∉ possibleTypes schema C) →
      Rewrites schema frags P [.inline pos (some C) dirs items] []
  /-- Selections that have no response key in common change places. -/
  | swap {P : String} {a b : List Selection} : NoCommonKey schema frags P a b →
      Rewrites schema frags P (a ++ b) (b ++ a)
  /-- A repeated part is removed. -/
  | repeated {P : String} {a : List Selection} : Rewrites schema frags P (a ++ a) a
  /-- A field selected twice in a row is selected once, with both selection sets. -/
  | mergeFields {P : String} {pos pos' pos'' : Pos} {al al' al'' : Option String} {name : String}
      {args args' args'' : List (String × Value)} {dirs dirs' dirs'' : List Directive}
      {items items' : List Selection} {f : SField} :
      fieldOf schema P name = some f → al.getD name = al'.getD name → al.getD name = al''.getD name →
      Rewrites schema frags P [.field pos al name args dirs items, .field pos' al' name args' dirs' items']
        [.field pos'' al'' name args'' dirs'' (items ++ items')]
  /-- Two inline fragments in a row on one type are joined. -/
  | mergeInline {P C : String} {pos pos' pos'' : Pos} {dirs dirs' dirs'' : List Directive}
      {items items' : List Selection} :
      Rewrites schema frags P [.inline pos (some C) dirs items, .inline pos' (some C) dirs' items']
        [.inline pos'' (some C) dirs'' (items ++ items')]

end Qlc.Spec
