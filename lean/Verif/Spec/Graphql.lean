import Mathlib.Logic.Relation
import Verif.Spec.Inputs
import Verif.Spec.Response
/-
GraphQL's own validation rules (section 5 of its specification, as far as they are about types), and the
constructs of GraphQL that the program does not support (C110).
-/
set_option autoImplicit false

namespace Qlc.Spec

/-- A selection is valid where the type is `P`: fields exist and have sub-selections exactly if their type is
composite (5.3.1, 5.3.3), `__typename` can be asked for anywhere, `__schema` and `__type` on the query type
(4.1, 4.2), inline fragments and spreads have a composite type condition (5.5.1.3) that shares an object type
with `P` (5.5.2.3), and spreads name a fragment (5.5.2.1). -/
inductive GqlSelection (doc : JSchema) (frags : Frags) : String → Selection → Prop where
  | typename {P : String} {pos : Pos} {al : Option String} {args : List (String × Value)} {dirs : List Directive} :
      GqlSelection doc frags P (.field pos al "__typename" args dirs [])
  | leaf {P : String} {pos : Pos} {al : Option String} {name : String} {args : List (String × Value)}
      {dirs : List Directive} {kind : String} {t : VarTy} :
      fieldType doc P name = some (kind, t) → ¬ CompositeKind kind →
      GqlSelection doc frags P (.field pos al name args dirs [])
  | nested {P : String} {pos : Pos} {al : Option String} {name : String} {args : List (String × Value)}
      {dirs : List Directive} {items : List Selection} {kind : String} {t : VarTy} :
      fieldType doc P name = some (kind, t) → CompositeKind kind → items ≠ [] →
      (∀ s ∈ items, GqlSelection doc frags (baseName t) s) →
      GqlSelection doc frags P (.field pos al name args dirs items)
  | introspection {pos : Pos} {al : Option String} {name Q : String} {args : List (String × Value)}
      {dirs : List Directive} {items : List Selection} :
      (name = "__schema" ∧ Q = "__Schema" ∨ name = "__type" ∧ Q = "__Type") → CompositeNamed doc Q → items ≠ [] →
      (∀ s ∈ items, GqlSelection doc frags Q s) →
      GqlSelection doc frags "Query" (.field pos al name args dirs items)
  | inline {P : String} {pos : Pos} {C : String} {dirs : List Directive} {items : List Selection} :
      CompositeNamed doc C → (∃ T ∈ objectTypes doc P, T ∈ objectTypes doc C) → items ≠ [] →
      (∀ s ∈ items, GqlSelection doc frags C s) →
      GqlSelection doc frags P (.inline pos (some C) dirs items)
  | plainInline {P : String} {pos : Pos} {dirs : List Directive} {items : List Selection} :
      items ≠ [] → (∀ s ∈ items, GqlSelection doc frags P s) →
      GqlSelection doc frags P (.inline pos none dirs items)
  | spread {P : String} {pos : Pos} {name : String} {dirs : List Directive} {fd : FragmentDef} :
      AMap.get? frags name = some fd → CompositeNamed doc fd.typeCond →
      (∃ T ∈ objectTypes doc P, T ∈ objectTypes doc fd.typeCond) →
      GqlSelection doc frags P (.spread pos name dirs)

/-- The fragment called `a` contains a spread of `b`. -/
def SpreadsFragment (frags : Frags) (a b : String) : Prop :=
  ∃ fd, AMap.get? frags a = some fd ∧ b ∈ spreadsSels fd.items

/-- The type of a variable is an input type that exists (5.8.2). -/
def InputTypeNamed (doc : JSchema) (n : String) : Prop :=
  n ∈ ["ID", "String", "Float", "Int", "Boolean"] ∨
    ∃ k, kindNamed doc n = some k ∧ (k = "SCALAR" ∨ k = "ENUM" ∨ k = "INPUT_OBJECT")

/-- GraphQL accepts the definition `d`, with `frags` as the other fragments of the document (rules about types:
5.3.1, 5.3.3, 5.5.1, 5.5.2, 5.8.1, 5.8.2). -/
structure GqlValid (doc : JSchema) (frags : Frags) (d : Definition) : Prop where
  /-- The root type exists and the selections are valid on it. -/
  selections : ∃ P, serverRoot d = some P ∧ CompositeNamed doc P ∧ ∀ s ∈ itemsOf d, GqlSelection doc frags P s
  /-- The other fragments are valid. -/
  fragments : ∀ name fd, AMap.get? frags name = some fd → CompositeNamed doc fd.typeCond ∧
    ∀ s ∈ fd.items, GqlSelection doc frags fd.typeCond s
  /-- No fragment spreads itself, directly or not. -/
  acyclic : ∀ name, ¬ Relation.TransGen (SpreadsFragment frags) name name
  /-- The variables have different names and existing input types. -/
  variableNames : ((varsOf d).map VarDef.name).Nodup
  variableTypes : ∀ v ∈ varsOf d, WellFormed v.type ∧ InputTypeNamed doc (baseName v.type)

/-- `WrittenIn items s`: the selection `s` is written somewhere in the selection set. -/
inductive WrittenIn : List Selection → Selection → Prop where
  | here {items : List Selection} {s : Selection} : s ∈ items → WrittenIn items s
  | field {items sub : List Selection} {pos : Pos} {al : Option String} {name : String}
      {args : List (String × Value)} {dirs : List Directive} {s : Selection} :
      .field pos al name args dirs sub ∈ items → WrittenIn sub s → WrittenIn items s
  | inline {items sub : List Selection} {pos : Pos} {cond : Option String} {dirs : List Directive} {s : Selection} :
      .inline pos cond dirs sub ∈ items → WrittenIn sub s → WrittenIn items s

/-- What the program does not support although it is GraphQL: operations without keyword, subscriptions on a
type of their own, inline fragments without type condition, introspection, lists of lists as types of variables,
and interfaces and unions without object types. -/
structure Supported (doc : JSchema) (d : Definition) : Prop where
  keyword : ∀ pos items, d ≠ .selectionSet pos items
  notSubscription : isSubscription d = false
  conditions : ∀ pos dirs items, ¬ WrittenIn (itemsOf d) (.inline pos none dirs items)
  noIntrospection : ∀ pos al name args dirs items, WrittenIn (itemsOf d) (.field pos al name args dirs items) →
    name ≠ "__schema" ∧ name ≠ "__type"
  oneList : ∀ v ∈ varsOf d, listDepth v.type ≤ 1
  members : ∀ P, CompositeNamed doc P → objectTypes doc P ≠ []

end Qlc.Spec
