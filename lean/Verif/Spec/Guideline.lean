import Verif.Spec.Reproducible
import Verif.Spec.EndToEnd
/-
A rule of thumb under which generated types are right: inside fragments that do not fit every object, select
scalars and enums only (C124).
-/
set_option autoImplicit false

namespace Qlc.Spec

/-- The selection set on type `P` selects scalars, enums and `__typename` only, also in the fragments inside it. -/
inductive LeavesOnly (doc : JSchema) (frags : Frags) : String → List Selection → Prop where
  | nil {P : String} : LeavesOnly doc frags P []
  | typename {P : String} {pos : Pos} {al : Option String} {args : List (String × Value)} {dirs : List Directive}
      {items rest : List Selection} : LeavesOnly doc frags P rest →
      LeavesOnly doc frags P (.field pos al "__typename" args dirs items :: rest)
  | field {P : String} {pos : Pos} {al : Option String} {name : String} {args : List (String × Value)}
      {dirs : List Directive} {items rest : List Selection} {k : String} {t : VarTy} :
      fieldType doc P name = some (k, t) → ¬ CompositeKind k → LeavesOnly doc frags P rest →
      LeavesOnly doc frags P (.field pos al name args dirs items :: rest)
  | inline {P C : String} {pos : Pos} {dirs : List Directive} {items rest : List Selection} :
      LeavesOnly doc frags C items → LeavesOnly doc frags P rest →
      LeavesOnly doc frags P (.inline pos (some C) dirs items :: rest)
  | spread {P : String} {pos : Pos} {name : String} {dirs : List Directive} {fd : FragmentDef}
      {rest : List Selection} : AMap.get? frags name = some fd → LeavesOnly doc frags fd.typeCond fd.items →
      LeavesOnly doc frags P rest → LeavesOnly doc frags P (.spread pos name dirs :: rest)

/-- Every object of type `P` is also of type `C`. -/
def AlwaysFits (doc : JSchema) (P C : String) : Prop := ∀ T ∈ objectTypes doc P, T ∈ objectTypes doc C

/-- The rule of thumb for a selection set on type `P`: fragments that do not fit every object of the type around
them select leaves only; everything else follows the rule inside. -/
inductive FollowsRule (doc : JSchema) (frags : Frags) : String → List Selection → Prop where
  | nil {P : String} : FollowsRule doc frags P []
  | field {P : String} {pos : Pos} {al : Option String} {name : String} {args : List (String × Value)}
      {dirs : List Directive} {items rest : List Selection} :
      (∀ k t, fieldType doc P name = some (k, t) → FollowsRule doc frags (baseName t) items) →
      FollowsRule doc frags P rest → FollowsRule doc frags P (.field pos al name args dirs items :: rest)
  | inline {P C : String} {pos : Pos} {dirs : List Directive} {items rest : List Selection} :
      AlwaysFits doc P C → FollowsRule doc frags C items → FollowsRule doc frags P rest →
      FollowsRule doc frags P (.inline pos (some C) dirs items :: rest)
  | narrowInline {P C : String} {pos : Pos} {dirs : List Directive} {items rest : List Selection} :
      LeavesOnly doc frags C items → FollowsRule doc frags P rest →
      FollowsRule doc frags P (.inline pos (some C) dirs items :: rest)
  | spread {P : String} {pos : Pos} {name : String} {dirs : List Directive} {fd : FragmentDef}
      {rest : List Selection} : AMap.get? frags name = some fd → AlwaysFits doc P fd.typeCond →
      FollowsRule doc frags fd.typeCond fd.items → FollowsRule doc frags P rest →
      FollowsRule doc frags P (.spread pos name dirs :: rest)
  | narrowSpread {P : String} {pos : Pos} {name : String} {dirs : List Directive} {fd : FragmentDef}
      {rest : List Selection} : AMap.get? frags name = some fd → LeavesOnly doc frags fd.typeCond fd.items →
      FollowsRule doc frags P rest → FollowsRule doc frags P (.spread pos name dirs :: rest)

/-- GraphQL's rule that fields under one response key have the same shape, even where they are meant for different
object types: equal list and null modifiers around equal scalars or enums or around composite types. -/
def ShapesAgree (schema : Schema) (frags : Frags) (P : String) (sets : List (List Selection)) : Prop :=
  ∀ P' sets', Position schema frags P sets P' sets' →
    ∀ T ∈ possibleTypes schema P', ∀ T' ∈ possibleTypes schema P', ∀ L L',
      CollMany schema frags T P' sets' L → CollMany schema frags T' P' sets' L' →
      ∀ c ∈ L, ∀ c' ∈ L', c.key = c'.key → SameValues True c.field.type c'.field.type

/-- The names of the definition and of its fragments can be written in TypeScript and do not clash with those of the
schema. -/
structure NamesFit (cfg : TsConfig) (doc : JSchema) (frags : Frags) (d : Definition) : Prop where
  name : IsBinding (dataName d)
  keys : ∀ k ∈ fieldKeys (itemsOf d), IsGqlName k
  fragmentKeys : ∀ name fd, AMap.get? frags name = some fd → ∀ k ∈ fieldKeys fd.items, IsGqlName k
  variableNames : ∀ x ∈ varsOf d, IsGqlName x.name
  apart : ∀ n, Outside cfg doc n ∨ kindNamed doc n = some "INPUT_OBJECT" →
    ¬ Generated (dataName d) n ∧ n ≠ dataName d ++ "Variables"

/-- What is asked of a file besides what GraphQL asks: variables have types of the schema, nothing is left out by
directives, the fields have agreeing shapes (a rule of GraphQL, too), the rule of thumb is followed, and the names
can be written. -/
def RuledFile (ext : Ext) (w : World) (cfg : CompileConfig) (doc : JSchema) (schema : Schema)
    (applies : List Directive → Prop) (p : Path) : Prop :=
  ∀ contents d, w.read p = .ok contents → ext.parse contents = .ok [d] →
    ValidVars doc (varsOf d) ∧ Unconditional applies (itemsOf d) ∧
    ∀ frags, InScope ext w cfg p contents frags →
      FragsApply applies frags ∧ NamesFit cfg.toTsConfig doc frags d ∧
      ∀ P, serverRoot d = some P → ShapesAgree schema frags P [itemsOf d] ∧ FollowsRule doc frags P (itemsOf d)

end Qlc.Spec
