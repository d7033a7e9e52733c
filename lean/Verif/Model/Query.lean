import Verif.Model.Basic
/-
The part of `graphql_parser::query`'s AST that qlc looks at (external crate graphql-parser 0.4,
Cargo.toml:20).  Arguments, directives and default values are kept in the AST although qlc never reads
them, so that this can be stated as a theorem.
-/
set_option autoImplicit false

namespace Qlc

/-- `graphql_parser::Pos`. -/
structure Pos where
  line : Nat
  column : Nat
  deriving DecidableEq, Repr

/-- `graphql_parser::query::Value`, reduced to the shapes relevant for `@skip`/`@include`. -/
inductive Value where
  | var (name : String)
  | bool (b : Bool)
  | other (text : String)
  deriving DecidableEq, Repr

/-- `graphql_parser::query::Directive`. -/
structure Directive where
  name : String
  args : List (String × Value)
  deriving DecidableEq, Repr

/-- `graphql_parser::query::Selection` (`Field`, `InlineFragment`, `FragmentSpread`). -/
inductive Selection where
  | field (pos : Pos) (alias : Option String) (name : String) (args : List (String × Value))
      (dirs : List Directive) (items : List Selection)
  | inline (pos : Pos) (cond : Option String) (dirs : List Directive) (items : List Selection)
  | spread (pos : Pos) (name : String) (dirs : List Directive)

/-- `graphql_parser::query::Type`. -/
inductive VarTy where
  | named (name : String)
  | list (inner : VarTy)
  | nonNull (inner : VarTy)
  deriving DecidableEq, Repr

/-- `graphql_parser::query::VariableDefinition`; `default` is never read by qlc. -/
structure VarDef where
  pos : Pos
  name : String
  type : VarTy
  default : Option Value
  deriving DecidableEq, Repr

/-- `graphql_parser::query::FragmentDefinition`. -/
structure FragmentDef where
  pos : Pos
  name : String
  typeCond : String
  dirs : List Directive
  items : List Selection

/-- The three keyworded operations of `graphql_parser::query::OperationDefinition`. -/
inductive OpKeyword where
  | query | mutation | subscription
  deriving DecidableEq, Repr

/-- `graphql_parser::query::Definition`. -/
inductive Definition where
  | selectionSet (pos : Pos) (items : List Selection)
  | operation (kw : OpKeyword) (pos : Pos) (name : Option String) (vars : List VarDef)
      (dirs : List Directive) (items : List Selection)
  | fragment (f : FragmentDef)

/-- `graphql_parser::query::Document`. -/
abbrev Document := List Definition

end Qlc
