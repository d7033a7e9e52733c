import Verif.Spec.Grammar
/-
What a type argument must be to satisfy the constraint of the library's document types.
-/
set_option autoImplicit false

namespace Qlc.Spec

/-- The type is a name, or a union of names, of object types that the module declares. -/
def ObjectsOf (m : List TsStmt) : TsTy → Prop
  | .ref n => ∃ members, TsStmt.typeAlias n (.object members) ∈ m
  | .union a b => ObjectsOf m a ∧ ObjectsOf m b
  | _ => False

/-- The type argument is assignable to `Record<string, unknown>`: it is `never`, or the name of an alias
declared in the module for an object type or for a union of declared object types.  (An alias of an object type
is assignable to `Record<string, unknown>`; an interface would not be.) -/
def IsRecord (m : List TsStmt) (t : TsTy) : Prop :=
  t = .ref "never" ∨ ObjectsOf m t ∨
    ∃ n u, t = .ref n ∧ TsStmt.typeAlias n (.type u) ∈ m ∧ ObjectsOf m u

/-- What a document with these types of variables and data promises to whoever sends it: variables of the one type are
answered by data of the other.  A type is the set of its values; `answers v a` says that `a` is an answer when the
document is sent with the variables `v`. -/
def Serves {β : Type} (answers : β → β → Prop) (vars data : β → Prop) : Prop :=
  ∀ v a, vars v → answers v a → data a

/-- The type `A` is contained in the type `B`. -/
def Within {β : Type} (A B : β → Prop) : Prop := ∀ x, A x → B x

/-- The kinds of operation documents. -/
inductive OperationNode : String → Prop
  | query : OperationNode "QueryDocumentNode"
  | subscription : OperationNode "SubscriptionDocumentNode"
  | mutation : OperationNode "MutationDocumentNode"

end Qlc.Spec
