import Verif.Model.Npm
/-
Model of pkg/npm/lib/typed-documentnode.d.ts: the document types and the two helper types `DataOf` and
`VariablesOf`, with as much of TypeScript as they use: assignability to an object type with an optional
property, and `infer` in a conditional type.
-/
set_option autoImplicit false

namespace Qlc

/-- `DocumentNode & { readonly marker?: (v: params) => result }`; `α` is what stands for types. -/
structure DocTy (α : Type) where
  marker : String
  params : List α
  result : α
  deriving DecidableEq, Repr

/-- typed-documentnode.d.ts:6-36: the document type with these type arguments. -/
def docTy {α : Type} (node : String) (args : List α) : Option (DocTy α) :=
  if node = "QueryDocumentNode" then
    match args with
    | [data, vars] => some ⟨"__typedDocumentNodeQuery", [vars], data⟩
    | _ => none
  else if node = "SubscriptionDocumentNode" then
    match args with
    | [data, vars] => some ⟨"__typedDocumentNodeSubscription", [vars], data⟩
    | _ => none
  else if node = "MutationDocumentNode" then
    match args with
    | [data, vars] => some ⟨"__typedDocumentNodeMutation", [vars], data⟩
    | _ => none
  else if node = "FragmentDocumentNode" then
    match args with
    | [data] => some ⟨"__typedDocumentNodeFragment", [], data⟩
    | _ => none
  else none

/-- `T extends node<infer …> ? result : …`: one branch of a helper. -/
structure InferBranch where
  node : String
  infers : List String
  result : String
  deriving DecidableEq, Repr

/-- typed-documentnode.d.ts:45-53 `DataOf`; after the last branch comes `never`. -/
def dataOfBranches : List InferBranch :=
  [⟨"QueryDocumentNode", ["Data", "Variables"], "Data"⟩,
    ⟨"MutationDocumentNode", ["Data", "Variables"], "Data"⟩,
    ⟨"SubscriptionDocumentNode", ["Data", "Variables"], "Data"⟩,
    ⟨"FragmentDocumentNode", ["Data"], "Data"⟩]

/-- typed-documentnode.d.ts:62-71 `VariablesOf`; after the last branch comes `never`. -/
def variablesOfBranches : List InferBranch :=
  [⟨"QueryDocumentNode", ["Data", "Variables"], "Variables"⟩,
    ⟨"MutationDocumentNode", ["Data", "Variables"], "Variables"⟩,
    ⟨"SubscriptionDocumentNode", ["Data", "Variables"], "Variables"⟩]

/-- What a helper evaluates to. -/
inductive Extracted (α : Type) where
  /-- This type. -/
  | is (t : α)
  /-- `Record<string, unknown>`, the constraint of the type parameters (typed-documentnode.d.ts:3). -/
  | anyRecord
  /-- `never`, of the end of the chain. -/
  | nothing
  deriving DecidableEq, Repr

/-- TypeScript's inference from `t` to the pattern `p`: the types that stand at the places of the pattern's
variables.  Properties are matched by their names. -/
def inferFrom {α : Type} (p : DocTy String) (t : DocTy α) : List (String × α) :=
  if p.marker = t.marker then (p.result, t.result) :: p.params.zip t.params else []

/-- The type of an inferred variable: what was found for it, or its constraint if nothing was. -/
def inferred {α : Type} (found : List (String × α)) (var : String) : Extracted α :=
  match AMap.get? found var with
  | some t => .is t
  | none => .anyRecord

/-- TypeScript's `t extends p` for a pattern whose variables have been inferred.  A `DocumentNode` is a
`DocumentNode`.  A property that is optional in the pattern may be missing from `t`.  If it is there, it must
be a function type with no more parameters and the same types.  (TypeScript also accepts related types; after
inference they are the same.) -/
def extendsPattern {α : Type} [DecidableEq α] (t : DocTy α) (p : DocTy (Extracted α)) : Bool :=
  if t.marker = p.marker then
    decide (t.params.length ≤ p.params.length) &&
      (t.params.zip p.params).all (fun x => decide (Extracted.is x.1 = x.2)) &&
      decide (Extracted.is t.result = p.result)
  else true

/-- typed-documentnode.d.ts:6-36: TypeScript's assignability of document types, `sub` being that of the types they
are made of.  A property that is optional in the target may be missing.  If it is there, it must be a function with no
more parameters, whose parameters accept what the target's accept (`strictFunctionTypes`) and whose result is assignable
to the target's. -/
def DocAssignable {α : Type} (sub : α → α → Prop) (t u : DocTy α) : Prop :=
  t.marker = u.marker → t.params.length ≤ u.params.length ∧
    (∀ x ∈ t.params.zip u.params, sub x.2 x.1) ∧ sub t.result u.result

/-- A conditional type: the first branch whose pattern fits. -/
def evalHelper {α : Type} [DecidableEq α] : List InferBranch → DocTy α → Extracted α
  | [], _ => .nothing
  | b :: bs, t =>
    match docTy b.node b.infers with
    | none => evalHelper bs t
    | some p =>
      let found := inferFrom p t
      if extendsPattern t ⟨p.marker, p.params.map (inferred found), inferred found p.result⟩ then
        inferred found b.result
      else evalHelper bs t

/-- `DataOf<node<args>>`; `none` if the library has no such document type. -/
def dataOf {α : Type} [DecidableEq α] (node : String) (args : List α) : Option (Extracted α) :=
  (docTy node args).map (evalHelper dataOfBranches)

/-- `VariablesOf<node<args>>`. -/
def variablesOf {α : Type} [DecidableEq α] (node : String) (args : List α) : Option (Extracted α) :=
  (docTy node args).map (evalHelper variablesOfBranches)

end Qlc
