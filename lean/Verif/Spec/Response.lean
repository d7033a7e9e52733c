import Verif.Spec.Schema
import Verif.Spec.Selections
import Verif.Spec.Emit
/-
What a GraphQL server may answer to a document, given only the introspection document of its schema, and
which JSON values a generated TypeScript file admits.
-/
set_option autoImplicit false

namespace Qlc.Spec

/-! ### The type system an introspection document describes -/

/-- The listed type of that name. -/
def typeNamed (doc : JSchema) (n : String) : Option JType := lastNamed JType.name n doc.types

/-- The kind of the listed type of that name. -/
def kindNamed (doc : JSchema) (n : String) : Option String := (typeNamed doc n).map JType.kind

/-- The GraphQL type that a type reference describes, with the kind of its named type. -/
def refType : JFieldType → Option (String × VarTy)
  | .mk kind name ofType =>
    if kind = "NON_NULL" then
      match ofType with
      | none => none
      | some j => (refType j).map (fun r => (r.1, .nonNull r.2))
    else if kind = "LIST" then
      match ofType with
      | none => none
      | some j => (refType j).map (fun r => (r.1, .list r.2))
    else name.map (fun n => (kind, .named n))

/-- The declared fields of an object type or interface. -/
def declaredFields (doc : JSchema) (P : String) : List JField :=
  match typeNamed doc P with
  | none => []
  | some j => if j.kind = "OBJECT" ∨ j.kind = "INTERFACE" then j.fields.getD [] else []

/-- The type of a declared field of an object type or interface, with the kind of its named type. -/
def fieldType (doc : JSchema) (P name : String) : Option (String × VarTy) :=
  (lastNamed JField.name name (declaredFields doc P)).bind (fun f => refType f.typeInformation)

/-- The object types that a value of a composite type can have. -/
def objectTypes (doc : JSchema) (P : String) : List String :=
  match typeNamed doc P with
  | none => []
  | some j =>
    if j.kind = "OBJECT" then [P]
    else if j.kind = "INTERFACE" ∨ j.kind = "UNION" then j.possibleTypes.getD []
    else []

/-- The kinds of types with sub-selections. -/
def CompositeKind (k : String) : Prop := k = "OBJECT" ∨ k = "INTERFACE" ∨ k = "UNION"

instance (k : String) : Decidable (CompositeKind k) := by unfold CompositeKind; infer_instance

/-- The kinds of types that can be selected. -/
def SelectableKind (k : String) : Prop := CompositeKind k ∨ k = "SCALAR" ∨ k = "ENUM"

instance (k : String) : Decidable (SelectableKind k) := by unfold SelectableKind; infer_instance

/-- The type has that kind of sub-selections. -/
def CompositeNamed (doc : JSchema) (n : String) : Prop := ∃ k, kindNamed doc n = some k ∧ CompositeKind k

/-- GraphQL's covariance: a field of type `a` may implement a field of type `b`. -/
def SubTy (doc : JSchema) : VarTy → VarTy → Prop
  | .named A, .named B => A = B ∨ (CompositeNamed doc A ∧ CompositeNamed doc B ∧
      ∀ T ∈ objectTypes doc A, T ∈ objectTypes doc B)
  | .list a, .list b => SubTy doc a b
  | .nonNull a, .nonNull b => SubTy doc a b
  | .nonNull a, b => SubTy doc a b
  | _, _ => False

/-- The document describes a valid GraphQL schema, as far as selections are concerned. -/
structure ValidDoc (doc : JSchema) : Prop where
  /-- Field types are well formed, can be selected, and refer to listed types by their kind. -/
  refs : ∀ P, ∀ f ∈ declaredFields doc P, ∃ k t, refType f.typeInformation = some (k, t) ∧
    WellFormed t ∧ SelectableKind k ∧ kindNamed doc (baseName t) = some k
  /-- No field and no type is called `__typename`. -/
  reserved : ∀ P, ∀ f ∈ declaredFields doc P, f.name ≠ "__typename"
  reservedType : kindNamed doc "__typename" = none
  /-- Values of interfaces and unions have object types. -/
  objects : ∀ P, ∀ T ∈ objectTypes doc P, kindNamed doc T = some "OBJECT"
  /-- The implementations of an interface have its fields, with types that fit. -/
  covariant : ∀ P, ∀ T ∈ objectTypes doc P, ∀ name k t, fieldType doc P name = some (k, t) →
    ∃ k' t', fieldType doc T name = some (k', t') ∧ SubTy doc t' t

/-- No field has a type with a nullable list of non-null lists (see C01). -/
def NoNonNullListInNullableList (doc : JSchema) : Prop :=
  ∀ P name k t, fieldType doc P name = some (k, t) → hasNonNullListInNullableList false t = false

/-! ### What a server may answer -/

/-- A field to evaluate: response key, field name, sub-selections. -/
structure Wanted where
  key : String
  name : String
  items : List Selection

/-- GraphQL's CollectFields for an object of type `T`.  `applies` says which directives (`@skip`,
`@include`) let a selection take part. -/
inductive Collect (doc : JSchema) (frags : Frags) (applies : List Directive → Prop) (T : String) :
    List Selection → List Wanted → Prop where
  | nil : Collect doc frags applies T [] []
  | leftOutField {pos : Pos} {al : Option String} {name : String} {args : List (String × Value)}
      {dirs : List Directive} {items rest : List Selection} {L : List Wanted} :
      ¬ applies dirs → Collect doc frags applies T rest L →
      Collect doc frags applies T (.field pos al name args dirs items :: rest) L
  | leftOutInline {pos : Pos} {cond : Option String} {dirs : List Directive}
      {items rest : List Selection} {L : List Wanted} :
      ¬ applies dirs → Collect doc frags applies T rest L →
      Collect doc frags applies T (.inline pos cond dirs items :: rest) L
  | leftOutSpread {pos : Pos} {name : String} {dirs : List Directive} {rest : List Selection}
      {L : List Wanted} :
      ¬ applies dirs → Collect doc frags applies T rest L →
      Collect doc frags applies T (.spread pos name dirs :: rest) L
  | field {pos : Pos} {al : Option String} {name : String} {args : List (String × Value)}
      {dirs : List Directive} {items rest : List Selection} {L : List Wanted} :
      applies dirs → Collect doc frags applies T rest L →
      Collect doc frags applies T (.field pos al name args dirs items :: rest)
        (⟨al.getD name, name, items⟩ :: L)
  | inline {pos : Pos} {cond : Option String} {dirs : List Directive} {items rest : List Selection}
      {L₁ L : List Wanted} :
      applies dirs → (∀ C, cond = some C → T ∈ objectTypes doc C) →
      Collect doc frags applies T items L₁ → Collect doc frags applies T rest L →
      Collect doc frags applies T (.inline pos cond dirs items :: rest) (L₁ ++ L)
  | otherInline {pos : Pos} {C : String} {dirs : List Directive} {items rest : List Selection}
      {L : List Wanted} :
      applies dirs → T ∉ objectTypes doc C → Collect doc frags applies T rest L →
      Collect doc frags applies T (.inline pos (some C) dirs items :: rest) L
  | spread {pos : Pos} {name : String} {dirs : List Directive} {fd : FragmentDef}
      {rest : List Selection} {L₁ L : List Wanted} :
      applies dirs → AMap.get? frags name = some fd → T ∈ objectTypes doc fd.typeCond →
      Collect doc frags applies T fd.items L₁ → Collect doc frags applies T rest L →
      Collect doc frags applies T (.spread pos name dirs :: rest) (L₁ ++ L)
  | otherSpread {pos : Pos} {name : String} {dirs : List Directive} {fd : FragmentDef}
      {rest : List Selection} {L : List Wanted} :
      applies dirs → AMap.get? frags name = some fd → T ∉ objectTypes doc fd.typeCond →
      Collect doc frags applies T rest L →
      Collect doc frags applies T (.spread pos name dirs :: rest) L

/-- Collecting merged selection sets. -/
def CollectMany (doc : JSchema) (frags : Frags) (applies : List Directive → Prop) (T : String)
    (sets : List (List Selection)) (L : List Wanted) : Prop :=
  ∃ Ls, List.Forall₂ (Collect doc frags applies T) sets Ls ∧ L = Ls.flatten

/-- A JSON object with exactly the given properties, each with a value that is right for it. -/
def IsObject {α : Type} (name : α → String) (ok : α → JVal → Prop) (props : List α) (v : JVal) : Prop :=
  ∃ fs, v = .obj fs ∧ (fs.map Prod.fst).Nodup ∧
    (∀ key, key ∈ fs.map Prod.fst ↔ key ∈ props.map name) ∧
    ∀ p ∈ props, ∃ x, (name p, x) ∈ fs ∧ ok p x

/-- The values of a scalar or enum, other than null.  `scalars` gives those of custom scalars. -/
def LeafValue (doc : JSchema) (scalars : String → JVal → Prop) (kind n : String) (v : JVal) : Prop :=
  if kind = "ENUM" then
    ∃ j vs s, typeNamed doc n = some j ∧ j.enumValues = some vs ∧ s ∈ vs ∧ v = .str s
  else if n = "Int" ∨ n = "Float" then ∃ s, v = .num s
  else if n = "String" ∨ n = "ID" then ∃ s, v = .str s
  else if n = "Boolean" then ∃ b, v = .bool b
  else scalars n v ∧ v ≠ .null

/-- The value under a response key of an object of type `T`, for the collected fields `r :: rest` of that
key: the type name, or a value of the field's type on `T`.  `R` gives the objects of a given type for the
merged sub-selections. -/
def ValueFor (R : String → List (List Selection) → JVal → Prop) (doc : JSchema)
    (scalars : String → JVal → Prop) (T : String) (r : Wanted) (rest : List Wanted) (x : JVal) : Prop :=
  (r.name = "__typename" ∧ x = .str T) ∨
  (r.name ≠ "__typename" ∧ ∃ kind t, fieldType doc T r.name = some (kind, t) ∧
    Admits (fun y =>
      if CompositeKind kind then
        ∃ T' ∈ objectTypes doc (baseName t), R T' ((r :: rest).map Wanted.items) y
      else LeafValue doc scalars kind (baseName t) y) t x)

/-- `AnswersTo n T sets v`: down to depth `n`, a server may answer `v` when it evaluates the merged
selection sets on an object of type `T` (GraphQL's ExecuteSelectionSet).  Since JSON values are finite,
`∀ n, AnswersTo n T sets v` says that `v` is a possible answer. -/
def AnswersTo (doc : JSchema) (frags : Frags) (applies : List Directive → Prop)
    (scalars : String → JVal → Prop) : Nat → String → List (List Selection) → JVal → Prop
  | 0, _, _, v => ∃ fs, v = .obj fs
  | n + 1, T, sets, v => ∃ L, CollectMany doc frags applies T sets L ∧
      IsObject Wanted.key (fun w x => ∃ r rest,
        L.filter (fun w' => decide (w'.key = w.key)) = r :: rest ∧
        ValueFor (AnswersTo doc frags applies scalars n) doc scalars T r rest x) L v

mutual
/-- The directive lists of a selection and everything in it. -/
def directivesSel : Selection → List (List Directive)
  | .field _ _ _ _ dirs items => dirs :: directivesOf items
  | .inline _ _ dirs items => dirs :: directivesOf items
  | .spread _ _ dirs => [dirs]
/-- The directive lists in a selection set. -/
def directivesOf : List Selection → List (List Directive)
  | [] => []
  | s :: rest => directivesSel s ++ directivesOf rest
end

/-- No selection is left out. -/
def Unconditional (applies : List Directive → Prop) (items : List Selection) : Prop :=
  ∀ dirs ∈ directivesOf items, applies dirs

/-- Every selection in an imported fragment applies. -/
def FragsApply (applies : List Directive → Prop) (frags : Frags) : Prop :=
  ∀ name fd, AMap.get? frags name = some fd → Unconditional applies fd.items

/-- The type on which a server evaluates a definition, with the usual names of the root types; a fragment is
evaluated on the objects of its type condition. -/
def serverRoot : Definition → Option String
  | .selectionSet .. => some "Query"
  | .operation .query .. => some "Query"
  | .operation .mutation .. => some "Mutation"
  | .operation .subscription .. => some "Subscription"
  | .fragment f => some f.typeCond

/-- The definition is a subscription. -/
def isSubscription : Definition → Bool
  | .operation .subscription .. => true
  | _ => false

/-! ### What a generated file admits -/

/-- The meaning of a type name in a generated file: its own types first, otherwise what `env` says. -/
def scope (decls : List TsDecl) (D env : String → JVal → Prop) (n : String) (v : JVal) : Prop :=
  if n ∈ decls.map TsDecl.name then D n v else env n v

/-- `Inhabits decls env k n v`: down to depth `k`, the value `v` inhabits the type `n` of a file with the
declarations `decls`; `env` gives the meaning of the names declared elsewhere.  The type of a property is
read from its text. -/
def Inhabits (decls : List TsDecl) (env : String → JVal → Prop) : Nat → String → JVal → Prop
  | 0, _, v => ∃ fs, v = .obj fs
  | k + 1, n, v => ∃ objs, Resolves decls n objs ∧ ∃ o ∈ objs,
      IsObject TsProp.name (fun p x => ∃ t, parseTs p.typeText = some t ∧
        TsAdmits (scope decls (Inhabits decls env k) env) t x) o.2 v

/-- The names declared elsewhere mean what the configuration and the globals module make of them: `string`,
`number`, `boolean` and `any` are TypeScript's, enums admit their values, and the names of custom scalars
admit their values. -/
structure EnvFor (cfg : TsConfig) (doc : JSchema) (scalars env : String → JVal → Prop) : Prop where
  string : ∀ s, env "string" (.str s)
  number : ∀ s, env "number" (.num s)
  boolean : ∀ b, env "boolean" (.bool b)
  any : ∀ v, env "any" v
  enum : ∀ n j vs, typeNamed doc n = some j → j.kind = "ENUM" → j.enumValues = some vs →
    ∀ s ∈ vs, env n (.str s)
  custom : ∀ n v, kindNamed doc n = some "SCALAR" → scalars n v → match cfg.bottomTypeConfig with
    | .defaultBottomType => True
    | .realName => env n v
    | .realNameWithPrefix p => env (p ++ n) v

/-- The meanings that are required, and no more. -/
def leastEnv (cfg : TsConfig) (doc : JSchema) (scalars : String → JVal → Prop) (n : String) (v : JVal) : Prop :=
  (n = "string" ∧ ∃ s, v = .str s) ∨ (n = "number" ∧ ∃ s, v = .num s) ∨
  (n = "boolean" ∧ ∃ b, v = .bool b) ∨ n = "any" ∨
  (∃ j vs s, typeNamed doc n = some j ∧ j.kind = "ENUM" ∧ j.enumValues = some vs ∧ s ∈ vs ∧ v = .str s) ∨
  ∃ m, scalars m v ∧ match cfg.bottomTypeConfig with
    | .defaultBottomType => False
    | .realName => n = m
    | .realNameWithPrefix p => n = p ++ m

/-! ### What the alternatives of a tree admit -/

/-- The values of a field type in an alternative for the object type `T`. -/
def TypeValue (R : List Complex → JVal → Prop) (cfg : TsConfig) (env : String → JVal → Prop)
    (T : String) : IRType → JVal → Prop
  | .complex sub => R sub
  | .enum n => env n
  | .scalar s => env (scalarFlat cfg s).text
  | .typeName => fun v => v = .str T

/-- The values of a field in an alternative for the object type `T`, with its list and null modifiers. -/
def FieldValue (R : List Complex → JVal → Prop) (cfg : TsConfig) (env : String → JVal → Prop)
    (T : String) (fld : IRField) (x : JVal) : Prop :=
  TsAdmits (fun _ => TypeValue R cfg env T fld.type) (wrapMods (fld.last :: fld.rest) (.ref "")) x

/-- `TreeAdmits k ps v`: down to depth `k`, the value `v` belongs to one of the alternatives `ps`, each kept
apart from the others. -/
def TreeAdmits (cfg : TsConfig) (env : String → JVal → Prop) : Nat → List Complex → JVal → Prop
  | 0, _, v => ∃ fs, v = .obj fs
  | k + 1, ps, v => ∃ T fields, Complex.mk T fields ∈ ps ∧
      IsObject IRField.propName (FieldValue (TreeAdmits cfg env k) cfg env T) fields v

mutual
/-- The same field type up to documentation and deprecation marks. -/
def sameType : IRType → IRType → Bool
  | .complex ps, .complex qs => samePoss ps qs
  | .enum a, .enum b => decide (a = b)
  | .scalar a, .scalar b => decide (a = b)
  | .typeName, .typeName => true
  | _, _ => false
/-- The same alternatives up to documentation and deprecation marks. -/
def samePoss : List Complex → List Complex → Bool
  | [], [] => true
  | c :: cs, d :: ds => sameComplex c d && samePoss cs ds
  | _, _ => false
/-- The same alternative up to documentation and deprecation marks. -/
def sameComplex : Complex → Complex → Bool
  | .mk T fs, .mk U gs => decide (T = U) && sameFields fs gs
/-- The same fields up to documentation and deprecation marks. -/
def sameFields : List IRField → List IRField → Bool
  | [], [] => true
  | f :: fs, g :: gs => sameField f g && sameFields fs gs
  | _, _ => false
/-- The same field up to documentation and deprecation marks. -/
def sameField : IRField → IRField → Bool
  | .mk p _ _ l r ty, .mk p' _ _ l' r' ty' =>
    decide (p = p') && decide (l = l') && decide (r = r') && sameType ty ty'
end

/-- At every nested position, alternatives with the same property names have the same bodies. -/
def SameBodies (ps : List Complex) : Prop :=
  ∀ qs, Under ps qs → ∀ T fields T' fields', Complex.mk T fields ∈ qs → Complex.mk T' fields' ∈ qs →
    SameProps (.mk T fields) (.mk T' fields') → sameFields fields fields' = true

/-- At every nested position, no alternative selects `__typename` twice. -/
def OneTypename (ps : List Complex) : Prop :=
  ∀ qs, Under ps qs → ∀ T fields, Complex.mk T fields ∈ qs →
    ∀ f ∈ fields, ∀ g ∈ fields, f.type = .typeName → g.type = .typeName → f.propName = g.propName

/-! ### Names -/

/-- A GraphQL name, as far as its characters are concerned. -/
def IsName (s : String) : Prop :=
  s.toList ≠ [] ∧ ∀ c ∈ s.toList, c.isAlphanum = true ∨ c = '_'

instance (s : String) : Decidable (IsName s) := by unfold IsName; infer_instance

/-- The names a file for `main` may declare: `main` itself and names that continue it by an underscore. -/
def Generated (main n : String) : Prop := n = main ∨ ∃ s, n = main ++ "_" ++ s

/-- The type names declared elsewhere that a generated file may mention. -/
def Outside (cfg : TsConfig) (doc : JSchema) (n : String) : Prop :=
  n ∈ ["string", "number", "boolean", "any"] ∨
  kindNamed doc n = some "ENUM" ∨
  ∃ s, kindNamed doc s = some "SCALAR" ∧ match cfg.bottomTypeConfig with
    | .defaultBottomType => False
    | .realName => n = s
    | .realNameWithPrefix p => n = p ++ s

/-- At every nested position, the names that are printed can be read back: object types and response keys of
composite fields are GraphQL names, enums and scalars are single type names that a file for `main` does not
declare itself.  A `__typename` has no modifiers. -/
def Readable (cfg : TsConfig) (main : String) (ps : List Complex) : Prop :=
  ∀ qs, Under ps qs → ∀ T fields, Complex.mk T fields ∈ qs → IsName T ∧ ∀ fld ∈ fields,
    match fld.type with
    | .complex _ => IsName fld.propName
    | .enum n => IsTypeName n ∧ ¬ Generated main n
    | .scalar s => IsTypeName (scalarFlat cfg s).text ∧ ¬ Generated main (scalarFlat cfg s).text
    | .typeName => fld.last = .none ∧ fld.rest = []

end Qlc.Spec
