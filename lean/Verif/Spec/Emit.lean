import Verif.Model.Typescript
import Mathlib.Data.List.Forall2
/-
What a generated TypeScript file consists of, as data, and how it is written down.  The properties of
generated files are stated as: the text of the file is `TsFile.text` of a file with such and such
declarations.
-/
set_option autoImplicit false

namespace Qlc.Spec

/-- What the type of a property refers to, once the list and null modifiers are taken off. -/
inductive Flat where
  /-- A type built into TypeScript. -/
  | builtin (name : String)
  /-- A custom scalar under its configured name; declared by the user. -/
  | custom (name : String)
  /-- An enum or an input object, imported from the globals module. -/
  | global (name : String)
  /-- Another type of the same file. -/
  | declared (name : String)
  /-- One of these string literals. -/
  | literals (names : List String)
  deriving DecidableEq, Repr

/-- How the reference is written. -/
def Flat.text : Flat → String
  | .builtin s => s
  | .custom s => s
  | .global s => s
  | .declared s => s
  | .literals ns => joinWith " | " (ns.map (fun n => "\"" ++ n ++ "\""))

/-- The reference for a scalar: TypeScript's own types, or the configured spelling. -/
def scalarFlat (cfg : TsConfig) : ScalarType → Flat
  | .boolean => .builtin "boolean"
  | .string | .id => .builtin "string"
  | .float | .int => .builtin "number"
  | .custom name =>
    match cfg.bottomTypeConfig with
    | .defaultBottomType => .builtin "any"
    | .realName => .custom name
    | .realNameWithPrefix s => .custom (s ++ name)

/-- One property of a generated object type.  `last` and `rest` are the list and null modifiers, innermost
first. -/
structure TsProp where
  name : String
  doc : Option String
  deprecated : Bool
  last : Mod
  rest : List Mod
  flat : Flat
  deriving DecidableEq, Repr

/-- The type of a property as text. -/
def TsProp.typeText (p : TsProp) : String := propTypeDef p.rest p.last p.flat.text

/-- One property: two spaces, the doc comment if any, `readonly` if asked for, name and type. -/
def TsProp.text (readonly : Bool) (p : TsProp) : String :=
  "  " ++ compileDocumentation p.doc p.deprecated 2 ++ (if readonly then "readonly " else "") ++
    p.name ++ ": " ++ p.typeText ++ ";"

/-- An exported type: an object type, or a union of other types of the file. -/
inductive TsDecl where
  | object (name : String) (props : List TsProp)
  | union (name : String) (alts : List String)
  deriving DecidableEq, Repr

/-- The name an exported type declares. -/
def TsDecl.name : TsDecl → String
  | .object n _ => n
  | .union n _ => n

/-- An exported type as text. -/
def TsDecl.text (readonly : Bool) : TsDecl → String
  | .object n props =>
    "export type " ++ n ++ " = {\n" ++ joinWith "\n" (props.map (TsProp.text readonly)) ++ "\n};"
  | .union n alts => "export type " ++ n ++ " = " ++ joinWith " | " alts ++ ";"

/-- One property of the variables type. -/
structure TsVar where
  name : String
  optional : Bool
  last : Mod
  flat : Flat
  deriving DecidableEq, Repr

/-- One property of the variables type as text. -/
def TsVar.text (v : TsVar) : String :=
  "  " ++ v.name ++ (if v.optional then "?: " else ": ") ++ propTypeDef [] v.last v.flat.text ++ ";"

/-- A generated file. -/
structure TsFile where
  /-- The document node type of the default export, and the module it is imported from. -/
  docNode : String
  docModule : String
  /-- The names imported from the globals module. -/
  globals : List String
  globalsModule : String
  /-- The exported data types; `name` is the one for the whole document. -/
  name : String
  decls : List TsDecl
  /-- The exported variables type. -/
  vars : Option (String × List TsVar)
  /-- The type arguments of the document node. -/
  args : List String
  deriving DecidableEq, Repr

/-- The names a file declares. -/
def TsFile.declared (f : TsFile) : List String :=
  f.decls.map TsDecl.name ++ (match f.vars with | none => [] | some v => [v.1])

/-- The file as text. -/
def TsFile.text (readonly : Bool) (f : TsFile) : String :=
  "/* eslint-disable */\n// This file was automatically generated and should not be edited.\n\n" ++
  "import type { " ++ f.docNode ++ " } from \"" ++ f.docModule ++ "\";\n" ++
  (if f.globals = [] then "" else
    "import type { " ++ joinWith ", " f.globals ++ " } from \"" ++ f.globalsModule ++ "\";\n") ++
  "\n" ++ joinWith "\n\n" (f.decls.map (TsDecl.text readonly)) ++
  (match f.vars with
    | none => ""
    | some (n, vs) =>
      "\n\nexport type " ++ n ++ " = {\n" ++ joinWith "\n" (vs.map TsVar.text) ++ "\n};") ++
  "\n\ndeclare const graphqlDocument: " ++ f.docNode ++ "<" ++ joinWith ", " f.args ++ ">" ++
  ";\nexport default graphqlDocument;"

/-! ### Declarations for a tree -/

/-- The object types that the name `n` stands for, with their properties: `n` itself, or those of the union
`n`. -/
def Resolves (decls : List TsDecl) (n : String) (objs : List (String × List TsProp)) : Prop :=
  (∃ props, TsDecl.object n props ∈ decls ∧ objs = [(n, props)]) ∨
  (TsDecl.union n (objs.map Prod.fst) ∈ decls ∧ ∀ o ∈ objs, TsDecl.object o.1 o.2 ∈ decls)

/-- Two alternatives have the same property names. -/
def SameProps (c d : Complex) : Prop :=
  ∀ x, x ∈ c.fields.map IRField.propName ↔ x ∈ d.fields.map IRField.propName

/-- One printed alternative: the declared object type, the GraphQL object types it stands for, and the one
of them whose fields are printed. -/
structure Alt where
  name : String
  props : List TsProp
  types : List String
  rep : Complex

/-- The printed reference says what the field type says, in an alternative for the object types `types`;
`R` describes the types printed for sub-selections. -/
def FlatIs (R : String → List Complex → Prop) (cfg : TsConfig) (types : List String) (flat : Flat) :
    IRType → Prop
  | .complex sub => ∃ n, flat = .declared n ∧ R n sub
  | .enum n => flat = .global n
  | .scalar s => flat = scalarFlat cfg s
  | .typeName => ∃ lits, flat = .literals lits ∧ lits.Pairwise (· < ·) ∧ ∀ T, T ∈ lits ↔ T ∈ types

/-- The printed property says what the field says. -/
def PropIs (R : String → List Complex → Prop) (cfg : TsConfig) (types : List String) (fld : IRField)
    (p : TsProp) : Prop :=
  p.name = fld.propName ∧ p.doc = fld.documentation ∧ p.deprecated = fld.deprecated ∧
    p.last = fld.last ∧ p.rest = fld.rest ∧ FlatIs R cfg types p.flat fld.type

/-- `Renders cfg decls k n ps`: down to depth `k`, the type `n` is printed for the alternatives `ps`.  Every
alternative is part of exactly one printed object type; those that share one have the same property names,
and the properties printed are those of one of them. -/
def Renders (cfg : TsConfig) (decls : List TsDecl) : Nat → String → List Complex → Prop
  | 0, _, _ => True
  | k + 1, n, ps => ∃ alts : List Alt,
      Resolves decls n (alts.map (fun a => (a.name, a.props))) ∧
      (∀ T, T ∈ ps.map Complex.name ↔ ∃ a ∈ alts, T ∈ a.types) ∧
      alts.Pairwise (fun a b => ∀ T, T ∈ a.types → T ∉ b.types) ∧
      ∀ a ∈ alts, a.rep ∈ ps ∧ a.rep.name ∈ a.types ∧
        (∀ c ∈ ps, c.name ∈ a.types → SameProps c a.rep) ∧
        List.Forall₂ (PropIs (Renders cfg decls k) cfg a.types) a.rep.fields a.props

/-- `Under ps qs`: the alternatives `qs` are nested somewhere in the alternatives `ps`, or are `ps`. -/
inductive Under (ps : List Complex) : List Complex → Prop where
  | refl : Under ps ps
  | step {qs : List Complex} {T : String} {fields : List IRField} {fld : IRField} {sub : List Complex} :
      Under ps qs → Complex.mk T fields ∈ qs → fld ∈ fields → fld.type = .complex sub → Under ps sub

/-- At every nested position the alternatives have different names. -/
def AltsNodup (ps : List Complex) : Prop := ∀ qs, Under ps qs → (qs.map Complex.name).Nodup

/-- A name without underscores and dollar signs. -/
def Plain (s : String) : Prop := ∀ c ∈ s.toList, c ≠ '_' ∧ c ≠ '$'

instance (s : String) : Decidable (Plain s) := by unfold Plain; infer_instance

/-- At every nested position, the names that become part of generated type names are plain: the object
types, and the response keys of composite fields. -/
def PlainNames (ps : List Complex) : Prop :=
  ∀ qs, Under ps qs → ∀ T fields, Complex.mk T fields ∈ qs →
    Plain T ∧ ∀ fld ∈ fields, (∃ sub, fld.type = .complex sub) → Plain fld.propName

/-- At every nested position, no alternative lists a property twice. -/
def PropsNodup (ps : List Complex) : Prop :=
  ∀ qs, Under ps qs → ∀ T fields, Complex.mk T fields ∈ qs → (fields.map IRField.propName).Nodup

/-! ### The file for an operation -/

/-- The printed variable says what the variable says: optional exactly when nullable, with the modifier and
the named type of the variable. -/
def VarIs (cfg : TsConfig) (schema : Schema) (v : Variable) (p : TsVar) : Prop :=
  p.name = v.propName ∧ p.last = v.modifier ∧
  (p.optional = true ↔ v.modifier = .nullable ∨ v.modifier = .nullableList ∨
    v.modifier = .nullableListOfNullable) ∧
  match v.type with
  | .id | .string => p.flat = .builtin "string"
  | .float | .int => p.flat = .builtin "number"
  | .boolean => p.flat = .builtin "boolean"
  | .custom n => ∃ t, schema.getType n = some t ∧
      p.flat = match t.definition with
        | .scalar _ => scalarFlat cfg (.custom n)
        | _ => .global n

/-- The printed variables are the variables, in sorted order. -/
def VarsAre (cfg : TsConfig) (schema : Schema) (vs : List Variable) (ps : List TsVar) : Prop :=
  (ps.map TsVar.name).Pairwise (· ≤ ·) ∧
  ∃ vs', vs'.Perm vs ∧ List.Forall₂ (VarIs cfg schema) vs' ps

/-- `FileFor cfg schema op f`: the file `f` is one for the operation `op`: at every depth its declarations
say what the tree of `op` says, and its variables type what the variables of `op` say. -/
structure FileFor (cfg : TsConfig) (schema : Schema) (op : Operation) (f : TsFile) : Prop where
  name : f.name = op.name
  docModule : f.docModule = cfg.typedGraphqlDocumentnodeModuleName
  globalsModule : f.globalsModule = cfg.globalTypesModuleName
  tree : ∀ k, Renders cfg f.decls k f.name op.collection
  vars : match op.variables with
    | none => f.vars = none
    | some vs => ∃ ps, f.vars = some (f.name ++ "Variables", ps) ∧ VarsAre cfg schema vs ps

/-- The reference is to something that exists: a type of TypeScript, a custom scalar under the configured
name, an imported global, or a type of the file. -/
def Flat.Known (cfg : TsConfig) (f : TsFile) : Flat → Prop
  | .builtin n => n ∈ ["string", "number", "boolean", "any"]
  | .custom n => ∃ s, match cfg.bottomTypeConfig with
      | .defaultBottomType => False
      | .realName => n = s
      | .realNameWithPrefix p => n = p ++ s
  | .global n => n ∈ f.globals
  | .declared n => ∃ d ∈ f.decls, d.name = n
  | .literals _ => True

mutual
/-- The response keys of the fields with sub-selections written in a selection. -/
def compositeKeysSel : Selection → List String
  | .field _ al name _ _ items =>
    (if items.isEmpty then [] else [al.getD name]) ++ compositeKeys items
  | .inline _ _ _ items => compositeKeys items
  | .spread .. => []
/-- The response keys of the fields with sub-selections written in a selection set. -/
def compositeKeys : List Selection → List String
  | [] => []
  | s :: rest => compositeKeysSel s ++ compositeKeys rest
end

/-- The property `key` of an object type is a union of string literals, one of which is `T`. -/
def HasLiteral (props : List TsProp) (key T : String) : Prop :=
  ∃ p ∈ props, p.name = key ∧ ∃ ls, p.flat = .literals ls ∧ T ∈ ls

/-- `Discriminated decls k n ps`: down to depth `k`, at every printed position, whenever all alternatives
select `__typename` under the response key `key`, each possible object type is admitted by the property
`key` of one of the printed object types, and by no other, and nothing else is admitted. -/
def Discriminated (decls : List TsDecl) : Nat → String → List Complex → Prop
  | 0, _, _ => True
  | k + 1, n, ps => ∃ alts : List ((String × List TsProp) × Complex),
      Resolves decls n (alts.map Prod.fst) ∧
      (∀ key, (∀ c ∈ ps, ∃ fld ∈ c.fields, fld.propName = key ∧ fld.type = .typeName) →
        (∀ T, T ∈ ps.map Complex.name ↔ ∃ a ∈ alts, HasLiteral a.1.2 key T) ∧
        alts.Pairwise (fun a b => ∀ T, HasLiteral a.1.2 key T → ¬ HasLiteral b.1.2 key T)) ∧
      ∀ a ∈ alts, a.2 ∈ ps ∧ List.Forall₂ (fun (fld : IRField) (p : TsProp) => p.name = fld.propName ∧
        ∀ sub, fld.type = .complex sub → ∃ m, p.flat = .declared m ∧ Discriminated decls k m sub)
        a.2.fields a.1.2

/-- The document node type for a definition: a subscription gets the one for queries. -/
def docNodeFor : Definition → String
  | .operation .query .. => "QueryDocumentNode"
  | .operation .mutation .. => "MutationDocumentNode"
  | .operation .subscription .. => "QueryDocumentNode"
  | _ => "FragmentDocumentNode"

/-- The name of the data type for a definition. -/
def dataName : Definition → String
  | .operation .query _ name _ _ _ => name.getD "Query"
  | .operation .mutation _ name _ _ _ => name.getD "Mutation"
  | .operation .subscription _ name _ _ _ => name.getD "Subscription"
  | .fragment f => f.name
  | .selectionSet .. => ""

/-- The arguments of the document node type: the data type; for operations also the variables type, `never`
without variables. -/
def docArgs (d : Definition) : List String :=
  match d with
  | .operation _ _ _ vars _ _ =>
    [dataName d, if vars = [] then "never" else dataName d ++ "Variables"]
  | _ => [dataName d]

end Qlc.Spec
