import Verif.Model.Compile
import Mathlib.Data.List.Forall2
/-
Independent vocabulary for the globals file: which types are global, when they are valid.
-/
set_option autoImplicit false

namespace Qlc.Spec

/-- `f` is a field of the input object type `t`. -/
def InputFieldOf (t : SType) (f : SField) : Prop :=
  ∃ name fields key, t.definition = .inputObject name fields ∧ (key, f) ∈ fields

/-- Input object `t` has a field whose type is the input object `t'`. -/
def SubInput (schema : Schema) (t' t : SType) : Prop :=
  ∃ f, InputFieldOf t f ∧ f.type.definition = .inputObject ∧ schema.getType f.type.name = some t'

/-- The types whose fields are looked at: the used ones and the input objects below them. -/
inductive Expanded (schema : Schema) (used : List String) : SType → Prop where
  | used {u : String} {t : SType} : u ∈ used → schema.getType u = some t → Expanded schema used t
  | sub {t t' : SType} : Expanded schema used t → SubInput schema t' t → Expanded schema used t'

/-- The names of the global types: the used ones, and the enums and input objects named by the fields of
expanded types. -/
inductive GlobalName (schema : Schema) (used : List String) : String → Prop where
  | used {n : String} : n ∈ used → GlobalName schema used n
  | field {t : SType} {f : SField} : Expanded schema used t → InputFieldOf t f →
      f.type.definition = .enum ∨ f.type.definition = .inputObject →
      GlobalName schema used f.type.name

/-- The field's type is allowed in an input object. -/
def InputFieldAllowed (f : SField) : Prop :=
  f.type.definition = .enum ∨ f.type.definition = .inputObject ∨
    ∃ s, f.type.definition = .scalar s

/-- The named type exists, is an enum or an input object, and has only fields allowed there. -/
def ValidGlobal (schema : Schema) (n : String) : Prop :=
  ∃ t, schema.getType n = some t ∧
    ((∃ vs, t.definition = .enum vs) ∨ ∃ name fields, t.definition = .inputObject name fields) ∧
    ∀ f, InputFieldOf t f → InputFieldAllowed f

/-- Every input object of the schema carries the name it is registered under (true of every schema
loaded from JSON). -/
def NamedAsRegistered (schema : Schema) : Prop :=
  ∀ n t name fields, schema.getType n = some t → t.definition = .inputObject name fields → name = n

/-- One member of a generated enum. -/
def enumMember (v : String) : String := "  " ++ v ++ " = \"" ++ v ++ "\","

/-- The text is the declaration of the enum `n`: its documentation, then one member per value,
in the order of the values if these are written with characters above the space (GraphQL names are). -/
def DeclaresEnum (n : String) (doc : Option String) (values : List String) (text : String) : Prop :=
  ∃ vs : List String, vs.Perm values ∧
    ((∀ v ∈ values, ∀ c ∈ v.toList, ' ' < c) → vs.Pairwise (fun a b => a ≤ b)) ∧
    text = compileDocumentation doc false 0 ++ "export enum " ++ n ++ " {\n" ++
      joinWith "\n" (vs.map enumMember) ++ "\n}"

/-- The text is the declaration of the input object `n`: one line per field, sorted by field name; the
line of a field is what `C02` and `C25` are about. -/
def DeclaresInput (cfg : TsConfig) (n : String) (fields : FieldsLookup) (text : String) : Prop :=
  ∃ (es : FieldsLookup) (lines : List String), es.Perm fields ∧
    es.Pairwise (fun a b => a.1 ≤ b.1) ∧
    List.Forall₂ (fun e line => inputFieldDef cfg e.1 e.2 = .ok line) es lines ∧
    text = "export type " ++ n ++ " = {\n" ++ joinWith "\n" lines ++ "\n};"

/-- The text is the declaration of the global type `n`. -/
def DeclaresGlobal (cfg : TsConfig) (schema : Schema) (n text : String) : Prop :=
  ∃ t, schema.getType n = some t ∧
    ((∃ vs, t.definition = .enum vs ∧ DeclaresEnum n t.documentation vs text) ∨
     (∃ name fields, t.definition = .inputObject name fields ∧ DeclaresInput cfg n fields text))

/-- The first lines of every generated file. -/
def generatedHeader : String :=
  "/* eslint-disable */\n// This file was automatically generated and should not be edited.\n\n"

end Qlc.Spec
