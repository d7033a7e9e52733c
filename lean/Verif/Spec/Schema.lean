import Verif.Spec.Types
import Verif.Spec.Text
/-
Independent specification of introspection documents: when they are well described, and what a loaded
schema must answer.
-/
set_option autoImplicit false

namespace Qlc.Spec

/-- The kinds of named types of the introspection system. -/
def NamedKind (k : String) : Prop :=
  k ∈ ["SCALAR", "OBJECT", "INTERFACE", "UNION", "ENUM", "INPUT_OBJECT"]

/-- A type reference ends in a named type of a known kind and has `ofType` under each wrapper. -/
inductive RefOk : JFieldType → Prop where
  | named (k n : String) (ofType : Option JFieldType) : NamedKind k → RefOk (.mk k (some n) ofType)
  | wrapper (k : String) (nm : Option String) (j : JFieldType) :
      k = "LIST" ∨ k = "NON_NULL" → RefOk j → RefOk (.mk k nm (some j))

/-- All fields of a list have good type references. -/
def FieldsOk (fs : List JField) : Prop := ∀ f ∈ fs, RefOk f.typeInformation

/-- A listed type has a known kind and what that kind needs. -/
def TypeOk (j : JType) : Prop :=
  (j.kind = "OBJECT" ∧ ∃ fs, j.fields = some fs ∧ FieldsOk fs) ∨
  (j.kind = "INTERFACE" ∧ (∃ fs, j.fields = some fs ∧ FieldsOk fs) ∧ j.possibleTypes.isSome) ∨
  (j.kind = "INPUT_OBJECT" ∧ ∃ fs, j.inputFields = some fs ∧ FieldsOk fs) ∨
  (j.kind = "UNION" ∧ j.possibleTypes.isSome) ∨
  (j.kind = "ENUM" ∧ j.enumValues.isSome) ∨
  j.kind = "SCALAR"

/-- A listed type has these fields. -/
def ListsFields (t : JType) (fs : List JField) : Prop :=
  ((t.kind = "OBJECT" ∨ t.kind = "INTERFACE") ∧ t.fields = some fs) ∨
    (t.kind = "INPUT_OBJECT" ∧ t.inputFields = some fs)

/-- The last element of a list with the given name. -/
def lastNamed {α : Type} (name : α → String) (n : String) (l : List α) : Option α :=
  (l.filter (fun a => decide (name a = n))).getLast?

/-- What a named type is for the code generator. -/
inductive DefOfKind : String → String → FieldTypeDef → Prop where
  | scalar (n : String) : DefOfKind "SCALAR" n (.scalar (ScalarType.ofName n))
  | object (n : String) : DefOfKind "OBJECT" n .object
  | interface (n : String) : DefOfKind "INTERFACE" n .interface
  | union (n : String) : DefOfKind "UNION" n .union
  | enum (n : String) : DefOfKind "ENUM" n .enum
  | inputObject (n : String) : DefOfKind "INPUT_OBJECT" n .inputObject

/-- A loaded description: absent if there is none, otherwise the lines of the description that are not
blank, each without the white space around it. -/
def DocOfJson : Option String → Option String → Prop
  | none, loaded => loaded = none
  | some d, loaded => ∃ ls ts doc, IsLines d.toList ls ∧ Tidied ls ts ∧ loaded = some doc ∧
      doc.toList = joinLines ts

/-- A loaded field carries the name, deprecation, description and named type of its JSON. -/
structure FieldOfJson (j : JField) (f : SField) : Prop where
  name : f.name = j.name
  deprecated : f.deprecated = decide (j.deprecated = some true)
  documentation : DocOfJson j.description f.documentation
  type : ∃ kind t, Describes kind j.typeInformation t ∧ f.type.name = baseName t ∧
    DefOfKind kind (baseName t) f.type.definition

/-- A field table answers exactly the given JSON fields (the last one of each name), and otherwise
what `extra` says. -/
def FieldsOfJson (fs : List JField) (extra : String → Option SField) (m : FieldsLookup) : Prop :=
  ∀ n, match lastNamed JField.name n fs with
    | some j => ∃ f, AMap.get? m n = some f ∧ FieldOfJson j f
    | none => AMap.get? m n = extra n

/-- The implicit `__typename` field and nothing else. -/
def onlyTypename (n : String) : Option SField :=
  if n = "__typename" then some ⟨"__typename", none, ⟨"__typename", .none, .typeName, []⟩, false⟩
  else none

/-- A loaded type says what its JSON said. -/
inductive TypeOfJson (j : JType) : TypeDef → Prop where
  | object (fs : List JField) (m : FieldsLookup) : j.kind = "OBJECT" → j.fields = some fs →
      FieldsOfJson fs onlyTypename m → TypeOfJson j (.object m)
  | interface (fs : List JField) (ps : List String) (m : FieldsLookup) : j.kind = "INTERFACE" →
      j.fields = some fs → j.possibleTypes = some ps → FieldsOfJson fs onlyTypename m →
      TypeOfJson j (.interface j.name m ps)
  | inputObject (fs : List JField) (m : FieldsLookup) : j.kind = "INPUT_OBJECT" →
      j.inputFields = some fs → FieldsOfJson fs (fun _ => none) m →
      TypeOfJson j (.inputObject j.name m)
  | union (ps : List String) (m : FieldsLookup) : j.kind = "UNION" → j.possibleTypes = some ps →
      FieldsOfJson [] onlyTypename m → TypeOfJson j (.union j.name ps m)
  | enum (vs : List String) : j.kind = "ENUM" → j.enumValues = some vs → TypeOfJson j (.enum vs)
  | scalar : j.kind = "SCALAR" → TypeOfJson j (.scalar j.name)

end Qlc.Spec
