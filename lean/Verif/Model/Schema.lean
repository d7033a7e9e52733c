import Verif.Model.Basic
/-
Model of src/graphql/schema.rs, src/graphql/schema/field.rs and src/graphql/schema/json.rs.
This file starts from the decoded structs of json.rs; decoding them is modelled in Json.lean.
-/
set_option autoImplicit false

namespace Qlc

/-- json.rs:5-11 `FieldType`. -/
inductive JFieldType where
  | mk (kind : String) (name : Option String) (ofType : Option JFieldType)

/-- json.rs:13-21 `Field`. -/
structure JField where
  name : String
  description : Option String
  typeInformation : JFieldType
  deprecated : Option Bool

/-- json.rs:28-40 `Type`; `ComplexObjectDescription` (json.rs:23-26) is just its name. -/
structure JType where
  kind : String
  name : String
  description : Option String
  possibleTypes : Option (List String)
  inputFields : Option (List JField)
  fields : Option (List JField)
  enumValues : Option (List String)

/-- json.rs:42-45 `Schema`. -/
structure JSchema where
  types : List JType

/-- schema.rs:16-27 `Error`.  `JsonParse` cannot arise here because decoding is not modelled. -/
inductive SchemaError where
  | missingTypeOfForList
  | missingTypeOfForNonNull
  | missingNameForField
  | unknownType (name kind : String)
  | fieldsMissingForType (name : String)
  | enumMissingValues (name : String)
  | interfaceMissingTypes (name : String)
  | unionMissingTypes (name : String)
  deriving DecidableEq, Repr

/-- field.rs:4-12 `ScalarType`. -/
inductive ScalarType where
  | custom (name : String)
  | boolean | string | float | int | id
  deriving DecidableEq, Repr

/-- field.rs:14-25 `From<&str> for ScalarType`. -/
def ScalarType.ofName (name : String) : ScalarType :=
  if name = "Boolean" then .boolean
  else if name = "String" then .string
  else if name = "Float" then .float
  else if name = "Int" then .int
  else if name = "ID" then .id
  else .custom name

/-- field.rs:27-36 `FieldTypeDefinition`. -/
inductive FieldTypeDef where
  | object | interface | union | enum | scalar (s : ScalarType) | inputObject | typeName
  deriving DecidableEq, Repr

/-- field.rs:38-45 `is_complex`. -/
def FieldTypeDef.isComplex : FieldTypeDef → Bool
  | .union | .object | .interface | .inputObject => true
  | _ => false

/-- field.rs:47-61 `FieldTypeModifier`. -/
inductive Mod where
  | none | nullable | list | nullableList | listOfNullable | nullableListOfNullable
  deriving DecidableEq, Repr

/-- field.rs:76-80 `ModifierBuilder`. -/
structure ModBuilder where
  concrete : Mod
  higher : List Mod
  deriving DecidableEq, Repr

/-- field.rs:83-88 `ModifierBuilder::new`. -/
def ModBuilder.new : ModBuilder := ⟨.nullable, []⟩

/-- field.rs:91-101 `actualize`. -/
def ModBuilder.actualize (b : ModBuilder) : ModBuilder :=
  match b.concrete with
  | .nullable => ⟨.none, b.higher⟩
  | .nullableListOfNullable => ⟨.nullableList, b.higher⟩
  | .listOfNullable => ⟨.list, b.higher⟩
  | old => ⟨.nullable, b.higher ++ [old]⟩

/-- field.rs:104-127 `listize`. -/
def ModBuilder.listize (b : ModBuilder) : ModBuilder :=
  match b.concrete with
  | .nullable => ⟨.nullableListOfNullable, b.higher⟩
  | .none => ⟨.listOfNullable, b.higher⟩
  | .list => ⟨.listOfNullable, b.higher ++ [.list]⟩
  | .listOfNullable => ⟨.nullableListOfNullable, b.higher ++ [.listOfNullable]⟩
  | .nullableListOfNullable => ⟨.nullableListOfNullable, b.higher ++ [.nullableListOfNullable]⟩
  | old => ⟨.nullable, b.higher ++ [old]⟩

/-- field.rs:69-74 `ConcreteFieldType` and field.rs:153-157 `FieldType` in one record;
`last`/`rest` are what field.rs:130-151 `FieldTypeModifiers` exposes. -/
structure FieldType where
  name : String
  last : Mod
  definition : FieldTypeDef
  rest : List Mod
  deriving DecidableEq, Repr

/-- field.rs:160-170 `FieldType::new_type_name`. -/
def FieldType.newTypeName : FieldType := ⟨"__typename", .none, .typeName, []⟩

/-- field.rs:205-218: the definition for a non-wrapper kind. -/
def fieldTypeDefOfKind (kind name : String) : Except SchemaError FieldTypeDef :=
  if kind = "OBJECT" then .ok .object
  else if kind = "SCALAR" then .ok (.scalar (ScalarType.ofName name))
  else if kind = "INTERFACE" then .ok .interface
  else if kind = "ENUM" then .ok .enum
  else if kind = "INPUT_OBJECT" then .ok .inputObject
  else if kind = "UNION" then .ok .union
  else .error (.unknownType name kind)

/-- field.rs:185-235 `TryFrom<json::FieldType> for FieldType`, the loop as a recursion on the
reference with the builder as accumulator. -/
def FieldType.ofJsonAux (b : ModBuilder) : JFieldType → Except SchemaError FieldType
  | .mk kind name ofType =>
    if kind = "NON_NULL" then
      match ofType with
      | none => .error .missingTypeOfForNonNull
      | some t => FieldType.ofJsonAux b.actualize t
    else if kind = "LIST" then
      match ofType with
      | none => .error .missingTypeOfForList
      | some t => FieldType.ofJsonAux b.listize t
    else
      match name with
      | none => .error .missingNameForField
      | some n =>
        match fieldTypeDefOfKind kind n with
        | .error e => .error e
        | .ok d => .ok ⟨n, b.concrete, d, b.higher.reverse⟩

/-- field.rs:187-188. -/
def FieldType.ofJson (j : JFieldType) : Except SchemaError FieldType :=
  FieldType.ofJsonAux ModBuilder.new j

/-- field.rs:237-243 `Field`. -/
structure SField where
  name : String
  documentation : Option String
  type : FieldType
  deprecated : Bool
  deriving DecidableEq, Repr

/-- field.rs:245-254 `Field::new_type_name`. -/
def SField.newTypeName : SField := ⟨"__typename", none, FieldType.newTypeName, false⟩

/-- field.rs:267-273: trim every line, drop the empty ones, join with newlines. -/
def normalizeDocs (docs : String) : String :=
  joinWith "\n" (((linesC docs.toList).map trimC |>.filter (fun l => !l.isEmpty)).map String.ofList)

/-- field.rs:256-278 `TryFrom<json::Field> for Field`. -/
def SField.ofJson (j : JField) : Except SchemaError SField :=
  match FieldType.ofJson j.typeInformation with
  | .error e => .error e
  | .ok t => .ok ⟨j.name, j.description.map normalizeDocs, t, j.deprecated.getD false⟩

/-- schema.rs:12 `FieldsLookup`. -/
abbrev FieldsLookup := AMap String SField

/-- schema.rs:29-67 `ObjectType` .. `TypeDefinition`. -/
inductive TypeDef where
  | object (fields : FieldsLookup)
  | enum (possibleValues : List String)
  | scalar (name : String)
  | interface (name : String) (fields : FieldsLookup) (possibleTypes : List String)
  | inputObject (name : String) (fields : FieldsLookup)
  | union (name : String) (possibleTypes : List String) (fields : FieldsLookup)

/-- schema.rs:70-78 `get_fields_lookup`. -/
def TypeDef.fieldsLookup : TypeDef → Option FieldsLookup
  | .object f => some f
  | .inputObject _ f => some f
  | .interface _ f _ => some f
  | .union _ _ f => some f
  | _ => none

/-- schema.rs:92-94: the insertion loop of `get_fields_for_complex`. -/
def insertJsonFields (m : FieldsLookup) : List JField → Except SchemaError FieldsLookup
  | [] => .ok m
  | j :: rest =>
    match SField.ofJson j with
    | .error e => .error e
    | .ok f => insertJsonFields (AMap.insert m j.name f) rest

/-- schema.rs:81-96 `get_fields_for_complex`. -/
def getFieldsForComplex (fieldsJson : List JField) (addTypename : Bool) :
    Except SchemaError FieldsLookup :=
  insertJsonFields (if addTypename then [("__typename", SField.newTypeName)] else []) fieldsJson

/-- schema.rs:104-108 `Type`. -/
structure SType where
  documentation : Option String
  definition : TypeDef

/-- schema.rs:123-173: the `match kind` of `TryFrom<json::Type> for Type`. -/
def TypeDef.ofJson (j : JType) : Except SchemaError TypeDef :=
  if j.kind = "OBJECT" then
    match j.fields with
    | none => .error (.fieldsMissingForType j.name)
    | some fs => match getFieldsForComplex fs true with
      | .error e => .error e
      | .ok m => .ok (.object m)
  else if j.kind = "ENUM" then
    match j.enumValues with
    | none => .error (.enumMissingValues j.name)
    | some vs => .ok (.enum vs)
  else if j.kind = "SCALAR" then .ok (.scalar j.name)
  else if j.kind = "INTERFACE" then
    match j.fields with
    | none => .error (.fieldsMissingForType j.name)
    | some fs => match j.possibleTypes with
      | none => .error (.interfaceMissingTypes j.name)
      | some ps => match getFieldsForComplex fs true with
        | .error e => .error e
        | .ok m => .ok (.interface j.name m ps)
  else if j.kind = "INPUT_OBJECT" then
    match j.inputFields with
    | none => .error (.fieldsMissingForType j.name)
    | some fs => match getFieldsForComplex fs false with
      | .error e => .error e
      | .ok m => .ok (.inputObject j.name m)
  else if j.kind = "UNION" then
    match j.possibleTypes with
    | none => .error (.unionMissingTypes j.name)
    | some ps => .ok (.union j.name ps [("__typename", SField.newTypeName)])
  else .error (.unknownType j.name j.kind)

/-- schema.rs:110-179 `TryFrom<json::Type> for Type`. -/
def SType.ofJson (j : JType) : Except SchemaError SType :=
  match TypeDef.ofJson j with
  | .error e => .error e
  | .ok d => .ok ⟨j.description, d⟩

/-- schema.rs:181-183 `Schema`. -/
abbrev Schema := AMap String SType

/-- schema.rs:189-191: the insertion loop of `try_from_reader`. -/
def insertJsonTypes (m : Schema) : List JType → Except SchemaError Schema
  | [] => .ok m
  | j :: rest =>
    match SType.ofJson j with
    | .error e => .error e
    | .ok t => insertJsonTypes (AMap.insert m j.name t) rest

/-- schema.rs:186-193 `Schema::try_from_reader` after JSON decoding. -/
def Schema.ofJson (j : JSchema) : Except SchemaError Schema := insertJsonTypes [] j.types

/-- schema.rs:195-197 `get_type_for_name`. -/
def Schema.getType (s : Schema) (name : String) : Option SType := AMap.get? s name

/-- schema.rs:204-237 `parse_schema`: the text of the single message (schema.rs:200-202 adds the
prefix).  The I/O error and JSON parse branches are modelled in `Main`. -/
def SchemaError.reason : SchemaError → String
  | .missingTypeOfForNonNull | .missingTypeOfForList => "missing type of information on field"
  | .missingNameForField => "missing name on field"
  | .unknownType name kind => "unknown type defintion `" ++ kind ++ "` on field `" ++ name ++ "`"
  | .fieldsMissingForType name => "complex type `" ++ name ++ "` is missing fields"
  | .enumMissingValues name => "enum `" ++ name ++ "` is missing variants"
  | .interfaceMissingTypes name => "interface `" ++ name ++ "` has no implementations"
  | .unionMissingTypes name => "union `" ++ name ++ "` has no implementations"

end Qlc
