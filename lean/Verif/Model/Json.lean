import Verif.Model.Main
/-
Model of the `#[derive(Deserialize)]` structs of src/graphql/schema/json.rs and src/cli.rs:334-354 on
JSON trees.  Turning text into a tree is modelled in Model/JsonText.lean; the wording of errors is not
modelled: `none` means that decoding fails.  A derived struct is read from an object by key (unknown keys are skipped, a repeated known key is an error, a missing key is an error unless the field is an
`Option`) or from an array by position (which must have exactly one element per field).
-/
set_option autoImplicit false

namespace Qlc

/-- A JSON tree.  Object members are kept in document order, repeated keys included. -/
inductive Json where
  | null
  | bool (b : Bool)
  /-- A number written as a non-negative integer. -/
  | nat (n : Nat)
  /-- Any other number. -/
  | num (text : String)
  | str (s : String)
  | arr (items : List Json)
  | obj (members : List (String × Json))

/-- `String` and `PathBuf` are read from JSON strings only. -/
def Json.asStr : Json → Option String
  | .str s => some s
  | _ => none

/-- `bool`. -/
def Json.asBool : Json → Option Bool
  | .bool b => some b
  | _ => none

/-- `usize` on a 64 bit machine. -/
def Json.asUsize : Json → Option Nat
  | .nat n => if n < 2 ^ 64 then some n else none
  | _ => none

/-- `Option<T>`: `null` is `None`. -/
def Json.asOption {α : Type} (f : Json → Option α) : Json → Option (Option α)
  | .null => some none
  | j => (f j).map some

/-- All elements must decode. -/
def allSome {α β : Type} (f : α → Option β) : List α → Option (List β)
  | [] => some []
  | x :: xs =>
    match f x with
    | none => none
    | some y =>
      match allSome f xs with
      | none => none
      | some ys => some (y :: ys)

/-- `Vec<T>`. -/
def Json.asVec {α : Type} (f : Json → Option α) : Json → Option (List α)
  | .arr xs => allSome f xs
  | _ => none

/-- The derived `visit_map`: the members with known keys; a repeated one is an error. -/
def structMembers (known : List String) : List (String × Json) → AMap String Json →
    Option (AMap String Json)
  | [], m => some m
  | (k, v) :: rest, m =>
    if k ∈ known then
      match AMap.get? m k with
      | some _ => none
      | none => structMembers known rest (AMap.insert m k v)
    else structMembers known rest m

/-- A derived struct with the given keys (in declaration order): the raw value of each field. -/
def Json.asStruct (known : List String) : Json → Option (AMap String Json)
  | .obj ms => structMembers known ms []
  | .arr xs => if xs.length = known.length then some (known.zip xs) else none
  | _ => none

/-- A field that is not an `Option`. -/
def needed {α : Type} (f : Json → Option α) : Option Json → Option α
  | none => none
  | some j => f j

/-- A field that is an `Option`. -/
def optional {α : Type} (f : Json → Option α) : Option Json → Option (Option α)
  | none => some none
  | some j => j.asOption f

mutual
/-- json.rs:5-11 `FieldType`: kind, name, ofType. -/
def decodeFieldType : Json → Option JFieldType
  | .obj ms => decodeFieldTypeMembers none none none ms
  | .arr [k, n, .null] =>
    match k.asStr, n.asOption Json.asStr with
    | some k, some n => some (.mk k n none)
    | _, _ => none
  | .arr [k, n, o] =>
    match k.asStr, n.asOption Json.asStr, decodeFieldType o with
    | some k, some n, some o => some (.mk k n (some o))
    | _, _, _ => none
  | _ => none
/-- json.rs:5-11: the derived `visit_map`; the arguments are the fields read so far. -/
def decodeFieldTypeMembers (kind : Option String) (name : Option (Option String))
    (ofType : Option (Option JFieldType)) : List (String × Json) → Option JFieldType
  | [] =>
    match kind with
    | none => none
    | some k => some (.mk k (name.getD none) (ofType.getD none))
  | (key, v) :: rest =>
    if key = "kind" then
      match kind, v.asStr with
      | none, some s => decodeFieldTypeMembers (some s) name ofType rest
      | _, _ => none
    else if key = "name" then
      match name, v.asOption Json.asStr with
      | none, some o => decodeFieldTypeMembers kind (some o) ofType rest
      | _, _ => none
    else if key = "ofType" then
      match ofType with
      | some _ => none
      | none =>
        match v with
        | .null => decodeFieldTypeMembers kind name (some none) rest
        | v =>
          match decodeFieldType v with
          | none => none
          | some t => decodeFieldTypeMembers kind name (some (some t)) rest
    else decodeFieldTypeMembers kind name ofType rest
end

/-- json.rs:13-21 `Field`. -/
def decodeField (j : Json) : Option JField :=
  match j.asStruct ["name", "description", "type", "isDeprecated"] with
  | none => none
  | some m =>
    match needed Json.asStr (AMap.get? m "name"), optional Json.asStr (AMap.get? m "description"),
      needed decodeFieldType (AMap.get? m "type"), optional Json.asBool (AMap.get? m "isDeprecated")
    with
    | some n, some d, some t, some b => some ⟨n, d, t, b⟩
    | _, _, _, _ => none

/-- json.rs:23-26 `ComplexObjectDescription`, which is just its name. -/
def decodeDescription (j : Json) : Option String :=
  match j.asStruct ["name"] with
  | none => none
  | some m => needed Json.asStr (AMap.get? m "name")

/-- json.rs:28-40 `Type`. -/
def decodeType (j : Json) : Option JType :=
  match j.asStruct ["kind", "name", "description", "possibleTypes", "inputFields", "fields",
      "enumValues"] with
  | none => none
  | some m =>
    match needed Json.asStr (AMap.get? m "kind"), needed Json.asStr (AMap.get? m "name"),
      optional Json.asStr (AMap.get? m "description"),
      optional (Json.asVec decodeDescription) (AMap.get? m "possibleTypes"),
      optional (Json.asVec decodeField) (AMap.get? m "inputFields"),
      optional (Json.asVec decodeField) (AMap.get? m "fields"),
      optional (Json.asVec decodeDescription) (AMap.get? m "enumValues") with
    | some k, some n, some d, some ps, some is, some fs, some es => some ⟨k, n, d, ps, is, fs, es⟩
    | _, _, _, _, _, _, _ => none

/-- json.rs:42-45 `Schema`. -/
def decodeSchema (j : Json) : Option JSchema :=
  match j.asStruct ["types"] with
  | none => none
  | some m => (needed (Json.asVec decodeType) (AMap.get? m "types")).map JSchema.mk

/-- json.rs:47-63 `Schema::try_from_reader` with `RawSchema` and `Data`. -/
def decodeIntrospection (j : Json) : Option JSchema :=
  match j.asStruct ["data"] with
  | none => none
  | some m =>
    match AMap.get? m "data" with
    | none => none
    | some d =>
      match d.asStruct ["__schema"] with
      | none => none
      | some m' => needed decodeSchema (AMap.get? m' "__schema")

/-- cli.rs:334-354 `ConfigFileMatches`. -/
def decodeConfig (j : Json) : Option ConfigFile :=
  match j.asStruct ["schemaFile", "useCustomScalars", "disableReadonlyTypes", "customScalarPrefix",
      "numThreads", "showDeprecationWarnings", "rootDirImportPrefix", "globalTypesModuleName",
      "typedGraphqlDocumentnodeModuleName"] with
  | none => none
  | some m =>
    match optional Json.asStr (AMap.get? m "schemaFile"),
      optional Json.asBool (AMap.get? m "useCustomScalars"),
      optional Json.asBool (AMap.get? m "disableReadonlyTypes"),
      optional Json.asStr (AMap.get? m "customScalarPrefix"),
      optional Json.asUsize (AMap.get? m "numThreads"),
      optional Json.asBool (AMap.get? m "showDeprecationWarnings"),
      optional Json.asStr (AMap.get? m "rootDirImportPrefix"),
      optional Json.asStr (AMap.get? m "globalTypesModuleName"),
      optional Json.asStr (AMap.get? m "typedGraphqlDocumentnodeModuleName") with
    | some sp, some u, some d, some p, some t, some w, some r, some g, some n =>
      some { schemaPath := sp.map Path.ofString, useCustomScalars := u, disableReadonlyTypes := d
             customScalarPrefix := p, numThreads := t, showDeprecationWarnings := w
             rootDirImportPrefix := r, globalTypesModuleName := g
             typedGraphqlDocumentnodeModuleName := n }
    | _, _, _, _, _, _, _, _, _ => none

/-- What opening a JSON file and reading it as a tree yields.  `shapeError` is what serde would say if
the tree does not have the expected shape. -/
inductive JsonFile where
  | notFound (err : String)
  | ioError (err : String)
  | syntaxError (err : String)
  | tree (j : Json) (shapeError : String)

/-- schema.rs:204-237, json.rs:47-52: opening and decoding the schema file. -/
def JsonFile.asSchema : JsonFile → SchemaRead
  | .notFound e => .ioError e
  | .ioError e => .ioError e
  | .syntaxError e => .serdeError e
  | .tree j e => match decodeIntrospection j with
    | none => .serdeError e
    | some s => .parsed s

/-- cli.rs:357-391: opening and decoding the configuration file. -/
def JsonFile.asConfig : JsonFile → ConfigRead
  | .notFound e => .notFound e
  | .ioError e => .ioError e
  | .syntaxError e => .serdeError e
  | .tree j e => match decodeConfig j with
    | none => .serdeError e
    | some c => .parsed c

end Qlc
