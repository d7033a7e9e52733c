import Mathlib.Data.List.Forall2
import Verif.Model.Json
/-
Independent specification of how the introspection document and the configuration file are read: by
key, whatever the order of the members and whatever else is there.
-/
set_option autoImplicit false

namespace Qlc.Spec

/-- The values a list of object members has under a key, in document order. -/
def values (k : String) (ms : List (String × Json)) : List Json :=
  (ms.filter (fun m => decide (m.1 = k))).map Prod.snd

/-- A JSON tree has these values for these keys: it is an object with at most one member for each of
them, or an array with one element for each of them, in order. -/
inductive Has (known : List String) : Json → (String → Option Json) → Prop where
  | byKey (ms : List (String × Json)) (val : String → Option Json) :
      (∀ k ∈ known, values k ms = (val k).toList) → Has known (.obj ms) val
  | byPosition (xs : List Json) (val : String → Option Json) :
      known.map val = xs.map some → Has known (.arr xs) val

/-- An optional value may be missing or `null`. -/
inductive OrNull {α : Type} (R : Json → α → Prop) : Option Json → Option α → Prop where
  | missing : OrNull R none none
  | null : OrNull R (some .null) none
  | value (j : Json) (a : α) : j ≠ .null → R j a → OrNull R (some j) (some a)

/-- A JSON string. -/
def IsStr (j : Json) (s : String) : Prop := j = .str s
/-- A JSON boolean. -/
def IsBool (j : Json) (b : Bool) : Prop := j = .bool b
/-- A JSON number that fits a 64 bit machine word. -/
def IsUsize (j : Json) (n : Nat) : Prop := j = .nat n ∧ n < 2 ^ 64
/-- A JSON array, element by element. -/
def IsList {α : Type} (R : Json → α → Prop) (j : Json) (l : List α) : Prop :=
  ∃ js, j = .arr js ∧ List.Forall₂ R js l

/-- A type reference. -/
inductive ReadsRef : Json → JFieldType → Prop where
  | last (j : Json) (val : String → Option Json) (k : String) (n : Option String) :
      Has ["kind", "name", "ofType"] j val → val "kind" = some (.str k) →
      OrNull IsStr (val "name") n → val "ofType" = none ∨ val "ofType" = some .null →
      ReadsRef j (.mk k n none)
  | wrapper (j : Json) (val : String → Option Json) (k : String) (n : Option String) (o : Json)
      (t : JFieldType) :
      Has ["kind", "name", "ofType"] j val → val "kind" = some (.str k) →
      OrNull IsStr (val "name") n → val "ofType" = some o → ReadsRef o t →
      ReadsRef j (.mk k n (some t))

/-- A field or input field. -/
def ReadsField (j : Json) (f : JField) : Prop :=
  ∃ val, Has ["name", "description", "type", "isDeprecated"] j val ∧
    val "name" = some (.str f.name) ∧ OrNull IsStr (val "description") f.description ∧
    (∃ t, val "type" = some t ∧ ReadsRef t f.typeInformation) ∧
    OrNull IsBool (val "isDeprecated") f.deprecated

/-- A possible type or an enum value: only its name counts. -/
def ReadsName (j : Json) (n : String) : Prop :=
  ∃ val, Has ["name"] j val ∧ val "name" = some (.str n)

/-- A listed type. -/
def ReadsType (j : Json) (t : JType) : Prop :=
  ∃ val, Has ["kind", "name", "description", "possibleTypes", "inputFields", "fields",
      "enumValues"] j val ∧
    val "kind" = some (.str t.kind) ∧ val "name" = some (.str t.name) ∧
    OrNull IsStr (val "description") t.description ∧
    OrNull (IsList ReadsName) (val "possibleTypes") t.possibleTypes ∧
    OrNull (IsList ReadsField) (val "inputFields") t.inputFields ∧
    OrNull (IsList ReadsField) (val "fields") t.fields ∧
    OrNull (IsList ReadsName) (val "enumValues") t.enumValues

/-- A whole introspection document: `{ "data": { "__schema": { "types": [ … ] } } }`. -/
def ReadsIntrospection (j : Json) (s : JSchema) : Prop :=
  ∃ v1 v2 v3 d sc ts, Has ["data"] j v1 ∧ v1 "data" = some d ∧
    Has ["__schema"] d v2 ∧ v2 "__schema" = some sc ∧
    Has ["types"] sc v3 ∧ v3 "types" = some ts ∧ IsList ReadsType ts s.types

/-- A configuration file. -/
def ReadsConfig (j : Json) (c : ConfigFile) : Prop :=
  ∃ val, Has ["schemaFile", "useCustomScalars", "disableReadonlyTypes", "customScalarPrefix",
      "numThreads", "showDeprecationWarnings", "rootDirImportPrefix", "globalTypesModuleName",
      "typedGraphqlDocumentnodeModuleName"] j val ∧
    OrNull (fun j p => ∃ s, j = .str s ∧ p = Path.ofString s) (val "schemaFile") c.schemaPath ∧
    OrNull IsBool (val "useCustomScalars") c.useCustomScalars ∧
    OrNull IsBool (val "disableReadonlyTypes") c.disableReadonlyTypes ∧
    OrNull IsStr (val "customScalarPrefix") c.customScalarPrefix ∧
    OrNull IsUsize (val "numThreads") c.numThreads ∧
    OrNull IsBool (val "showDeprecationWarnings") c.showDeprecationWarnings ∧
    OrNull IsStr (val "rootDirImportPrefix") c.rootDirImportPrefix ∧
    OrNull IsStr (val "globalTypesModuleName") c.globalTypesModuleName ∧
    OrNull IsStr (val "typedGraphqlDocumentnodeModuleName") c.typedGraphqlDocumentnodeModuleName

/-- Two JSON trees that only differ in object members with keys outside `K` and in the order of the
members of objects. -/
inductive SameFor (K : List String) : Json → Json → Prop where
  | refl (j : Json) : SameFor K j j
  | arr (xs ys : List Json) : List.Forall₂ (SameFor K) xs ys → SameFor K (.arr xs) (.arr ys)
  | obj (ms ns : List (String × Json)) :
      (∀ k ∈ K, List.Forall₂ (SameFor K) (values k ms) (values k ns)) →
      SameFor K (.obj ms) (.obj ns)

/-- The keys of an introspection document that qlc reads. -/
def introspectionKeys : List String :=
  ["data", "__schema", "types", "kind", "name", "description", "possibleTypes", "inputFields",
    "fields", "enumValues", "type", "isDeprecated", "ofType"]

/-- The keys of a configuration file that qlc reads. -/
def configKeys : List String :=
  ["schemaFile", "useCustomScalars", "disableReadonlyTypes", "customScalarPrefix", "numThreads",
    "showDeprecationWarnings", "rootDirImportPrefix", "globalTypesModuleName",
    "typedGraphqlDocumentnodeModuleName"]

/-- Two JSON files that are both missing, unreadable or malformed in the same way, or contain trees that
only differ in what does not matter. -/
inductive SameFile (K : List String) : JsonFile → JsonFile → Prop where
  | refl (f : JsonFile) : SameFile K f f
  | tree (a b : Json) (e : String) : SameFor K a b → SameFile K (.tree a e) (.tree b e)

end Qlc.Spec
