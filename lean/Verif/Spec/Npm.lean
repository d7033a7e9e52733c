import Verif.Spec.Schema
import Verif.Model.Npm
/-
Independent specification for the npm package: what an installation promises, and how a GraphQL server
answers an introspection query.
-/
set_option autoImplicit false

namespace Qlc.Spec

/-- No other program writes the tarball. -/
def Undisturbed (es : List InstallEvent) : Prop := ∀ e ∈ es, ∀ b, e ≠ .meddle b

/-- qlc is installed: `tar` unpacked one tarball and the program was made executable. -/
def Installed (s : Install) : Prop := s.executable = true ∧ ∃ b, s.unpacked = [b]

/-- The exit status of the process. -/
def exitStatus (s : Install) : Option Nat :=
  match s.pc with
  | .exited c => some c
  | .drained => some 0
  | _ => none

/-! ### A server that can be asked about its schema -/

/-- A type as a field refers to it. -/
inductive SrvRef where
  | named (kind name : String)
  | list (inner : SrvRef)
  | nonNull (inner : SrvRef)
  deriving DecidableEq, Repr

/-- The number of list and non-null wrappers around the named type. -/
def SrvRef.wrappers : SrvRef → Nat
  | .named _ _ => 0
  | .list r => r.wrappers + 1
  | .nonNull r => r.wrappers + 1

/-- An argument or a field of an input object. -/
structure SrvInput where
  name : String
  description : Option String
  type : SrvRef
  default : Option String

/-- A field. -/
structure SrvField where
  name : String
  description : Option String
  args : List SrvInput
  type : SrvRef
  deprecated : Bool

/-- A value of an enum. -/
structure SrvEnumValue where
  name : String
  description : Option String
  deprecated : Bool

/-- A type.  What does not apply to its kind is `none`. -/
structure SrvType where
  kind : String
  name : String
  description : Option String
  fields : Option (List SrvField)
  inputFields : Option (List SrvInput)
  /-- Names of interfaces. -/
  interfaces : Option (List String)
  enumValues : Option (List SrvEnumValue)
  /-- Names of object types. -/
  possibleTypes : Option (List String)

/-- A schema; the operation types are names of object types. -/
structure Server where
  queryType : String
  mutationType : Option String
  subscriptionType : Option String
  types : List SrvType

/-- The objects of the introspection system. -/
inductive Node where
  | root (s : Server)
  | schema (s : Server)
  | type (t : SrvType)
  | ref (r : SrvRef)
  | field (f : SrvField)
  | input (i : SrvInput)
  | enumValue (v : SrvEnumValue)

/-- What a field of an introspection object is. -/
inductive Found where
  | leaf (j : Json)
  | null
  | one (n : Node)
  | many (ns : List Node)

def strOrNull : Option String → Json
  | none => .null
  | some s => .str s

def manyOrNull {α : Type} (f : α → Node) : Option (List α) → Found
  | none => .null
  | some l => .many (l.map f)

/-- GraphQL's introspection system (specification, section "Schema Introspection"), as far as the query
goes.  `none`: there is no such field.  The flag is the argument `includeDeprecated`, false unless given. -/
def Node.get (withDeprecated : Bool) : Node → String → Option Found
  | .root s, "__schema" => some (.one (.schema s))
  | .schema s, "queryType" => some (.one (.ref (.named "OBJECT" s.queryType)))
  | .schema s, "mutationType" => some (match s.mutationType with
      | none => .null
      | some t => .one (.ref (.named "OBJECT" t)))
  | .schema s, "subscriptionType" => some (match s.subscriptionType with
      | none => .null
      | some t => .one (.ref (.named "OBJECT" t)))
  | .schema s, "types" => some (.many (s.types.map .type))
  | .type t, "kind" => some (.leaf (.str t.kind))
  | .type t, "name" => some (.leaf (.str t.name))
  | .type t, "description" => some (.leaf (strOrNull t.description))
  | .type t, "fields" => some (manyOrNull .field
      (t.fields.map (fun l => l.filter (fun f => withDeprecated || !f.deprecated))))
  | .type t, "inputFields" => some (manyOrNull .input t.inputFields)
  | .type t, "interfaces" => some (manyOrNull (fun n => .ref (.named "INTERFACE" n)) t.interfaces)
  | .type t, "enumValues" => some (manyOrNull .enumValue
      (t.enumValues.map (fun l => l.filter (fun v => withDeprecated || !v.deprecated))))
  | .type t, "possibleTypes" => some (manyOrNull (fun n => .ref (.named "OBJECT" n)) t.possibleTypes)
  | .ref (.named k _), "kind" => some (.leaf (.str k))
  | .ref (.named _ n), "name" => some (.leaf (.str n))
  | .ref (.named _ _), "ofType" => some .null
  | .ref (.list _), "kind" => some (.leaf (.str "LIST"))
  | .ref (.list _), "name" => some (.leaf .null)
  | .ref (.list r), "ofType" => some (.one (.ref r))
  | .ref (.nonNull _), "kind" => some (.leaf (.str "NON_NULL"))
  | .ref (.nonNull _), "name" => some (.leaf .null)
  | .ref (.nonNull r), "ofType" => some (.one (.ref r))
  | .field f, "name" => some (.leaf (.str f.name))
  | .field f, "description" => some (.leaf (strOrNull f.description))
  | .field f, "args" => some (.many (f.args.map .input))
  | .field f, "type" => some (.one (.ref f.type))
  | .field f, "isDeprecated" => some (.leaf (.bool f.deprecated))
  | .input i, "name" => some (.leaf (.str i.name))
  | .input i, "description" => some (.leaf (strOrNull i.description))
  | .input i, "type" => some (.one (.ref i.type))
  | .input i, "defaultValue" => some (.leaf (strOrNull i.default))
  | .enumValue v, "name" => some (.leaf (.str v.name))
  | .enumValue v, "description" => some (.leaf (strOrNull v.description))
  | .enumValue v, "isDeprecated" => some (.leaf (.bool v.deprecated))
  | _, _ => none

/-- GraphQL's ExecuteSelectionSet and CompleteValue: one member per selected field, in order.  (The
query selects no field twice.)  A field that does not exist has no answer. -/
def answers : List Ask → Node → List (String × Json)
  | [], _ => []
  | .mk field withDeprecated items :: rest, n =>
    (match n.get withDeprecated field with
      | none => []
      | some (.leaf j) => [(field, j)]
      | some .null => [(field, .null)]
      | some (.one m) => [(field, .obj (answers items m))]
      | some (.many ms) => [(field, .arr (ms.map (fun m => .obj (answers items m))))]) ++
      answers rest n

/-- The body of the server's answer to a query. -/
def Server.answer (s : Server) (query : List Ask) : Json :=
  .obj [("data", .obj (answers query (.root s)))]

/-! ### What the server says about itself, as an introspection document -/

/-- A type reference. -/
def SrvRef.document : SrvRef → JFieldType
  | .named k n => .mk k (some n) none
  | .list r => .mk "LIST" none (some r.document)
  | .nonNull r => .mk "NON_NULL" none (some r.document)

/-- A type; `dep` says how deprecation of fields is reported. -/
def SrvType.document (dep : Bool → Option Bool) (t : SrvType) : JType :=
  { kind := t.kind, name := t.name, description := t.description
    possibleTypes := t.possibleTypes
    inputFields := t.inputFields.map (fun l => l.map (fun i =>
      ⟨i.name, i.description, i.type.document, none⟩))
    fields := t.fields.map (fun l => l.map (fun f =>
      ⟨f.name, f.description, f.type.document, dep f.deprecated⟩))
    enumValues := t.enumValues.map (fun l => l.map SrvEnumValue.name) }

/-- The whole document. -/
def Server.document (dep : Bool → Option Bool) (s : Server) : JSchema :=
  ⟨s.types.map (SrvType.document dep)⟩

/-- No type is wrapped more than seven times. -/
def Server.Shallow (s : Server) : Prop :=
  ∀ t ∈ s.types, (∀ fs, t.fields = some fs → ∀ f ∈ fs, f.type.wrappers ≤ 7) ∧
    (∀ is, t.inputFields = some is → ∀ i ∈ is, i.type.wrappers ≤ 7)

/-- The kind of the named type inside a reference. -/
def SrvRef.kind : SrvRef → String
  | .named k _ => k
  | .list r => r.kind
  | .nonNull r => r.kind

/-- A type as the introspection system promises it: it has what its kind has, and nothing else, and its
references end in types of known kinds. -/
structure SrvType.Legal (t : SrvType) : Prop where
  kind : NamedKind t.kind
  fields : t.fields.isSome = true ↔ t.kind = "OBJECT" ∨ t.kind = "INTERFACE"
  possibleTypes : t.possibleTypes.isSome = true ↔ t.kind = "INTERFACE" ∨ t.kind = "UNION"
  enumValues : t.enumValues.isSome = true ↔ t.kind = "ENUM"
  inputFields : t.inputFields.isSome = true ↔ t.kind = "INPUT_OBJECT"
  fieldKinds : ∀ fs, t.fields = some fs → ∀ f ∈ fs, NamedKind f.type.kind
  inputKinds : ∀ is, t.inputFields = some is → ∀ i ∈ is, NamedKind i.type.kind

/-- A server as the introspection system promises it. -/
def Server.Legal (s : Server) : Prop := ∀ t ∈ s.types, t.Legal

/-- How the releases call a processor that Node knows by this name. -/
def cpuName (arch : String) : Option String :=
  if arch = "x64" then some "x86_64" else if arch = "arm64" then some "aarch64" else none

/-- How the releases call a system that Node knows by this name. -/
def systemName (platform : String) : Option String :=
  if platform = "darwin" then some "apple-darwin"
  else if platform = "linux" then some "unknown-linux-musl" else none

end Qlc.Spec
