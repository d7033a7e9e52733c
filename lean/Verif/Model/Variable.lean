import Verif.Model.Schema
import Verif.Model.Query
/-
Model of src/graphql/variable.rs.
-/
set_option autoImplicit false

namespace Qlc

/-- variable.rs:10-15 `Error`. -/
inductive VarError where
  | unknownCustomVariableType (name : String) (pos : Pos)
  | unprocessableVariableType (name : String) (pos : Pos)
  | listOfListNotSupported (name : String) (pos : Pos)
  deriving DecidableEq, Repr

/-- variable.rs:19-27 `VariableType`. -/
inductive VariableType where
  | id | string | float | int | boolean | custom (name : String)
  deriving DecidableEq, Repr

/-- variable.rs:29-50 `TryFrom<(&CompileContext, &str, Pos)> for VariableType`. -/
def VariableType.ofName (schema : Schema) (name : String) (pos : Pos) :
    Except VarError VariableType :=
  if name = "ID" then .ok .id
  else if name = "String" then .ok .string
  else if name = "Float" then .ok .float
  else if name = "Int" then .ok .int
  else if name = "Boolean" then .ok .boolean
  else match schema.getType name with
    | none => .error (.unknownCustomVariableType name pos)
    | some _ => .ok (.custom name)

/-- variable.rs:88-93 `Variable`. -/
structure Variable where
  propName : String
  modifier : Mod
  type : VariableType
  deriving DecidableEq, Repr

/-- variable.rs:115-176 `unwrap_var_def`. -/
def unwrapVarDef (d : VarDef) : Except VarError (Mod × String) :=
  match d.type with
  | .named n => .ok (.nullable, n)
  | .nonNull inner =>
    match inner with
    | .named n => .ok (.none, n)
    | .nonNull _ => .error (.unprocessableVariableType d.name d.pos)
    | .list inner2 =>
      match inner2 with
      | .named n => .ok (.listOfNullable, n)
      | .nonNull inner3 =>
        match inner3 with
        | .named n => .ok (.list, n)
        | _ => .error (.unprocessableVariableType d.name d.pos)
      | .list _ => .error (.listOfListNotSupported d.name d.pos)
  | .list inner =>
    match inner with
    | .list _ => .error (.listOfListNotSupported d.name d.pos)
    | .named n => .ok (.nullableListOfNullable, n)
    | .nonNull inner2 =>
      match inner2 with
      | .named n => .ok (.nullableList, n)
      | _ => .error (.unprocessableVariableType d.name d.pos)

/-- variable.rs:103-110: one definition. -/
def buildVariable (schema : Schema) (d : VarDef) : Except VarError Variable :=
  match unwrapVarDef d with
  | .error e => .error e
  | .ok (m, n) =>
    match VariableType.ofName schema n d.pos with
    | .error e => .error e
    | .ok t => .ok ⟨d.name, m, t⟩

/-- variable.rs:95-113 `try_build_variable_ir`. -/
def tryBuildVariableIr (schema : Schema) (defs : List VarDef) :
    Except VarError (Option (List Variable)) :=
  if defs.isEmpty then .ok none
  else match seqE (defs.map (buildVariable schema)) with
    | .error e => .error e
    | .ok vs => .ok (some vs)

end Qlc
