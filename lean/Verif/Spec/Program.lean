import Verif.Spec.Files
import Verif.Spec.Schema
import Verif.Spec.Globals
/-
Whole runs of the program: what is wrong with a schema file, and when everything is fine.
-/
set_option autoImplicit false

namespace Qlc.Spec

/-- A kind that wraps another type. -/
def WrapperKind (k : String) : Prop := k = "LIST" ∨ k = "NON_NULL"

/-- What is wrong with a type reference. -/
inductive RefFault : JFieldType → String → Prop where
  | noOfType (k : String) (nm : Option String) : WrapperKind k →
      RefFault (.mk k nm none) "missing type of information on field"
  | noName (k : String) (t : Option JFieldType) : ¬ WrapperKind k →
      RefFault (.mk k none t) "missing name on field"
  | unknownKind (k n : String) (t : Option JFieldType) : ¬ WrapperKind k → ¬ NamedKind k →
      RefFault (.mk k (some n) t) ("unknown type defintion `" ++ k ++ "` on field `" ++ n ++ "`")
  | inside (k : String) (nm : Option String) (j : JFieldType) (r : String) : WrapperKind k →
      RefFault j r → RefFault (.mk k nm (some j)) r

/-- The first faulty element of a list has the fault `r`; those before it are good. -/
def FirstFault {α : Type} (Good : α → Prop) (Fault : α → String → Prop) (l : List α) (r : String) : Prop :=
  ∃ pre x post, l = pre ++ x :: post ∧ (∀ y ∈ pre, Good y) ∧ Fault x r

/-- What is wrong with a listed type. -/
inductive TypeFault (t : JType) : String → Prop where
  | kind : ¬ NamedKind t.kind →
      TypeFault t ("unknown type defintion `" ++ t.kind ++ "` on field `" ++ t.name ++ "`")
  | noFields : t.kind = "OBJECT" ∨ t.kind = "INTERFACE" → t.fields = none →
      TypeFault t ("complex type `" ++ t.name ++ "` is missing fields")
  | noInputFields : t.kind = "INPUT_OBJECT" → t.inputFields = none →
      TypeFault t ("complex type `" ++ t.name ++ "` is missing fields")
  | noValues : t.kind = "ENUM" → t.enumValues = none →
      TypeFault t ("enum `" ++ t.name ++ "` is missing variants")
  | noMembers : t.kind = "UNION" → t.possibleTypes = none →
      TypeFault t ("union `" ++ t.name ++ "` has no implementations")
  | noImplementations : t.kind = "INTERFACE" → t.fields.isSome → t.possibleTypes = none →
      TypeFault t ("interface `" ++ t.name ++ "` has no implementations")
  | field (fs : List JField) (r : String) : ListsFields t fs →
      (t.kind = "INTERFACE" → t.possibleTypes.isSome) →
      FirstFault (fun f => RefOk f.typeInformation) (fun f => RefFault f.typeInformation) fs r →
      TypeFault t r

/-- The schema file at `path` cannot be used, and `m` says why. -/
inductive SchemaComplaint (path : Path) : SchemaRead → String → Prop where
  | unreadable (e : String) :
      SchemaComplaint path (.ioError e) ("could not read `" ++ path.display ++ "`: " ++ e)
  | notJson (e : String) :
      SchemaComplaint path (.serdeError e) ("malformed schema: JSON parse error: " ++ e)
  | faulty (j : JSchema) (r : String) : FirstFault TypeOk TypeFault j.types r →
      SchemaComplaint path (.parsed j) ("malformed schema: " ++ r)

/-- The schema file can be used. -/
def SchemaUsable : SchemaRead → Prop
  | .parsed j => ∀ t ∈ j.types, TypeOk t
  | _ => False

/-- Compiling `p` alone, before anything is written, reports this and uses these globals. -/
def CompilesWith (ω : Path → Hash) (fuel : Nat) (ext : Ext) (cfg : CompileConfig) (schema : Schema)
    (w : World) (p : Path) (msgs : List Msg) (globals : List String) : Prop :=
  ∃ r, compileFile (ω p) fuel ext cfg schema w p = some (.done r) ∧
    ((∃ rep, r.result = .ok rep ∧ msgs = rep.messages ∧ globals = rep.globalTypesUsed) ∨
      (r.result = .error msgs ∧ globals = []))

/-- `g` is a global that some file of the tree uses. -/
def UsedGlobal (ω : Path → Hash) (fuel : Nat) (ext : Ext) (cfg : CompileConfig) (schema : Schema)
    (w : World) (root : Entry) (g : String) : Prop :=
  ∃ p ms gs, FoundIn root p ∧ CompilesWith ω fuel ext cfg schema w p ms gs ∧ g ∈ gs

/-- Nothing is wrong: all directories can be listed, no file of the tree has an error, all globals are
valid, and the globals file, if there is one, can be written. -/
structure AllFine (ω : Path → Hash) (fuel : Nat) (ext : Ext) (cfg : CompileConfig) (schema : Schema)
    (w : World) (rootPath : Path) (root : Entry) : Prop where
  directories : dirErrors root = []
  files : ∀ p, FoundIn root p → ∃ ms gs, CompilesWith ω fuel ext cfg schema w p ms gs ∧
    ∀ m ∈ ms, m.level = .compileWarning
  globals : ∀ used : List String, (∀ g, g ∈ used ↔ UsedGlobal ω fuel ext cfg schema w root g) →
    ∀ n, GlobalName schema used n → ValidGlobal schema n
  written : (∃ g, UsedGlobal ω fuel ext cfg schema w root g) →
    w.writeErr (globalsId w cfg rootPath) = none

end Qlc.Spec
