import Verif.Spec.Exact
/-
Specification of C109: what it means that a file and a globals file were generated from a document and a schema.
-/
set_option autoImplicit false

namespace Qlc.Spec

/-- `file` and `globals` are what the program generates, with the settings `cfg`, for the document `d` with the
imported fragments `frags` and the schema in the introspection data `doc`: the document and the schema are fit
(C89), exactly so (C92), and the globals contain what the file imports, and perhaps more for other files. -/
structure Produces (cfg : TsConfig) (scalars env : String → JVal → Prop) (doc : JSchema) (frags : Frags)
    (d : Definition) (applies : List Directive → Prop) (P : String) (file globals : String) : Prop where
  schemaFit : SchemaFit cfg doc
  scalarEnv : ScalarEnv cfg doc scalars env
  made : ∃ (ω ω' : Hash) (fuel fuel' : Nat) (showDep : Bool) (schema : Schema) (op : Operation)
      (ws : List Warning) (c : Compile) (used : List String),
    Schema.ofJson doc = .ok schema ∧ FragsValid schema frags ∧
    Operation.compile ω fuel ⟨schema, showDep, frags⟩ d = some (.ok op, ws) ∧
    DocumentFit cfg doc schema frags d applies P ∧
    ExactFit cfg doc schema frags d P scalars env ∧
    compileIr ω op cfg schema = .ok c ∧ c.contents = file ∧
    (∀ n ∈ c.globalTypesUsed, n ∈ used) ∧
    compileGlobals ω' fuel' cfg schema used = some (.ok globals)

/-- `v` is the data of a possible answer to the document `d`. -/
def MayAnswer (doc : JSchema) (frags : Frags) (applies : List Directive → Prop)
    (scalars : String → JVal → Prop) (P : String) (d : Definition) (v : JVal) : Prop :=
  ∃ T ∈ objectTypes doc P, ∀ n, AnswersTo doc frags applies scalars n T [itemsOf d] v

end Qlc.Spec
