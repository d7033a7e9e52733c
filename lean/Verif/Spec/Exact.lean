import Verif.Spec.Alike
import Verif.Spec.EndToEnd
/-
When a generated type admits nothing but what a server may answer (C92).
-/
set_option autoImplicit false

namespace Qlc.Spec

/-- The implementations of an interface have its fields with the same types, not with narrower ones. -/
def NoNarrowing (doc : JSchema) : Prop :=
  ∀ P, ∀ T ∈ objectTypes doc P, ∀ name k t, fieldType doc P name = some (k, t) →
    fieldType doc T name = some (k, t)

/-- At every position and for every object type, `__typename` is asked for under one response key only. -/
def OneTypenameKey (schema : Schema) (frags : Frags) (P : String) (sets : List (List Selection)) : Prop :=
  ∀ P' sets', Position schema frags P sets P' sets' → ∀ T ∈ possibleTypes schema P', ∀ L,
    CollMany schema frags T P' sets' L → ∀ c ∈ L, ∀ c' ∈ L,
      c.field.name = "__typename" → c'.field.name = "__typename" → c.key = c'.key

/-- The printed name of a scalar admits nothing but its values, which null is not one of. -/
def TightScalars (cfg : TsConfig) (doc : JSchema) (scalars env : String → JVal → Prop) : Prop :=
  ∀ n v, kindNamed doc n = some "SCALAR" → env (scalarSpelling cfg n) v → LeafValue doc scalars "SCALAR" n v

/-- What has to hold besides C89's conditions for a document to have types that admit its responses only:
interfaces are implemented without narrowing, `__typename` is asked for once, the scalars are tight, and no
two generated types get the same name (C18). -/
structure ExactFit (cfg : TsConfig) (doc : JSchema) (schema : Schema) (frags : Frags) (d : Definition)
    (P : String) (scalars env : String → JVal → Prop) : Prop where
  noNarrowing : NoNarrowing doc
  oneTypename : OneTypenameKey schema frags P [itemsOf d]
  tight : TightScalars cfg doc scalars env
  plainTypes : ∀ P, ∀ T ∈ objectTypes doc P, Plain T
  plainKeys : ∀ k ∈ compositeKeys (itemsOf d), Plain k
  plainFragmentKeys : ∀ name fd, AMap.get? frags name = some fd → ∀ k ∈ compositeKeys fd.items, Plain k

end Qlc.Spec
