import Verif.Spec.Response
/-
Data at the places where a document spreads a fragment (C119).
-/
set_option autoImplicit false

namespace Qlc.Spec

/-- One JSON value is another with some properties left out, here or further inside. -/
inductive PartOf : JVal → JVal → Prop where
  | same (v : JVal) : PartOf v v
  | arr {xs ys : List JVal} : List.Forall₂ PartOf xs ys → PartOf (.arr xs) (.arr ys)
  | obj {fs gs : List (String × JVal)} (pick : List (String × JVal × JVal)) :
      fs = pick.map (fun t => (t.1, t.2.1)) → (∀ t ∈ pick, (t.1, t.2.2) ∈ gs) →
      (∀ t ∈ pick, PartOf t.2.1 t.2.2) → PartOf (.obj fs) (.obj gs)

/-- The object `y` is the value `x` itself, or an item of `x` at some depth of lists. -/
inductive ObjectIn (y : JVal) : JVal → Prop where
  | self {fs : List (String × JVal)} : y = .obj fs → ObjectIn y (.obj fs)
  | item {xs : List JVal} {x : JVal} : x ∈ xs → ObjectIn y x → ObjectIn y (.arr xs)

/-- The object `y` is found in `u` by following the response keys; lists are entered at each of their items. -/
inductive ObjectAt (y : JVal) : List String → JVal → Prop where
  | here : ObjectAt y [] y
  | under {key : String} {path : List String} {fs : List (String × JVal)} {x z : JVal} :
      (key, x) ∈ fs → ObjectIn z x → ObjectAt y path z → ObjectAt y (key :: path) (.obj fs)

/-- `SpreadAt P items F path`: the selection set `items`, evaluated on objects of type `P`, spreads the
fragment `F` at the end of the path of response keys, inside fragments that every object there fits. -/
inductive SpreadAt (doc : JSchema) (frags : Frags) (applies : List Directive → Prop) (F : FragmentDef) :
    String → List Selection → List String → Prop where
  | here {P : String} {items : List Selection} {pos : Pos} {name : String} {dirs : List Directive} :
      .spread pos name dirs ∈ items → applies dirs → AMap.get? frags name = some F →
      (∀ T ∈ objectTypes doc P, T ∈ objectTypes doc F.typeCond) → SpreadAt doc frags applies F P items []
  | field {P : String} {items : List Selection} {pos : Pos} {al : Option String} {name : String}
      {args : List (String × Value)} {dirs : List Directive} {sub : List Selection} {k : String} {t : VarTy}
      {path : List String} :
      .field pos al name args dirs sub ∈ items → applies dirs → fieldType doc P name = some (k, t) →
      CompositeKind k → SpreadAt doc frags applies F (baseName t) sub path →
      SpreadAt doc frags applies F P items (al.getD name :: path)
  | inline {P : String} {items : List Selection} {pos : Pos} {C : String} {dirs : List Directive}
      {sub : List Selection} {path : List String} :
      .inline pos (some C) dirs sub ∈ items → applies dirs →
      (∀ T ∈ objectTypes doc P, T ∈ objectTypes doc C) → SpreadAt doc frags applies F C sub path →
      SpreadAt doc frags applies F P items path
  | spread {P : String} {items : List Selection} {pos : Pos} {name : String} {dirs : List Directive}
      {fd : FragmentDef} {path : List String} :
      .spread pos name dirs ∈ items → applies dirs → AMap.get? frags name = some fd →
      (∀ T ∈ objectTypes doc P, T ∈ objectTypes doc fd.typeCond) →
      SpreadAt doc frags applies F fd.typeCond fd.items path →
      SpreadAt doc frags applies F P items path

/-- GraphQL's rule that selections with the same response key select the same field ("field selection
merging"), down to some depth. -/
def MergesWell (doc : JSchema) (frags : Frags) (applies : List Directive → Prop) :
    Nat → String → List (List Selection) → Prop
  | 0, _, _ => True
  | n + 1, T, sets => ∀ L, CollectMany doc frags applies T sets L → ∀ w ∈ L,
      (∀ w' ∈ L, w'.key = w.key → w'.name = w.name) ∧
      ∀ k t, fieldType doc T w.name = some (k, t) → ∀ T' ∈ objectTypes doc (baseName t),
        MergesWell doc frags applies n T'
          ((L.filter (fun w' => decide (w'.key = w.key))).map Wanted.items)

end Qlc.Spec
