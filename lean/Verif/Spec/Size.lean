import Verif.Spec.Graphql
import Verif.Spec.Demo
/-
How large a document is (C115).
-/
set_option autoImplicit false

namespace Qlc.Spec

mutual
/-- The number of selections written in a selection, itself included. -/
def selectionSize : Selection → Nat
  | .field _ _ _ _ _ items => 1 + selectionsSize items
  | .inline _ _ _ items => 1 + selectionsSize items
  | .spread _ _ _ => 1
/-- The number of selections written in a selection set. -/
def selectionsSize : List Selection → Nat
  | [] => 0
  | s :: rest => selectionSize s + selectionsSize rest
end

end Qlc.Spec

namespace Qlc.Demo

/-- Introspection data with an interface of two object types, each with a field of its own, and a field that
leads to the interface again. -/
def bigJson : JSchema := ⟨[
  ⟨"OBJECT", "Query", none, none, none, some [fld "node" (t "INTERFACE" "I")], none⟩,
  ⟨"INTERFACE", "I", none, some ["A", "B"], none, some [fld "next" (t "INTERFACE" "I")], none⟩,
  ⟨"OBJECT", "A", none, none, none, some [fld "x" (t "SCALAR" "ID"), fld "next" (t "INTERFACE" "I")], none⟩,
  ⟨"OBJECT", "B", none, none, none, some [fld "y" (t "SCALAR" "ID"), fld "next" (t "INTERFACE" "I")], none⟩,
  ⟨"SCALAR", "ID", none, none, none, none, none⟩]⟩

/-- The schema loaded from it. -/
def bigSchema : Schema := match Schema.ofJson bigJson with | .ok s => s | .error _ => []

/-- `... on A { x } ... on B { y }`, and below `next` the same again, `n` times. -/
def bigNest : Nat → List Selection
  | 0 => [.inline ⟨2, 1⟩ (some "A") [] [leaf 2 9 "x"], .inline ⟨3, 1⟩ (some "B") [] [leaf 3 9 "y"]]
  | n + 1 => [.inline ⟨2, 1⟩ (some "A") [] [leaf 2 9 "x"], .inline ⟨3, 1⟩ (some "B") [] [leaf 3 9 "y"],
      .field ⟨4, 1⟩ none "next" [] [] (bigNest n)]

/-- `query Q { node { … } }`. -/
def bigQuery (n : Nat) : Definition := .operation .query ⟨1, 1⟩ (some "Q") [] [] [
  .field ⟨1, 11⟩ none "node" [] [] (bigNest n)]

end Qlc.Demo
