import Verif.Spec.Diagnostics
import Verif.Spec.Graphql
import Verif.Spec.GraphqlText
/-
Where the parts of a document are written, and what a message marks (C132).
-/
set_option autoImplicit false

namespace Qlc.Spec

/-- Places are lines and columns: lines are counted by the newlines before them, columns by characters, both from 1.
`above` are the lines above, and `start` is what stands before `rest` on its line. -/
def CountsLines (place : List Char → List Char → Pos) (text : List Char) : Prop :=
  ∀ above start rest, text = above ++ (start ++ rest) → '\n' ∉ start → (above = [] ∨ ∃ a, above = a ++ ['\n']) →
    place text rest = ⟨above.count '\n' + 1, start.length + 1⟩

/-- The word that a selection begins with; for fragments, the one after the dots. -/
def opening : Selection → String
  | .field _ al name _ _ _ => al.getD name
  | .inline _ (some _) _ _ => "on"
  | .inline _ none dirs _ => if dirs = [] then "{" else "@"
  | .spread _ name _ => name

/-- Where a selection is said to stand. -/
def standsAt : Selection → Pos
  | .field pos _ _ _ _ _ => pos
  | .inline pos _ _ _ => pos
  | .spread pos _ _ => pos

/-- The word that a definition begins with. -/
def firstWord : Definition → String
  | .selectionSet _ _ => "{"
  | .operation .query _ _ _ _ _ => "query"
  | .operation .mutation _ _ _ _ _ => "mutation"
  | .operation .subscription _ _ _ _ _ => "subscription"
  | .fragment _ => "fragment"

/-- `Marked d pos word`: the part of `d` that is said to stand at `pos` begins with this word. -/
inductive Marked (d : Definition) : Pos → String → Prop where
  | selection {s : Selection} : WrittenIn (itemsOf d) s → Marked d (standsAt s) (opening s)
  | variable {v : VarDef} : v ∈ varsOf d → Marked d v.pos "$"
  | start : Marked d (startOf d) (firstWord d)

/-- The text quotes a line of the file, and has a caret on the line below it, under the first character of the word; the
caret is the only one there. -/
def CaretUnder (contents text word : String) : Prop :=
  ∃ before number quoted caret after i ls, text = joinWith "\n" (before ++ [toString number ++ " | " ++ quoted, caret] ++ after) ∧
    IsLines contents.toList ls ∧ 1 ≤ number ∧ ls[number - 1]? = some quoted.toList ∧
    (∀ j, caret.toList[j]? = some '^' ↔ j = i) ∧
    (toString number ++ " | ").length ≤ i ∧ word.toList <+: (toString number ++ " | " ++ quoted).toList.drop i

/-- The only mistakes about which a message marks nothing: type conditions that name no type, or an input type. -/
def NotMarked (schema : Schema) (s : Selection) : Prop :=
  ∃ pos C dirs items, s = .inline pos (some C) dirs items ∧
    (schema.getType C = none ∨ ∃ t m fl, schema.getType C = some t ∧ t.definition = .inputObject m fl)

end Qlc.Spec
