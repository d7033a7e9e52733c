import Verif.Model.Basic
/-
Doc comments: what the comment for a description is, and when it is closed too early.
-/
set_option autoImplicit false

namespace Qlc.Spec

/-- A line of a description as it is printed: `/*` removed, then `*/` removed. -/
def cleanLine (l : List Char) : List Char := remove2 '*' '/' (remove2 '/' '*' l)

/-- The lines of a description as they are printed. -/
def docLines : Option String → List (List Char)
  | none => []
  | some d => (splitNl d.toList).map cleanLine

/-- One line of a comment at the given indentation. -/
def commentLine (indent : Nat) (l : List Char) : List Char :=
  '\n' :: ' ' :: (List.replicate indent ' ' ++ '*' :: ' ' :: l)

/-- The comment with the given lines, before its closing `*/`. -/
def commentOpen (indent : Nat) (ls : List (List Char)) : List Char :=
  '/' :: '*' :: '*' :: (ls.flatMap (commentLine indent) ++ '\n' :: ' ' :: List.replicate indent ' ')

/-- The comment with the given lines; nothing if there are none. -/
def comment (indent : Nat) (ls : List (List Char)) : List Char :=
  if ls = [] then [] else
    commentOpen indent ls ++ '*' :: '/' :: '\n' :: List.replicate indent ' '

/-- The comment terminator occurs in the text. -/
def Closes (cs : List Char) : Prop := ∃ pre post, cs = pre ++ '*' :: '/' :: post

/-- `k` times `*/`. -/
def closers : Nat → List Char
  | 0 => []
  | k + 1 => '*' :: '/' :: closers k

/-- With `/*` removed, the line has a `*`, then one or more `*/`, then a `/`: taking out the `*/` leaves
a new one. -/
def BreaksOut (line : List Char) : Prop :=
  ∃ pre k post, remove2 '/' '*' line = pre ++ '*' :: (closers (k + 1) ++ '/' :: post)

end Qlc.Spec
