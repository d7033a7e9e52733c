import Verif.Model.Args
import Mathlib.Data.List.Forall2
/-
What colours may do to a text that is printed (C135).
-/
set_option autoImplicit false

namespace Qlc.Spec

/-- The character that begins an escape sequence. -/
def escChar : Char := Char.ofNat 27

/-- A sequence that selects colours and styles: `ESC [`, numbers and semicolons, `m`.  Terminals show nothing for it. -/
def StyleSequence (cs : List Char) : Prop :=
  ∃ ps, cs = escChar :: '[' :: (ps ++ ['m']) ∧ ∀ c ∈ ps, c ∈ "0123456789;".toList

/-- The second text is the first one with such sequences put in. -/
inductive Coloured : List Char → List Char → Prop where
  | nil : Coloured [] []
  | char {a b : List Char} (c : Char) : Coloured a b → Coloured (c :: a) (c :: b)
  | style {a b e : List Char} : StyleSequence e → Coloured a b → Coloured a (e ++ b)

/-- The same for strings. -/
def ColouredText (a b : String) : Prop := Coloured a.toList b.toList

/-- Painting a text, coloured already or not, only puts in such sequences. -/
def Decorates (p : Paint) : Prop := ∀ style s t, ColouredText s t → ColouredText s (p style t)

/-- Two ends of the program differ in the colours of what is printed, and in nothing else. -/
structure SameButColour (plain coloured : Finished) : Prop where
  world : coloured.world = plain.world
  code : coloured.exit.code = plain.exit.code
  printed : List.Forall₂ ColouredText plain.exit.printed coloured.exit.printed

end Qlc.Spec
