import Verif.Model.Basic
/-
Independent specification of text as a reader sees it: its lines, white space, and lines without
surrounding white space.
-/
set_option autoImplicit false

namespace Qlc.Spec

/-- A text and its lines.  Every line but the last ends with `\n` or with `\r\n`; what follows the last
line end is a line unless it is empty. -/
inductive IsLines : List Char → List (List Char) → Prop where
  | nil : IsLines [] []
  | last {l : List Char} : l ≠ [] → '\n' ∉ l → IsLines l [l]
  | lf {l rest : List Char} {ls : List (List Char)} : '\n' ∉ l → (∀ l', l ≠ l' ++ ['\r']) →
      IsLines rest ls → IsLines (l ++ '\n' :: rest) (l :: ls)
  | crlf {l rest : List Char} {ls : List (List Char)} : '\n' ∉ l → IsLines rest ls →
      IsLines (l ++ '\r' :: '\n' :: rest) (l :: ls)

/-- The code points with the Unicode property `White_Space`. -/
def whiteSpace : List Nat :=
  [0x9, 0xA, 0xB, 0xC, 0xD, 0x20, 0x85, 0xA0, 0x1680, 0x2000, 0x2001, 0x2002, 0x2003, 0x2004, 0x2005,
   0x2006, 0x2007, 0x2008, 0x2009, 0x200A, 0x2028, 0x2029, 0x202F, 0x205F, 0x3000]

/-- A white space character. -/
def IsSpace (c : Char) : Prop := c.toNat ∈ whiteSpace

/-- White space only. -/
def Blank (l : List Char) : Prop := ∀ c ∈ l, IsSpace c

/-- `t` is `l` without the white space around it. -/
def Trimmed (l t : List Char) : Prop :=
  (∃ a b, l = a ++ t ++ b ∧ Blank a ∧ Blank b) ∧
  (∀ c r, t = c :: r → ¬ IsSpace c) ∧ ∀ c r, t = r ++ [c] → ¬ IsSpace c

/-- The lines that are not blank, in order, each without the white space around it. -/
inductive Tidied : List (List Char) → List (List Char) → Prop where
  | nil : Tidied [] []
  | blank {l : List Char} {ls ts : List (List Char)} : Blank l → Tidied ls ts → Tidied (l :: ls) ts
  | line {l t : List Char} {ls ts : List (List Char)} : ¬ Blank l → Trimmed l t → Tidied ls ts →
      Tidied (l :: ls) (t :: ts)

/-- The text that has these lines, without a newline at its end. -/
def joinLines (ls : List (List Char)) : List Char := List.intercalate ['\n'] ls

end Qlc.Spec
