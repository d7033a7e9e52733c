import Verif.Spec.Json
import Verif.Model.JsonText
/-
The grammar of JSON (RFC 8259): which texts spell which trees (C125, C126).
-/
set_option autoImplicit false

namespace Qlc.Spec

/-- White space between the parts of a JSON text. -/
def JsonBlank (w : List Char) : Prop := ∀ c ∈ w, c = ' ' ∨ c = '\n' ∨ c = '\t' ∨ c = '\r'

/-- A hexadecimal digit, in either case. -/
def HexDigit (n : Nat) (c : Char) : Prop :=
  "0123456789abcdef".toList[n]? = some c ∨ "0123456789ABCDEF".toList[n]? = some c

/-- A number below 65536 in four hexadecimal digits. -/
def Hex4 (n : Nat) (t : List Char) : Prop :=
  ∃ a b c d x y z u, HexDigit a x ∧ HexDigit b y ∧ HexDigit c z ∧ HexDigit d u ∧
    n = a * 16 ^ 3 + b * 16 ^ 2 + c * 16 + d ∧ t = [x, y, z, u]

/-- Characters and the letters that stand for them after a backslash. -/
def shortEscapes : List (Char × Char) :=
  [('"', '"'), ('\\', '\\'), ('/', '/'), ('\x08', 'b'), ('\x0c', 'f'), ('\n', 'n'), ('\r', 'r'), ('\t', 't')]

/-- The ways to write a character in a string: itself, unless it is a quote, a backslash or a control character; a
short escape; its code; or the codes of two surrogates. -/
inductive CharText : Char → List Char → Prop where
  | plain {c : Char} : c ≠ '"' → c ≠ '\\' → 0x20 ≤ c.toNat → CharText c [c]
  | short {c e : Char} : (c, e) ∈ shortEscapes → CharText c ['\\', e]
  | code {c : Char} {h : List Char} : Hex4 c.toNat h → CharText c ('\\' :: 'u' :: h)
  | pair {c : Char} {h l : List Char} : 0x10000 ≤ c.toNat → Hex4 (0xD800 + (c.toNat - 0x10000) / 0x400) h →
      Hex4 (0xDC00 + (c.toNat - 0x10000) % 0x400) l → CharText c ('\\' :: 'u' :: h ++ '\\' :: 'u' :: l)

/-- The ways to write the inside of a string. -/
inductive InsideText : List Char → List Char → Prop where
  | nil : InsideText [] []
  | cons {c : Char} {s t u : List Char} : CharText c t → InsideText s u → InsideText (c :: s) (t ++ u)

/-- The ways to write a string, quotes included. -/
def StringText (s : String) (t : List Char) : Prop := ∃ u, InsideText s.toList u ∧ t = '"' :: u ++ ['"']

/-- A decimalValue digit. -/
def Digit (c : Char) : Prop := c ∈ "0123456789".toList

/-- The number that decimalValue digits mean. -/
def decimalValue (ds : List Char) : Nat := ds.foldl (fun n c => 10 * n + "0123456789".toList.idxOf c) 0

/-- Decimal digits, without zeros in front. -/
def IntegerText (ds : List Char) : Prop := ds ≠ [] ∧ (∀ c ∈ ds, Digit c) ∧ (∀ r, ds = '0' :: r → r = [])

/-- Nothing, or a point and digits. -/
def FractionText (t : List Char) : Prop := t = [] ∨ ∃ ds, ds ≠ [] ∧ (∀ c ∈ ds, Digit c) ∧ t = '.' :: ds

/-- Nothing, or `e` or `E`, a sign or none, and digits. -/
def ExponentText (t : List Char) : Prop :=
  t = [] ∨ ∃ e sign ds, (e = 'e' ∨ e = 'E') ∧ (sign = [] ∨ sign = ['+'] ∨ sign = ['-']) ∧ ds ≠ [] ∧
    (∀ c ∈ ds, Digit c) ∧ t = e :: sign ++ ds

/-- The ways to write a number. -/
inductive NumberText : Json → List Char → Prop where
  | nat {ds : List Char} : IntegerText ds → NumberText (.nat (decimalValue ds)) ds
  | num {sign ds fr ex : List Char} : (sign = [] ∨ sign = ['-']) → IntegerText ds → FractionText fr →
      ExponentText ex → ¬ (sign = [] ∧ fr = [] ∧ ex = []) →
      NumberText (.num (String.ofList (sign ++ ds ++ fr ++ ex))) (sign ++ ds ++ fr ++ ex)

/-- What can be written: a value, values between commas, or members between commas. -/
inductive Piece where
  | value (j : Json)
  | items (js : List Json)
  | members (ms : List (String × Json))

/-- The texts that spell a piece, with arrays and objects nested at most `n` levels deep. -/
inductive Spells : Nat → Piece → List Char → Prop where
  | null {n : Nat} : Spells n (.value .null) "null".toList
  | true {n : Nat} : Spells n (.value (.bool true)) "true".toList
  | false {n : Nat} : Spells n (.value (.bool false)) "false".toList
  | number {n : Nat} {j : Json} {t : List Char} : NumberText j t → Spells n (.value j) t
  | str {n : Nat} {s : String} {t : List Char} : StringText s t → Spells n (.value (.str s)) t
  | noItems {n : Nat} {w : List Char} : JsonBlank w → Spells (n + 1) (.value (.arr [])) ('[' :: w ++ [']'])
  | arr {n : Nat} {js : List Json} {t : List Char} : Spells n (.items js) t →
      Spells (n + 1) (.value (.arr js)) ('[' :: t ++ [']'])
  | noMembers {n : Nat} {w : List Char} : JsonBlank w → Spells (n + 1) (.value (.obj [])) ('{' :: w ++ ['}'])
  | obj {n : Nat} {ms : List (String × Json)} {t : List Char} : Spells n (.members ms) t →
      Spells (n + 1) (.value (.obj ms)) ('{' :: t ++ ['}'])
  | item {n : Nat} {j : Json} {w t w' : List Char} : JsonBlank w → Spells n (.value j) t → JsonBlank w' →
      Spells n (.items [j]) (w ++ t ++ w')
  | items {n : Nat} {j : Json} {js : List Json} {w t w' ts : List Char} : JsonBlank w → Spells n (.value j) t →
      JsonBlank w' → Spells n (.items js) ts → Spells n (.items (j :: js)) (w ++ t ++ w' ++ ',' :: ts)
  | member {n : Nat} {k : String} {j : Json} {w q w' v t v' : List Char} : JsonBlank w → StringText k q → JsonBlank w' →
      JsonBlank v → Spells n (.value j) t → JsonBlank v' →
      Spells n (.members [(k, j)]) (w ++ q ++ w' ++ ':' :: v ++ t ++ v')
  | members {n : Nat} {k : String} {j : Json} {ms : List (String × Json)} {w q w' v t v' ts : List Char} :
      JsonBlank w → StringText k q → JsonBlank w' → JsonBlank v → Spells n (.value j) t → JsonBlank v' →
      Spells n (.members ms) ts →
      Spells n (.members ((k, j) :: ms)) (w ++ q ++ w' ++ ':' :: v ++ t ++ v' ++ ',' :: ts)

/-- The text is a JSON document for the tree: a value with white space around it, nested at most 127 levels deep. -/
def DocumentText (j : Json) (cs : List Char) : Prop :=
  ∃ w t w', JsonBlank w ∧ JsonBlank w' ∧ cs = w ++ t ++ w' ∧ Spells 127 (.value j) t

/-- A text as bytes. -/
def utf8Bytes (cs : List Char) : List UInt8 := cs.flatMap String.utf8EncodeChar

/-- The bytes are a JSON document for the tree. -/
def HoldsDocument (bs : List UInt8) (j : Json) : Prop := ∃ cs, bs = utf8Bytes cs ∧ DocumentText j cs

/-- Two files that are the same, or hold JSON documents whose trees differ in what does not matter only and have the
expected shape: they may differ in white space, escapes, spellings of numbers, the order of members, and members that
no one asks for. -/
inductive JsonRespelled {α : Type} (K : List String) (R : Json → α → Prop) : FileRead → FileRead → Prop where
  | refl (f : FileRead) : JsonRespelled K R f f
  | text {bs bs' : List UInt8} {j j' : Json} {x : α} : HoldsDocument bs j → HoldsDocument bs' j' → SameFor K j j' →
      R j x → JsonRespelled K R (.bytes bs) (.bytes bs')

/-- The tree is an array or an object. -/
def IsCompound : Json → Prop
  | .arr _ => True
  | .obj _ => True
  | _ => False

/-- The second file is the first, or the first without some of the white space at its end. -/
def SameButBlanks (bs bs' : List UInt8) : Prop := ∃ v, JsonBlank v ∧ bs = bs' ++ utf8Bytes v

end Qlc.Spec
