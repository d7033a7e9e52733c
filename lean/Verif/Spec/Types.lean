import Verif.Model.Query
import Verif.Model.Schema
/-
Independent specification of types: JSON values, which values a GraphQL type admits, and how a
TypeScript type text is read and which values it admits.
-/
set_option autoImplicit false

namespace Qlc.Spec

/-- JSON values. -/
inductive JVal where
  | null
  | bool (b : Bool)
  | num (text : String)
  | str (s : String)
  | arr (items : List JVal)
  | obj (fields : List (String × JVal))

/-- A value that is neither `null` nor an array. -/
def JVal.Plain : JVal → Prop
  | .null => False
  | .arr _ => False
  | _ => True

/-- GraphQL types (`VarTy` is just the syntax tree `named | list | nonNull`).  `base` are the non-null
values of the innermost named type.  Everything is nullable unless under `nonNull`. -/
def Admits (base : JVal → Prop) : VarTy → JVal → Prop
  | .named _, v => v = .null ∨ base v
  | .list t, v => v = .null ∨ ∃ vs, v = .arr vs ∧ ∀ x ∈ vs, Admits base t x
  | .nonNull t, v => v ≠ .null ∧ Admits base t v

/-- Number of list levels of a GraphQL type. -/
def listDepth : VarTy → Nat
  | .named _ => 0
  | .list t => listDepth t + 1
  | .nonNull t => listDepth t

/-- The innermost named type. -/
def baseName : VarTy → String
  | .named n => n
  | .list t => baseName t
  | .nonNull t => baseName t

/-- GraphQL does not have `X!!`. -/
def WellFormed : VarTy → Prop
  | .named _ => True
  | .list t => WellFormed t
  | .nonNull (.nonNull _) => False
  | .nonNull t => WellFormed t

/-- Is the type nullable at its outside? -/
def isNullable : VarTy → Bool
  | .nonNull _ => false
  | _ => true

/-- Is the type a list without `!`? -/
def isList : VarTy → Bool
  | .list _ => true
  | _ => false

/-- Is the type a list with `!`? -/
def isNonNullList : VarTy → Bool
  | .nonNull t => isList t
  | _ => false

/-- `[[X]!]` occurs somewhere: a *nullable* list whose elements are non-null lists.  `nn` says whether
the type stands directly under `nonNull`. -/
def hasNonNullListInNullableList (nn : Bool) : VarTy → Bool
  | .named _ => false
  | .nonNull t => hasNonNullListInNullableList true t
  | .list t =>
    (!nn && isNonNullList t) || hasNonNullListInNullableList false t

/-- An introspection type reference describes a GraphQL type whose named type has the given kind. -/
inductive Describes (kind : String) : JFieldType → VarTy → Prop where
  | named (n : String) (ofType : Option JFieldType) :
      Describes kind (.mk kind (some n) ofType) (.named n)
  | list (nm : Option String) (j : JFieldType) (t : VarTy) :
      Describes kind j t → Describes kind (.mk "LIST" nm (some j)) (.list t)
  | nonNull (nm : Option String) (j : JFieldType) (t : VarTy) :
      Describes kind j t → Describes kind (.mk "NON_NULL" nm (some j)) (.nonNull t)

/-- TypeScript types as far as qlc prints them. -/
inductive TsTy where
  | ref (name : String)
  | lit (s : String)
  | null
  | arr (t : TsTy)
  | union (a b : TsTy)
  deriving DecidableEq, Repr

/-- The values a TypeScript type admits; `env` gives the meaning of type names. -/
def TsAdmits (env : String → JVal → Prop) : TsTy → JVal → Prop
  | .ref n, v => env n v
  | .lit s, v => v = .str s
  | .null, v => v = .null
  | .arr t, v => ∃ vs, v = .arr vs ∧ ∀ x ∈ vs, TsAdmits env t x
  | .union a b, v => TsAdmits env a v ∨ TsAdmits env b v

/-- Tokens of TypeScript type expressions. -/
inductive Tok where
  | ident (s : List Char)
  | lit (s : List Char)
  | lpar | rpar | bar | brackets
  deriving DecidableEq, Repr

/-- Characters of (possibly qualified) identifiers. -/
def isIdentChar (c : Char) : Bool := c.isAlphanum || c == '_' || c == '$' || c == '.'

/-- Lexer states: between tokens, inside an identifier, inside a string literal, after `[`. -/
inductive LexSt where
  | start
  | ident (acc : List Char)
  | lit (acc : List Char)
  | bracket
  deriving DecidableEq

/-- A single-character token, or the start of a longer one.  `none` = not a TypeScript type token. -/
def lexChar (c : Char) : Option (List Tok × LexSt) :=
  if isIdentChar c then some ([], .ident [c])
  else if c = ' ' then some ([], .start)
  else if c = '(' then some ([.lpar], .start)
  else if c = ')' then some ([.rpar], .start)
  else if c = '|' then some ([.bar], .start)
  else if c = '[' then some ([], .bracket)
  else if c = '"' then some ([], .lit [])
  else none

/-- The lexer: longest identifiers, string literals without escapes, `[]` as one token. -/
def lex : LexSt → List Char → Option (List Tok)
  | .start, [] => some []
  | .ident acc, [] => some [.ident acc]
  | .lit _, [] => none
  | .bracket, [] => none
  | .start, c :: cs =>
    match lexChar c with
    | none => none
    | some (ts, st) => (lex st cs).map (ts ++ ·)
  | .ident acc, c :: cs =>
    if isIdentChar c then lex (.ident (acc ++ [c])) cs
    else match lexChar c with
      | none => none
      | some (ts, st) => (lex st cs).map ((.ident acc :: ts) ++ ·)
  | .lit acc, c :: cs =>
    if c = '"' then (lex .start cs).map (.lit acc :: ·)
    else lex (.lit (acc ++ [c])) cs
  | .bracket, c :: cs =>
    if c = ']' then (lex .start cs).map (.brackets :: ·) else none

/-- One open parenthesis level while parsing: the union read so far and the operand being read. -/
structure Frame where
  acc : Option TsTy
  cur : Option TsTy
  deriving DecidableEq, Repr

/-- Append an operand to a union. -/
def joinUnion : Option TsTy → TsTy → TsTy
  | none, t => t
  | some a, t => .union a t

/-- Operator precedence parsing, one token at a time: `[]` binds to the operand directly before it,
`|` separates operands, parentheses open a level. -/
def parseTok : List Frame → Tok → Option (List Frame)
  | ⟨acc, none⟩ :: st, .ident n =>
    some (⟨acc, some (if n = "null".toList then .null else .ref (String.ofList n))⟩ :: st)
  | ⟨acc, none⟩ :: st, .lit s => some (⟨acc, some (.lit (String.ofList s))⟩ :: st)
  | ⟨acc, none⟩ :: st, .lpar => some (⟨none, none⟩ :: ⟨acc, none⟩ :: st)
  | ⟨acc, some t⟩ :: ⟨acc', none⟩ :: st, .rpar => some (⟨acc', some (joinUnion acc t)⟩ :: st)
  | ⟨acc, some t⟩ :: st, .brackets => some (⟨acc, some (.arr t)⟩ :: st)
  | ⟨acc, some t⟩ :: st, .bar => some (⟨some (joinUnion acc t), none⟩ :: st)
  | _, _ => none

/-- Feed tokens to the parser. -/
def parseToks : List Frame → List Tok → Option (List Frame)
  | st, [] => some st
  | st, t :: ts => (parseTok st t).bind (fun st' => parseToks st' ts)

/-- Read a TypeScript type text. -/
def parseTs (text : String) : Option TsTy :=
  match lex .start text.toList with
  | none => none
  | some toks =>
    match parseToks [⟨none, none⟩] toks with
    | some [⟨acc, some t⟩] => some (joinUnion acc t)
    | _ => none

/-- A text that is one identifier and not the keyword `null`. -/
def IsTypeName (s : String) : Prop :=
  s.toList ≠ [] ∧ (∀ c ∈ s.toList, isIdentChar c = true) ∧ s ≠ "null"

instance (s : String) : Decidable (IsTypeName s) := by unfold IsTypeName; infer_instance

/-- The TypeScript type each modifier is meant to make of an inner type. -/
def wrapMod : Mod → TsTy → TsTy
  | .none, t => t
  | .nullable, t => .union t .null
  | .list, t => .arr t
  | .nullableList, t => .union (.arr t) .null
  | .listOfNullable, t => .arr (.union t .null)
  | .nullableListOfNullable, t => .union (.arr (.union t .null)) .null

/-- A modifier sequence, innermost first, around an inner type. -/
def wrapMods : List Mod → TsTy → TsTy
  | [], t => t
  | m :: ms, t => wrapMods ms (wrapMod m t)

/-- Variable types qlc supports: at most one list level, no `!!`. -/
def SupportedVarType (t : VarTy) : Prop := WellFormed t ∧ listDepth t ≤ 1

/-- A type name a variable may have. -/
def KnownTypeName (schema : Schema) (n : String) : Prop :=
  n ∈ ["ID", "String", "Float", "Int", "Boolean"] ∨ ∃ t, schema.getType n = some t

end Qlc.Spec
