import Verif.Spec.Response
import Verif.Spec.Docs
/-
How a TypeScript module is read: an independent lexer and parser for the part of TypeScript that occurs in
generated files, the words TypeScript reserves, and the values an exported type admits.
-/
set_option autoImplicit false

namespace Qlc.Spec

/-! ### Tokens -/

/-- Tokens of a module. -/
inductive Tk where
  /-- An identifier, a keyword or a qualified name. -/
  | ident (s : List Char)
  /-- A string literal. -/
  | str (s : List Char)
  /-- A punctuation character. -/
  | p (c : Char)
  deriving DecidableEq, Repr

/-- The punctuation characters. -/
def punctuation : List Char := ['{', '}', '(', ')', '[', ']', '<', '>', '=', ':', ';', ',', '|', '?']

/-- Blank characters. -/
def blanks : List Char := [' ', '\n', '\t', '\r']

/-- Where the lexer is: between tokens, in an identifier, in a string literal, after a `/`, in a line
comment, in a block comment, after a `*` in a block comment. -/
inductive TkSt where
  | start
  | ident (acc : List Char)
  | str (acc : List Char)
  | slash
  | line
  | block
  | star
  deriving DecidableEq

/-- What a character between tokens begins: the tokens it completes and the next state. -/
def tkChar (c : Char) : Option (List Tk × TkSt) :=
  if isIdentChar c then some ([], .ident [c])
  else if c ∈ blanks then some ([], .start)
  else if c = '"' then some ([], .str [])
  else if c = '/' then some ([], .slash)
  else if c ∈ punctuation then some ([.p c], .start)
  else none

/-- The tokens of a text.  Comments are skipped.  String literals have no escapes and no line breaks. -/
def tokens : TkSt → List Char → Option (List Tk)
  | .start, [] => some []
  | .ident acc, [] => some [.ident acc]
  | .line, [] => some []
  | .str _, [] => none
  | .slash, [] => none
  | .block, [] => none
  | .star, [] => none
  | .start, c :: cs =>
    match tkChar c with
    | none => none
    | some (ts, st) => (tokens st cs).map (ts ++ ·)
  | .ident acc, c :: cs =>
    if isIdentChar c then tokens (.ident (acc ++ [c])) cs
    else match tkChar c with
      | none => none
      | some (ts, st) => (tokens st cs).map ((.ident acc :: ts) ++ ·)
  | .str acc, c :: cs =>
    if c = '"' then (tokens .start cs).map (.str acc :: ·)
    else if c = '\n' ∨ c = '\r' ∨ c = '\\' then none
    else tokens (.str (acc ++ [c])) cs
  | .slash, c :: cs =>
    if c = '/' then tokens .line cs
    else if c = '*' then tokens .block cs
    else none
  | .line, c :: cs => if c = '\n' then tokens .start cs else tokens .line cs
  | .block, c :: cs => if c = '*' then tokens .star cs else tokens .block cs
  | .star, c :: cs =>
    if c = '/' then tokens .start cs
    else if c = '*' then tokens .star cs
    else tokens .block cs

/-! ### Names -/

/-- The reserved words of JavaScript modules. -/
def reservedWords : List String :=
  ["break", "case", "catch", "class", "const", "continue", "debugger", "default", "delete", "do", "else",
   "enum", "export", "extends", "false", "finally", "for", "function", "if", "import", "in", "instanceof",
   "new", "null", "return", "super", "switch", "this", "throw", "true", "try", "typeof", "var", "void",
   "while", "with",
   "implements", "interface", "let", "package", "private", "protected", "public", "static", "yield", "await"]

/-- The names of TypeScript's own types, which cannot be declared again. -/
def predefinedTypes : List String :=
  ["any", "unknown", "never", "number", "bigint", "boolean", "string", "symbol", "undefined", "object"]

/-- An identifier: letters, digits, `_` and `$`, not beginning with a digit. -/
def IsIdent (s : List Char) : Prop :=
  (∃ c, s.head? = some c ∧ c.isDigit = false) ∧ ∀ c ∈ s, c.isAlphanum = true ∨ c = '_' ∨ c = '$'

instance (s : List Char) : Decidable (IsIdent s) :=
  decidable_of_iff ((∃ c ∈ s.head?.toList, c.isDigit = false) ∧ ∀ c ∈ s, c.isAlphanum = true ∨ c = '_' ∨ c = '$')
    (by unfold IsIdent; cases s <;> simp)

/-- A name that a type declaration may introduce. -/
def IsBinding (s : String) : Prop :=
  IsIdent s.toList ∧ s ∉ reservedWords ∧ s ∉ predefinedTypes

instance (s : String) : Decidable (IsBinding s) := by unfold IsBinding; infer_instance

/-- The parts of a qualified name. -/
def splitDot : List Char → List (List Char)
  | [] => [[]]
  | c :: cs =>
    if c = '.' then [] :: splitDot cs
    else match splitDot cs with
      | [] => [[c]]
      | p :: ps => (c :: p) :: ps

/-- A name that may stand for a type: identifiers with dots between them, not a reserved word. -/
def IsTypeRef (s : String) : Prop :=
  (∀ q ∈ splitDot s.toList, IsIdent q) ∧ s ∉ reservedWords

instance (s : String) : Decidable (IsTypeRef s) := by unfold IsTypeRef; infer_instance

/-! ### Modules -/

/-- A property of an object type. -/
structure TsMember where
  readonly : Bool
  name : String
  optional : Bool
  type : TsTy
  deriving DecidableEq, Repr

/-- What a type alias stands for. -/
inductive TsBody where
  | object (members : List TsMember)
  | type (t : TsTy)
  deriving DecidableEq, Repr

/-- The statements of a generated module. -/
inductive TsStmt where
  /-- `import type { A, B } from "module";` -/
  | importType (names : List String) (module : String)
  /-- `export type A = …;` -/
  | typeAlias (name : String) (body : TsBody)
  /-- `export enum A { V = "V", … }` -/
  | enum (name : String) (members : List (String × String))
  /-- `declare const x: T<A, B>;` -/
  | declare (name : String) (head : String) (args : List TsTy)
  /-- `export default x;` -/
  | exportDefault (name : String)
  deriving DecidableEq, Repr

/-- The type names a type mentions. -/
def TsTy.refs : TsTy → List String
  | .ref n => [n]
  | .lit _ => []
  | .null => []
  | .arr t => t.refs
  | .union a b => a.refs ++ b.refs

/-- The tokens of a type, for the type parser. -/
def typeTokens : List Tk → Option (List Tok)
  | [] => some []
  | .ident s :: ts => (typeTokens ts).map (.ident s :: ·)
  | .str s :: ts => (typeTokens ts).map (.lit s :: ·)
  | .p '(' :: ts => (typeTokens ts).map (.lpar :: ·)
  | .p ')' :: ts => (typeTokens ts).map (.rpar :: ·)
  | .p '|' :: ts => (typeTokens ts).map (.bar :: ·)
  | .p '[' :: .p ']' :: ts => (typeTokens ts).map (.brackets :: ·)
  | .p _ :: _ => none

/-- Read a type. -/
def readType (ts : List Tk) : Option TsTy :=
  match typeTokens ts with
  | none => none
  | some toks =>
    match parseToks [⟨none, none⟩] toks with
    | some [⟨acc, some t⟩] => if ∀ n ∈ (joinUnion acc t).refs, IsTypeRef n then some (joinUnion acc t) else none
    | _ => none

/-- Cut at commas. -/
def splitComma : List Tk → List (List Tk)
  | [] => [[]]
  | t :: ts =>
    if t = .p ',' then [] :: splitComma ts
    else match splitComma ts with
      | [] => [[t]]
      | p :: ps => (t :: p) :: ps

/-- Apply to every element; `none` if any fails. -/
def every {α β : Type} (f : α → Option β) : List α → Option (List β)
  | [] => some []
  | a :: as => (f a).bind (fun b => (every f as).map (b :: ·))

/-- A declared or imported name. -/
def readBinding (s : List Char) : Option String :=
  if IsBinding (String.ofList s) then some (String.ofList s) else none

/-- The name of a property; reserved words are allowed. -/
def readKey (s : List Char) : Option String :=
  if IsIdent s then some (String.ofList s) else none

/-- One imported name. -/
def readImported : List Tk → Option String
  | [.ident s] => readBinding s
  | _ => none

/-- `[readonly] name[?]: type`, without the semicolon. -/
def readMember : List Tk → Option TsMember
  | .ident r :: .ident n :: .p ':' :: ty =>
    if r = "readonly".toList then
      (readKey n).bind (fun n => (readType ty).map (fun t => ⟨true, n, false, t⟩)) else none
  | .ident r :: .ident n :: .p '?' :: .p ':' :: ty =>
    if r = "readonly".toList then
      (readKey n).bind (fun n => (readType ty).map (fun t => ⟨true, n, true, t⟩)) else none
  | .ident n :: .p ':' :: ty => (readKey n).bind (fun n => (readType ty).map (fun t => ⟨false, n, false, t⟩))
  | .ident n :: .p '?' :: .p ':' :: ty =>
    (readKey n).bind (fun n => (readType ty).map (fun t => ⟨false, n, true, t⟩))
  | _ => none

/-- `V = "value"`. -/
def readEnumMember : List Tk → Option (String × String)
  | [.ident n, .p '=', .str v] => (readKey n).map (fun n => (n, String.ofList v))
  | _ => none

/-- The members of an enum; the last comma is optional. -/
def readEnumMembers (ts : List Tk) : Option (List (String × String)) :=
  let ps := splitComma ts
  every readEnumMember (if ps.getLast? = some [] then ps.dropLast else ps)

/-- `A, B>` -/
def readArgs (ts : List Tk) : Option (List TsTy) :=
  if ts.getLast? = some (.p '>') then every readType (splitComma ts.dropLast) else none

/-- A statement that ends in a semicolon and has no braces. -/
def readSimple : List Tk → Option TsStmt
  | .ident a :: .ident b :: .ident n :: .p '=' :: ty =>
    if a = "export".toList ∧ b = "type".toList then
      (readBinding n).bind (fun n => (readType ty).map (fun t => .typeAlias n (.type t))) else none
  | .ident a :: .ident b :: .ident x :: .p ':' :: .ident h :: .p '<' :: args =>
    if a = "declare".toList ∧ b = "const".toList then
      (readBinding x).bind (fun x => (readBinding h).bind (fun h =>
        (readArgs args).map (fun as => .declare x h as))) else none
  | [.ident a, .ident b, .ident x] =>
    if a = "export".toList ∧ b = "default".toList then
      (readBinding x).map (fun x => .exportDefault x) else none
  | _ => none

/-- A text cut at `{`, `}` and `;`: the tokens before each of these, and which one it is.  Nothing may
follow the last one. -/
def pieces : List Tk → List Tk → Option (List (List Tk × Char))
  | [], [] => some []
  | _ :: _, [] => none
  | acc, t :: ts =>
    if t = .p '{' then (pieces [] ts).map ((acc, '{') :: ·)
    else if t = .p '}' then (pieces [] ts).map ((acc, '}') :: ·)
    else if t = .p ';' then (pieces [] ts).map ((acc, ';') :: ·)
    else pieces (acc ++ [t]) ts

/-- Where the parser is: between statements, in an object type, after its `}`, in the braces of an import,
after them, in an enum. -/
inductive Mode where
  | top
  | object (name : String) (members : List TsMember)
  | objectEnd (name : String) (members : List TsMember)
  | importNames
  | importFrom (names : List String)
  | enum (name : String)
  deriving DecidableEq

/-- The statement begun by the tokens before a `{`. -/
def openBrace : List Tk → Option Mode
  | [.ident a, .ident b] =>
    if a = "import".toList ∧ b = "type".toList then some .importNames else none
  | [.ident a, .ident b, .ident n] =>
    if a = "export".toList ∧ b = "enum".toList then (readBinding n).map .enum else none
  | [.ident a, .ident b, .ident n, .p '='] =>
    if a = "export".toList ∧ b = "type".toList then (readBinding n).map (fun n => .object n []) else none
  | _ => none

/-- `from "module"`. -/
def readFrom : List Tk → Option String
  | [.ident a, .str m] => if a = "from".toList then some (String.ofList m) else none
  | _ => none

/-- One piece: the statements it completes and the next mode. -/
def readPiece : Mode → List Tk × Char → Option (List TsStmt × Mode)
  | .top, (ts, c) =>
    if c = ';' then (readSimple ts).map (fun s => ([s], .top))
    else if c = '{' then (openBrace ts).map (fun m => ([], m))
    else none
  | .object n ms, (ts, c) =>
    if c = ';' then (readMember ts).map (fun m => ([], .object n (ms ++ [m])))
    else if c = '}' ∧ ts = [] then some ([], .objectEnd n ms)
    else none
  | .objectEnd n ms, (ts, c) =>
    if c = ';' ∧ ts = [] then some ([.typeAlias n (.object ms)], .top) else none
  | .importNames, (ts, c) =>
    if c = '}' then (every readImported (splitComma ts)).map (fun ns => ([], .importFrom ns)) else none
  | .importFrom ns, (ts, c) =>
    if c = ';' then (readFrom ts).map (fun m => ([.importType ns m], .top)) else none
  | .enum n, (ts, c) =>
    if c = '}' then (readEnumMembers ts).map (fun ms => ([.enum n ms], .top)) else none

/-- All pieces; the last statement must be complete. -/
def readPieces : Mode → List (List Tk × Char) → Option (List TsStmt)
  | .top, [] => some []
  | _, [] => none
  | m, pc :: pcs =>
    match readPiece m pc with
    | none => none
    | some (ss, m') => (readPieces m' pcs).map (ss ++ ·)

/-- Read a module.  `none`: not a module of this form. -/
def parseModule (text : String) : Option (List TsStmt) :=
  ((tokens .start text.toList).bind (pieces [])).bind (readPieces .top)

/-! ### What a module says -/

/-- The names a statement brings into scope. -/
def TsStmt.names : TsStmt → List String
  | .importType ns _ => ns
  | .typeAlias n _ => [n]
  | .enum n _ => [n]
  | .declare n _ _ => [n]
  | .exportDefault _ => []

/-- The names a statement exports. -/
def TsStmt.exports : TsStmt → List String
  | .typeAlias n _ => [n]
  | .enum n _ => [n]
  | _ => []

/-- The names of types a statement brings into the module. -/
def TsStmt.typeNames : TsStmt → List String
  | .importType ns _ => ns
  | .typeAlias n _ => [n]
  | .enum n _ => [n]
  | _ => []

/-- The type names a statement mentions. -/
def TsStmt.refs : TsStmt → List String
  | .typeAlias _ (.object ms) => ms.flatMap (fun m => m.type.refs)
  | .typeAlias _ (.type t) => t.refs
  | .declare _ h as => h :: as.flatMap TsTy.refs
  | _ => []

/-- The values of an object type: exactly the listed properties, except that optional ones may be missing. -/
def MembersAdmit (ok : TsMember → JVal → Prop) (ms : List TsMember) (v : JVal) : Prop :=
  ∃ fs : List (String × JVal), v = .obj fs ∧ (fs.map Prod.fst).Nodup ∧
    (∀ key ∈ fs.map Prod.fst, key ∈ ms.map TsMember.name) ∧
    ∀ m ∈ ms, (∃ x, (m.name, x) ∈ fs ∧ ok m x) ∨ (m.optional = true ∧ m.name ∉ fs.map Prod.fst)

/-- `ModuleAdmits m env k n v`: down to depth `k`, the value `v` belongs to the type `n` that the module `m`
exports; `env` gives the meaning of names from elsewhere.  An enum admits its values. -/
def ModuleAdmits (m : List TsStmt) (env : String → JVal → Prop) : Nat → String → JVal → Prop
  | 0, _, _ => True
  | k + 1, n, v =>
    (∃ ms, TsStmt.enum n ms ∈ m ∧ ∃ e ∈ ms, v = .str e.2) ∨
    ∃ body, TsStmt.typeAlias n body ∈ m ∧
      let sc := fun n' v' =>
        if n' ∈ m.flatMap TsStmt.exports then ModuleAdmits m env k n' v' else env n' v'
      match body with
      | .object ms => MembersAdmit (fun p x => TsAdmits sc p.type x) ms v
      | .type t => TsAdmits sc t v

/-! ### What can be written down -/

/-- The text of a string literal without escapes. -/
def StrOk (s : List Char) : Prop := ∀ c ∈ s, c ≠ '"' ∧ c ≠ '\n' ∧ c ≠ '\r' ∧ c ≠ '\\'

instance (s : List Char) : Decidable (StrOk s) := by unfold StrOk; infer_instance

/-- No line of the description closes the comment it is printed in (see C25). -/
def DocOk (doc : Option String) : Prop := ∀ d, doc = some d → ∀ line ∈ splitNl d.toList, ¬ BreaksOut line

/-- A GraphQL name: letters, digits and underscores, not beginning with a digit. -/
def IsGqlName (s : String) : Prop := IsIdent s.toList ∧ IsName s

instance (s : String) : Decidable (IsGqlName s) := by unfold IsGqlName; infer_instance

mutual
/-- The response keys of all fields written in a selection. -/
def fieldKeysSel : Selection → List String
  | .field _ al name _ _ items => al.getD name :: fieldKeys items
  | .inline _ _ _ items => fieldKeys items
  | .spread .. => []
/-- The response keys of all fields written in a selection set. -/
def fieldKeys : List Selection → List String
  | [] => []
  | s :: rest => fieldKeysSel s ++ fieldKeys rest
end

/-- The names and descriptions of a schema can be written in TypeScript: object types have GraphQL names, no
enum is called like a reserved word or a type of TypeScript, custom scalars are printed as names of types,
and no description closes its comment. -/
structure Writable (cfg : TsConfig) (doc : JSchema) : Prop where
  objects : ∀ P, ∀ T ∈ objectTypes doc P, IsGqlName T
  enums : ∀ n, kindNamed doc n = some "ENUM" → IsBinding n
  scalars : ∀ n, kindNamed doc n = some "SCALAR" → match cfg.bottomTypeConfig with
    | .defaultBottomType => True
    | .realName => IsTypeRef n
    | .realNameWithPrefix p => IsTypeRef (p ++ n)
  docs : ∀ P, ∀ f ∈ declaredFields doc P, DocOk f.description
  docModule : StrOk cfg.typedGraphqlDocumentnodeModuleName.toList
  globalsModule : StrOk cfg.globalTypesModuleName.toList

/-- The name refers to something that does not belong to a generated file: a type of TypeScript, an enum of
the schema, or a scalar of the schema under the configured name. -/
def FromSchema (cfg : TsConfig) (doc : JSchema) : Flat → Prop
  | .builtin n => n ∈ ["string", "number", "boolean", "any"]
  | .global n => kindNamed doc n = some "ENUM"
  | .custom n => ∃ s, kindNamed doc s = some "SCALAR" ∧ match cfg.bottomTypeConfig with
    | .defaultBottomType => False
    | .realName => n = s
    | .realNameWithPrefix p => n = p ++ s
  | _ => False

/-- The variables of an operation can be written in TypeScript: they have GraphQL names, and the types that
are imported for them have names that can be imported. -/
def VarsWritable (schema : Schema) (vs : List Variable) : Prop :=
  ∀ v ∈ vs, IsGqlName v.propName ∧ ∀ n, v.type = .custom n → (∀ t s, schema.getType n = some t →
    t.definition ≠ .scalar s) → IsBinding n

/-! ### The module for a generated file -/

/-- The union of types, from left to right. -/
def unionFrom : Option TsTy → List TsTy → TsTy
  | none, [] => .null
  | some t, [] => t
  | acc, t :: ts => unionFrom (some (joinUnion acc t)) ts

/-- The type a reference stands for. -/
def Flat.ty : Flat → TsTy
  | .literals ns => unionFrom none (ns.map TsTy.lit)
  | f => .ref f.text

/-- A property of a data type. -/
def TsProp.member (readonly : Bool) (p : TsProp) : TsMember :=
  ⟨readonly, p.name, false, wrapMods (p.last :: p.rest) p.flat.ty⟩

/-- An exported data type. -/
def TsDecl.stmt (readonly : Bool) : TsDecl → TsStmt
  | .object n props => .typeAlias n (.object (props.map (TsProp.member readonly)))
  | .union n alts => .typeAlias n (.type (unionFrom none (alts.map TsTy.ref)))

/-- A property of the variables type. -/
def TsVar.member (v : TsVar) : TsMember := ⟨false, v.name, v.optional, wrapMod v.last v.flat.ty⟩

/-- The statements of a generated file, in order. -/
def TsFile.stmts (readonly : Bool) (f : TsFile) : List TsStmt :=
  [.importType [f.docNode] f.docModule] ++
  (if f.globals = [] then [] else [.importType f.globals f.globalsModule]) ++
  f.decls.map (TsDecl.stmt readonly) ++
  (match f.vars with
    | none => []
    | some (n, vs) => [.typeAlias n (.object (vs.map TsVar.member))]) ++
  [.declare "graphqlDocument" f.docNode (f.args.map TsTy.ref), .exportDefault "graphqlDocument"]

end Qlc.Spec
