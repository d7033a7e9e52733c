import Verif.Spec.JsonText
import Verif.Spec.Rename
import Verif.Model.GraphqlText
/-
The grammar of GraphQL documents: which texts have which tokens, and which tokens form which definitions (C127, C128).
-/
set_option autoImplicit false

namespace Qlc.Spec

/-! ### Tokens -/

/-- A character that ends a line. -/
def LineEnd (c : Char) : Prop := c = '\n' ∨ c = '\r'

/-- `Gap g rest`: the text `g`, before `rest`, means nothing.  It is made of spaces, tabs, ends of lines, commas, byte
order marks, and comments, which begin with `#` and go on to the end of the line. -/
inductive Gap : List Char → List Char → Prop where
  | nil {rest : List Char} : Gap [] rest
  | blank {c : Char} {g rest : List Char} : c ∈ [' ', '\t', '\n', '\r', ',', Char.ofNat 0xFEFF] → Gap g rest →
      Gap (c :: g) rest
  | comment {body g rest : List Char} : (∀ c ∈ body, ¬ LineEnd c) → (∀ c r, g ++ rest = c :: r → LineEnd c) →
      Gap g rest → Gap ('#' :: body ++ g) rest

/-- A letter or an underscore. -/
def NameStart (c : Char) : Prop := c ∈ "abcdefghijklmnopqrstuvwxyzABCDEFGHIJKLMNOPQRSTUVWXYZ_".toList

/-- What may stand between the quotes of a string. -/
inductive QuotedBody : List Char → Prop where
  | nil : QuotedBody []
  | plain {c : Char} {b : List Char} : c ≠ '"' → c ≠ '\\' → ¬ LineEnd c → QuotedBody b → QuotedBody (c :: b)
  | short {c e : Char} {b : List Char} : (c, e) ∈ shortEscapes → QuotedBody b → QuotedBody ('\\' :: e :: b)
  | code {n : Nat} {h b : List Char} : Hex4 n h → QuotedBody b → QuotedBody ('\\' :: 'u' :: h ++ b)

/-- What may stand between the three quotes of a block string: any text in which three quotes come only after a
backslash. -/
inductive BlockBody : List Char → Prop where
  | nil : BlockBody []
  | plain {c : Char} {b : List Char} : ¬ "\"\"\"".toList <+: c :: b ++ "\"\"\"".toList →
      ¬ "\\\"\"\"".toList <+: c :: b ++ "\"\"\"".toList → BlockBody b → BlockBody (c :: b)
  | escaped {b : List Char} : BlockBody b → BlockBody ("\\\"\"\"".toList ++ b)

/-- The text of a token. -/
inductive TokenText : GTok → List Char → Prop where
  | punct {c : Char} : c ∈ "!$&():=@[]{|}".toList → TokenText (.punct c) [c]
  | dots : TokenText .dots "...".toList
  | name {c : Char} {cs : List Char} : NameStart c → (∀ d ∈ cs, NameStart d ∨ Digit d) →
      TokenText (.name (String.ofList (c :: cs))) (c :: cs)
  | number {j : Json} {t : List Char} : NumberText j t → TokenText (.number (String.ofList t)) t
  | string {b : List Char} : QuotedBody b → TokenText (.string (String.ofList ('"' :: b ++ ['"']))) ('"' :: b ++ ['"'])
  | block {b : List Char} : BlockBody b →
      TokenText (.string (String.ofList ("\"\"\"".toList ++ b ++ "\"\"\"".toList))) ("\"\"\"".toList ++ b ++ "\"\"\"".toList)

/-- The text after a token does not go on with it: no letters or digits after a name, nor after a number, which no point
follows either, and no quote after an empty string. -/
def NotContinued : GTok → List Char → Prop
  | .name _, rest => ∀ c r, rest = c :: r → ¬ NameStart c ∧ ¬ Digit c
  | .number _, rest => ∀ c r, rest = c :: r → ¬ NameStart c ∧ ¬ Digit c ∧ c ≠ '.'
  | .string s, rest => s = "\"\"" → ∀ r, rest ≠ '"' :: r
  | _, _ => True

/-- The tokens of a text, and where they stand: `place` gets the text from a token on. -/
inductive TokensOf (place : List Char → Pos) : List Char → Toks → Prop where
  | done {g : List Char} : Gap g [] → TokensOf place g []
  | more {g w rest : List Char} {t : GTok} {ts : Toks} : Gap g (w ++ rest) → TokenText t w → NotContinued t rest →
      TokensOf place rest ts → TokensOf place (g ++ (w ++ rest)) ((place (w ++ rest), t) :: ts)

/-! ### Definitions -/

/-- A value, or what stands between brackets: values in a list, named values in an object or between parentheses. -/
inductive GPiece where
  | value (v : Value)
  | inside (b : Bracket) (vs : List (String × Value))

/-- The tokens of values.  Where they must be constant, there are no variables. -/
inductive IsVal (const : Bool) : GPiece → Toks → Prop where
  | yes {p : Pos} : IsVal const (.value (.bool true)) [(p, .name "true")]
  | no {p : Pos} : IsVal const (.value (.bool false)) [(p, .name "false")]
  | word {p : Pos} {s : String} : s ≠ "true" → s ≠ "false" → IsVal const (.value (.other s)) [(p, .name s)]
  | number {p : Pos} {s : String} : IsVal const (.value (.other s)) [(p, .number s)]
  | string {p : Pos} {s : String} : IsVal const (.value (.other s)) [(p, .string s)]
  | var {p p' : Pos} {n : String} : const = false → IsVal const (.value (.var n)) [(p, .punct '$'), (p', .name n)]
  | list {p p' : Pos} {vs : List (String × Value)} {ts : Toks} : IsVal const (.inside .list vs) ts →
      IsVal const (.value (.other ("[" ++ valuesText vs ++ "]"))) ((p, .punct '[') :: ts ++ [(p', .punct ']')])
  | object {p p' : Pos} {vs : List (String × Value)} {ts : Toks} : IsVal const (.inside .object vs) ts →
      IsVal const (.value (.other ("{" ++ valuesText vs ++ "}"))) ((p, .punct '{') :: ts ++ [(p', .punct '}')])
  | none {b : Bracket} : IsVal const (.inside b []) []
  | item {v : Value} {vs : List (String × Value)} {ts rest : Toks} : IsVal const (.value v) ts →
      IsVal const (.inside .list vs) rest → IsVal const (.inside .list (("", v) :: vs)) (ts ++ rest)
  | entry {b : Bracket} {p p' : Pos} {k : String} {v : Value} {vs : List (String × Value)} {ts rest : Toks} :
      b ≠ .list → IsVal const (.value v) ts → IsVal const (.inside b vs) rest →
      IsVal const (.inside b ((k, v) :: vs)) ((p, .name k) :: (p', .punct ':') :: (ts ++ rest))

/-- Arguments: nothing, or one or more between parentheses. -/
inductive IsArguments : List (String × Value) → Toks → Prop where
  | none : IsArguments [] []
  | some {p p' : Pos} {args : List (String × Value)} {ts : Toks} : args ≠ [] → IsVal false (.inside .arguments args) ts →
      IsArguments args ((p, .punct '(') :: ts ++ [(p', .punct ')')])

/-- Directives, any number. -/
inductive IsDirectives : List Directive → Toks → Prop where
  | nil : IsDirectives [] []
  | cons {p p' : Pos} {n : String} {args : List (String × Value)} {ds : List Directive} {ts rest : Toks} :
      IsArguments args ts → IsDirectives ds rest →
      IsDirectives (⟨n, args⟩ :: ds) ((p, .punct '@') :: (p', .name n) :: (ts ++ rest))

/-- The name of a field, perhaps with an alias before it. -/
inductive IsFieldName (pos : Pos) : Option String → String → Toks → Prop where
  | plain {n : String} : IsFieldName pos none n [(pos, .name n)]
  | aliased {p p' : Pos} {a n : String} : IsFieldName pos (some a) n [(pos, .name a), (p, .punct ':'), (p', .name n)]

/-- A type condition or none. -/
inductive IsCondition : Option String → Toks → Prop where
  | none : IsCondition none []
  | on {p p' : Pos} {t : String} : IsCondition (some t) [(p, .name "on"), (p', .name t)]

/-- A selection, or one or more. -/
inductive SelPiece where
  | one (s : Selection)
  | many (ss : List Selection)

/-- The tokens of selections.  A field is said to be where its alias or name is, a fragment where the token after the
dots is. -/
inductive Selects : SelPiece → Toks → Prop where
  | field {pos : Pos} {al : Option String} {n : String} {args : List (String × Value)} {dirs : List Directive}
      {ns as ds : Toks} : IsFieldName pos al n ns → IsArguments args as → IsDirectives dirs ds →
      Selects (.one (.field pos al n args dirs [])) (ns ++ (as ++ ds))
  | fieldWith {pos p p' : Pos} {al : Option String} {n : String} {args : List (String × Value)} {dirs : List Directive}
      {items : List Selection} {ns as ds ts : Toks} : IsFieldName pos al n ns → IsArguments args as →
      IsDirectives dirs ds → Selects (.many items) ts →
      Selects (.one (.field pos al n args dirs items)) (ns ++ (as ++ (ds ++ (p, .punct '{') :: (ts ++ [(p', .punct '}')]))))
  | inline {pos dots p p' : Pos} {cond : Option String} {dirs : List Directive} {items : List Selection}
      {cs ds ts : Toks} : IsCondition cond cs → IsDirectives dirs ds →
      ((cs ++ (ds ++ [(p, GTok.punct '{')])).head?.map Prod.fst = some pos) → Selects (.many items) ts →
      Selects (.one (.inline pos cond dirs items))
        ((dots, .dots) :: (cs ++ (ds ++ (p, .punct '{') :: (ts ++ [(p', .punct '}')]))))
  | spread {pos dots : Pos} {n : String} {dirs : List Directive} {ds : Toks} : n ≠ "on" → IsDirectives dirs ds →
      Selects (.one (.spread pos n dirs)) ((dots, .dots) :: (pos, .name n) :: ds)
  | last {s : Selection} {ts : Toks} : Selects (.one s) ts → Selects (.many [s]) ts
  | more {s : Selection} {ss : List Selection} {ts rest : Toks} : Selects (.one s) ts → Selects (.many ss) rest →
      Selects (.many (s :: ss)) (ts ++ rest)

/-- A selection set: one or more selections between braces. -/
def IsSelectionSet (pos : Pos) (items : List Selection) (ts : Toks) : Prop :=
  ∃ p' inner, Selects (.many items) inner ∧ ts = (pos, .punct '{') :: (inner ++ [(p', .punct '}')])

/-- The type of a variable. -/
inductive IsVarTy : VarTy → Toks → Prop where
  | named {p : Pos} {s : String} : IsVarTy (.named s) [(p, .name s)]
  | list {p p' : Pos} {t : VarTy} {ts : Toks} : IsVarTy t ts →
      IsVarTy (.list t) ((p, .punct '[') :: (ts ++ [(p', .punct ']')]))
  | nonNull {p : Pos} {t : VarTy} {ts : Toks} : IsVarTy t ts → (∀ u, t ≠ .nonNull u) →
      IsVarTy (.nonNull t) (ts ++ [(p, .punct '!')])

/-- The default value of a variable, or none. -/
inductive IsDefault : Option Value → Toks → Prop where
  | none : IsDefault none []
  | some {p : Pos} {v : Value} {ts : Toks} : IsVal true (.value v) ts → IsDefault (some v) ((p, .punct '=') :: ts)

/-- The definition of a variable. -/
inductive IsVarDef : VarDef → Toks → Prop where
  | mk {pos p p' : Pos} {n : String} {t : VarTy} {dflt : Option Value} {ts ds : Toks} : IsVarTy t ts → IsDefault dflt ds →
      IsVarDef ⟨pos, n, t, dflt⟩ ((pos, .punct '$') :: (p, .name n) :: (p', .punct ':') :: (ts ++ ds))

/-- One or more definitions of variables. -/
inductive IsVarDefs : List VarDef → Toks → Prop where
  | last {v : VarDef} {ts : Toks} : IsVarDef v ts → IsVarDefs [v] ts
  | more {v : VarDef} {vs : List VarDef} {ts rest : Toks} : IsVarDef v ts → IsVarDefs vs rest →
      IsVarDefs (v :: vs) (ts ++ rest)

/-- The variables of an operation: none, or one or more between parentheses. -/
inductive IsVariables : List VarDef → Toks → Prop where
  | none : IsVariables [] []
  | some {p p' : Pos} {vs : List VarDef} {ts : Toks} : IsVarDefs vs ts →
      IsVariables vs ((p, .punct '(') :: (ts ++ [(p', .punct ')')]))

/-- The name of an operation, or none. -/
inductive IsOpName : Option String → Toks → Prop where
  | none : IsOpName none []
  | some {p : Pos} {n : String} : IsOpName (some n) [(p, .name n)]

/-- The keywords of operations. -/
def keyword : OpKeyword → String
  | .query => "query"
  | .mutation => "mutation"
  | .subscription => "subscription"

/-- The tokens of a definition. -/
inductive IsDefinition : Definition → Toks → Prop where
  | selectionSet {pos : Pos} {items : List Selection} {ts : Toks} : IsSelectionSet pos items ts →
      IsDefinition (.selectionSet pos items) ts
  | operation {kw : OpKeyword} {pos p : Pos} {name : Option String} {vars : List VarDef} {dirs : List Directive}
      {items : List Selection} {ns vs ds ts : Toks} : IsOpName name ns → IsVariables vars vs → IsDirectives dirs ds →
      IsSelectionSet p items ts →
      IsDefinition (.operation kw pos name vars dirs items) ((pos, .name (keyword kw)) :: (ns ++ (vs ++ (ds ++ ts))))
  | fragment {pos p p' p'' q : Pos} {n cond : String} {dirs : List Directive} {items : List Selection} {ds ts : Toks} :
      IsDirectives dirs ds → IsSelectionSet q items ts →
      IsDefinition (.fragment ⟨pos, n, cond, dirs, items⟩)
        ((pos, .name "fragment") :: (p, .name n) :: (p', .name "on") :: (p'', .name cond) :: (ds ++ ts))

/-- The tokens of a document: of one or more definitions. -/
inductive IsDocument : Document → Toks → Prop where
  | last {d : Definition} {ts : Toks} : IsDefinition d ts → IsDocument [d] ts
  | more {d : Definition} {ds : Document} {ts rest : Toks} : IsDefinition d ts → IsDocument ds rest →
      IsDocument (d :: ds) (ts ++ rest)

/-! ### Layout -/

mutual
/-- A selection without the places where its parts stand. -/
def unplacedSel : Selection → Selection
  | .field _ al n args dirs items => .field ⟨0, 0⟩ al n args dirs (unplacedSels items)
  | .inline _ cond dirs items => .inline ⟨0, 0⟩ cond dirs (unplacedSels items)
  | .spread _ n dirs => .spread ⟨0, 0⟩ n dirs
/-- Selections without the places where their parts stand. -/
def unplacedSels : List Selection → List Selection
  | [] => []
  | s :: rest => unplacedSel s :: unplacedSels rest
end

/-- The definition of a variable without its place. -/
def unplacedVar (v : VarDef) : VarDef := ⟨⟨0, 0⟩, v.name, v.type, v.default⟩

/-- A definition without the places where its parts stand. -/
def unplaced : Definition → Definition
  | .selectionSet _ items => .selectionSet ⟨0, 0⟩ (unplacedSels items)
  | .operation kw _ name vars dirs items =>
    .operation kw ⟨0, 0⟩ name (vars.map unplacedVar) dirs (unplacedSels items)
  | .fragment f => .fragment ⟨⟨0, 0⟩, f.name, f.typeCond, f.dirs, unplacedSels f.items⟩

/-- The parser finds the same definitions in two texts, but for their places, or fails on both. -/
def SameDefinitions : Except String Document → Except String Document → Prop
  | .ok ds, .ok ds' => ds'.map unplaced = ds.map unplaced
  | .error _, .error _ => True
  | _, _ => False

/-- Two texts with the same tokens, wherever these stand: they differ in spaces, line breaks, commas and comments. -/
def SameTokens (text text' : String) : Prop :=
  ∃ place place' ts ts', TokensOf place text.toList ts ∧ TokensOf place' text'.toList ts' ∧
    ts.map Prod.snd = ts'.map Prod.snd

/-- The text laid out in another way, with the same import lines. -/
structure Relaid (text text' : String) : Prop where
  imports : importsOf text' = importsOf text
  tokens : SameTokens text text'

/-- A file before and after: unreadable in both cases, or laid out in another way. -/
def RelaidRead : Except String String → Except String String → Prop
  | .ok text, .ok text' => text = text' ∨ Relaid text text'
  | .error e, .error e' => e = e'
  | _, _ => False

/-- The file system after documents that compiling `p` reads have been laid out in another way. -/
structure RelaidFor (cfg : CompileConfig) (w w' : World) (p : Path) : Prop where
  resolve : w'.resolve = w.resolve
  writeErr : w'.writeErr = w.writeErr
  files : ∀ q, Reads w cfg p q → RelaidRead (w.read q) (w'.read q)

/-- The results of compiling a file before and after: both never end, both crash, both fail with as many messages of
each severity, or both give the same text, with the same globals and as many messages of each severity. -/
def GeneratedSame : Option (PanicOr (Except (List Msg) (List Msg × Compile))) →
    Option (PanicOr (Except (List Msg) (List Msg × Compile))) → Prop
  | none, none => True
  | some .panic, some .panic => True
  | some (.done (.error ms)), some (.done (.error ms')) => (ms'.map Msg.level).Perm (ms.map Msg.level)
  | some (.done (.ok (ms, c))), some (.done (.ok (ms', c'))) =>
    (ms'.map Msg.level).Perm (ms.map Msg.level) ∧ c'.globalTypesUsed.Perm c.globalTypesUsed ∧ c'.contents = c.contents
  | _, _ => False

/-- The file system after documents of the project have been laid out in another way. -/
structure ProjectRelaid (cfg : CompileConfig) (root : Entry) (w w' : World) : Prop where
  resolve : w'.resolve = w.resolve
  writeErr : w'.writeErr = w.writeErr
  files : ∀ p q, FoundIn root p → Reads w cfg p q → RelaidRead (w.read q) (w'.read q)
  others : ∀ id, (∀ p q, FoundIn root p → Reads w cfg p q → w.resolve q ≠ id) → w'.disk id = w.disk id

end Qlc.Spec
