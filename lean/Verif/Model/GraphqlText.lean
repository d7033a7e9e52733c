import Verif.Model.Compile
import Verif.Model.JsonText
/-
Model of `graphql_parser::parse_query` (called in src/graphql.rs:71; external crate graphql-parser 0.4, Cargo.toml:20) as
a function from text to definitions, after the GraphQL specification (sections 2.1 to 2.12) and the documented grammar of
the crate: nothing but definitions, at least one, no directives on variables.

Simplifications: numbers and strings are kept as they are written, and other argument values as the texts of their
parts (qlc reads none of them).  How the crate counts lines and columns is a parameter (`place`), as is what it refuses
besides, such as deep nesting (`refuse`), and how it words an error (`say`).
-/
set_option autoImplicit false

namespace Qlc

/-- The crate's `Token`: the lexical tokens of GraphQL. -/
inductive GTok where
  | punct (c : Char)
  | dots
  | name (s : String)
  | number (text : String)
  | string (text : String)
  deriving DecidableEq, Repr

/-! ### Characters to tokens (graphql-parser, tokenizer.rs) -/

/-- Characters between tokens that mean nothing, commas among them (`skip_whitespace`). -/
def isIgnored (c : Char) : Bool := c = ' ' || c = '\t' || c = '\n' || c = '\r' || c = ',' || c = '﻿'

/-- `skip_whitespace`: what means nothing, comments among it; the flag says that a comment has begun. -/
def skipIgnored : Bool → List Char → List Char
  | _, [] => []
  | true, c :: r => if c = '\n' ∨ c = '\r' then skipIgnored false r else skipIgnored true r
  | false, c :: r =>
    if isIgnored c then skipIgnored false r else if c = '#' then skipIgnored true r else c :: r

/-- `take_token`: the characters that are tokens. -/
def isPunct (c : Char) : Bool := c ∈ ['!', '$', '&', '(', ')', ':', '=', '@', '[', ']', '{', '|', '}']

/-- A letter or underscore. -/
def isNameStart (c : Char) : Bool := decide (('a' ≤ c ∧ c ≤ 'z') ∨ ('A' ≤ c ∧ c ≤ 'Z') ∨ c = '_')

/-- A letter, underscore or digit. -/
def isNameChar (c : Char) : Bool := isNameStart c || isJsonDigit c

/-- The rest of a name. -/
def takeName : List Char → List Char × List Char
  | [] => ([], [])
  | c :: r => if isNameChar c then (c :: (takeName r).1, (takeName r).2) else ([], c :: r)

/-- The text does not go on with a number: no letter, digit or point. -/
def endsNumber : List Char → Bool
  | [] => true
  | c :: _ => !isNameChar c && decide (c ≠ '.')

/-- A number, as it is written; JSON has the same numbers. -/
def lexNumber (cs : List Char) : Option (GTok × List Char) :=
  match parseNumber cs with
  | none => none
  | some (_, r) =>
    if endsNumber r then some (.number (String.ofList (cs.take (cs.length - r.length))), r) else none

/-- A string after its opening quote: its characters as they are written, and what follows the closing quote.  The
number says where in an escape we are: 0 for not in one, 1 after the backslash, `k + 2` with `k + 1` hexadecimal digits
to come. -/
def lexString : Nat → List Char → Option (List Char × List Char)
  | _, [] => none
  | 0, c :: r =>
    if c = '"' then some ([], r)
    else if c = '\\' then (lexString 1 r).map (fun x => (c :: x.1, x.2))
    else if c = '\n' ∨ c = '\r' then none
    else (lexString 0 r).map (fun x => (c :: x.1, x.2))
  | 1, c :: r =>
    if c = 'u' then (lexString 5 r).map (fun x => (c :: x.1, x.2))
    else if (simpleEscape c).isSome then (lexString 0 r).map (fun x => (c :: x.1, x.2))
    else none
  | k + 2, c :: r =>
    if (hexValue c).isSome then (lexString (if k = 0 then 0 else k + 1) r).map (fun x => (c :: x.1, x.2)) else none

/-- Three quotes. -/
def tripleQuote : List Char := ['"', '"', '"']

/-- A block string after its three opening quotes; the number of characters is to be taken as they are. -/
def lexBlock : Nat → List Char → Option (List Char × List Char)
  | _, [] => none
  | k + 1, c :: r => (lexBlock k r).map (fun x => (c :: x.1, x.2))
  | 0, c :: r =>
    match parseWord tripleQuote (c :: r) with
    | some r' => some ([], r')
    | none =>
      (lexBlock (if (parseWord ('\\' :: tripleQuote) (c :: r)).isSome then 3 else 0) r).map (fun x => (c :: x.1, x.2))

/-- A string or block string after one quote. -/
def lexQuoted (cs : List Char) : Option (GTok × List Char) :=
  match parseWord ['"', '"'] cs with
  | some r => (lexBlock 0 r).map (fun x => (.string (String.ofList (tripleQuote ++ x.1 ++ tripleQuote)), x.2))
  | none => (lexString 0 cs).map (fun x => (.string (String.ofList ('"' :: x.1 ++ ['"'])), x.2))

/-- `take_token`. -/
def lexToken : List Char → Option (GTok × List Char)
  | [] => none
  | c :: r =>
    if isPunct c then some (.punct c, r)
    else if c = '.' then (parseWord ['.', '.'] r).map (fun r => (.dots, r))
    else if isNameStart c then some (.name (String.ofList (c :: (takeName r).1)), (takeName r).2)
    else if c = '-' ∨ isJsonDigit c then lexNumber (c :: r)
    else if c = '"' then lexQuoted r
    else none

/-- Tokens and where they begin. -/
abbrev Toks := List (Pos × GTok)

/-- All tokens of a text.  `place` gets the text from a token on. -/
def lexAll (place : List Char → Pos) : Nat → List Char → Option Toks
  | 0, _ => none
  | n + 1, cs =>
    match skipIgnored false cs with
    | [] => some []
    | c :: r =>
      match lexToken (c :: r) with
      | none => none
      | some (t, r') => (lexAll place n r').map (fun ts => (place (c :: r), t) :: ts)

/-! ### Tokens to definitions (graphql-parser, query/grammar.rs and common.rs) -/

/-- `punct`: this token. -/
def eat (t : GTok) : Toks → Option Toks
  | (_, t') :: r => if t' = t then some r else none
  | [] => none

/-- `name`. -/
def eatName : Toks → Option (String × Toks)
  | (_, .name s) :: r => some (s, r)
  | _ => none

/-- Between which brackets values stand. -/
inductive Bracket where
  | list | object | arguments
  deriving DecidableEq, Repr

/-- The closing bracket. -/
def Bracket.close : Bracket → Char
  | .list => ']'
  | .object => '}'
  | .arguments => ')'

/-- The text of a value. -/
def Value.text : Value → String
  | .var n => "$" ++ n
  | .bool b => if b then "true" else "false"
  | .other t => t

/-- The text of the values in a list or object. -/
def valuesText (vs : List (String × Value)) : String := joinWith " " (vs.map (fun v => v.1 ++ v.2.text))

/-- A word as a value: `true`, `false`, `null` or a value of an enum. -/
def wordValue (s : String) : Value :=
  if s = "true" then .bool true else if s = "false" then .bool false else .other s

/-- What stands before a value: nothing in a list, otherwise a name and a colon. -/
def eatKey (b : Bracket) (ts : Toks) : Option (String × Toks) :=
  match b with
  | .list => some ("", ts)
  | _ =>
    match eatName ts with
    | none => none
    | some (k, r) => (eat (.punct ':') r).map (fun r => (k, r))

/-- common.rs `value` and `default_value` (which has no variables), given how to read what stands between brackets. -/
def parseGValue (const : Bool) (inside : Bracket → Toks → Option (List (String × Value) × Toks)) :
    Toks → Option (Value × Toks)
  | (_, .name s) :: r => some (wordValue s, r)
  | (_, .number s) :: r => some (.other s, r)
  | (_, .string s) :: r => some (.other s, r)
  | (_, .punct c) :: r =>
    if c = '$' then if const then none else (eatName r).map (fun x => (.var x.1, x.2))
    else if c = '[' then (inside .list r).map (fun x => (.other ("[" ++ valuesText x.1 ++ "]"), x.2))
    else if c = '{' then (inside .object r).map (fun x => (.other ("{" ++ valuesText x.1 ++ "}"), x.2))
    else none
  | _ => none

/-- What stands between brackets, up to the closing one. -/
def parseInside (const : Bool) : Nat → Bracket → Toks → Option (List (String × Value) × Toks)
  | 0, _, _ => none
  | n + 1, b, ts =>
    match eat (.punct b.close) ts with
    | some r => some ([], r)
    | none =>
      match eatKey b ts with
      | none => none
      | some (k, r) =>
        match parseGValue const (parseInside const n) r with
        | none => none
        | some (v, r) => (parseInside const n b r).map (fun x => ((k, v) :: x.1, x.2))

/-- common.rs `arguments`: nothing, or at least one argument between parentheses. -/
def parseArguments (ts : Toks) : Option (List (String × Value) × Toks) :=
  match eat (.punct '(') ts with
  | none => some ([], ts)
  | some r =>
    match parseInside false (r.length + 1) .arguments r with
    | none => none
    | some (args, r) => if args = [] then none else some (args, r)

/-- common.rs `directives`. -/
def parseDirectives : Nat → Toks → Option (List Directive × Toks)
  | 0, _ => none
  | n + 1, ts =>
    match eat (.punct '@') ts with
    | none => some ([], ts)
    | some r =>
      match eatName r with
      | none => none
      | some (name, r) =>
        match parseArguments r with
        | none => none
        | some (args, r) => (parseDirectives n r).map (fun x => (⟨name, args⟩ :: x.1, x.2))

/-- How a selection begins. -/
inductive SelHead where
  /-- A field; a selection set may follow. -/
  | field (pos : Pos) (al : Option String) (name : String) (args : List (String × Value)) (dirs : List Directive)
  /-- An inline fragment; a selection set must follow. -/
  | inline (pos : Pos) (cond : Option String) (dirs : List Directive)
  | spread (pos : Pos) (name : String) (dirs : List Directive)

/-- grammar.rs `field`: alias and name, after the first name. -/
def parseFieldName (first : String) (ts : Toks) : Option (Option String × String × Toks) :=
  match eat (.punct ':') ts with
  | none => some (none, first, ts)
  | some r =>
    match eatName r with
    | none => none
    | some (name, r) => some (some first, name, r)

/-- grammar.rs `field`, before the selection set: after the first name. -/
def parseFieldHead (pos : Pos) (first : String) (ts : Toks) : Option (SelHead × Toks) :=
  match parseFieldName first ts with
  | none => none
  | some (al, name, r) =>
    match parseArguments r with
    | none => none
    | some (args, r) =>
      match parseDirectives (r.length + 1) r with
      | none => none
      | some (dirs, r) => some (.field pos al name args dirs, r)

/-- `combine::position`: where the next token stands; if there is none, the place given. -/
def nextPos (pos : Pos) : Toks → Pos
  | [] => pos
  | (p, _) :: _ => p

/-- grammar.rs `selection`, after the three dots, before the selection set; `pos` is where the next token stands. -/
def parseDotsHead (pos : Pos) (ts : Toks) : Option (SelHead × Toks) :=
  match eatName ts with
  | none =>
    match parseDirectives (ts.length + 1) ts with
    | none => none
    | some (dirs, r) => some (.inline pos none dirs, r)
  | some (n, r) =>
    if n = "on" then
      match eatName r with
      | none => none
      | some (c, r) =>
        match parseDirectives (r.length + 1) r with
        | none => none
        | some (dirs, r) => some (.inline pos (some c) dirs, r)
    else
      match parseDirectives (r.length + 1) r with
      | none => none
      | some (dirs, r) => some (.spread pos n dirs, r)

/-- grammar.rs `selection`, before the selection set. -/
def parseSelHead : Toks → Option (SelHead × Toks)
  | (pos, .name s) :: r => parseFieldHead pos s r
  | (pos, .dots) :: r => parseDotsHead (nextPos pos r) r
  | _ => none

/-- grammar.rs `selection`, from its beginning and the way to read a selection set after its opening brace. -/
def finishSel (inside : Toks → Option (List Selection × Toks)) : SelHead → Toks → Option (Selection × Toks)
  | .field pos al name args dirs, ts =>
    match eat (.punct '{') ts with
    | none => some (.field pos al name args dirs [], ts)
    | some r => (inside r).map (fun x => (.field pos al name args dirs x.1, x.2))
  | .inline pos cond dirs, ts =>
    match eat (.punct '{') ts with
    | none => none
    | some r => (inside r).map (fun x => (.inline pos cond dirs x.1, x.2))
  | .spread pos name dirs, ts => some (.spread pos name dirs, ts)

/-- grammar.rs `selection_set`, after the opening brace: at least one selection and the closing brace. -/
def parseSelections : Nat → Toks → Option (List Selection × Toks)
  | 0, _ => none
  | n + 1, ts =>
    match parseSelHead ts with
    | none => none
    | some (h, r) =>
      match finishSel (parseSelections n) h r with
      | none => none
      | some (s, r) =>
        match eat (.punct '}') r with
        | some r => some ([s], r)
        | none => (parseSelections n r).map (fun x => (s :: x.1, x.2))

/-- grammar.rs `selection_set`. -/
def parseSelectionSet (ts : Toks) : Option (List Selection × Toks) :=
  match eat (.punct '{') ts with
  | none => none
  | some r => parseSelections (r.length + 1) r

/-- common.rs `parse_type`: an exclamation mark, if there is one. -/
def parseBang (t : VarTy) (ts : Toks) : VarTy × Toks :=
  match eat (.punct '!') ts with
  | none => (t, ts)
  | some r => (.nonNull t, r)

/-- common.rs `parse_type`. -/
def parseType : Nat → Toks → Option (VarTy × Toks)
  | 0, _ => none
  | n + 1, ts =>
    match eatName ts with
    | some (s, r) => some (parseBang (.named s) r)
    | none =>
      match eat (.punct '[') ts with
      | none => none
      | some r =>
        match parseType n r with
        | none => none
        | some (t, r) => (eat (.punct ']') r).map (fun r => parseBang (.list t) r)

/-- grammar.rs `variable_definition`: the default value, if there is one. -/
def parseDefault (ts : Toks) : Option (Option Value × Toks) :=
  match eat (.punct '=') ts with
  | none => some (none, ts)
  | some r => (parseGValue true (parseInside true (r.length + 1)) r).map (fun x => (some x.1, x.2))

/-- grammar.rs `variable_definition`, after the dollar sign. -/
def parseVarDef (pos : Pos) (ts : Toks) : Option (VarDef × Toks) :=
  match eatName ts with
  | none => none
  | some (name, r) =>
    match eat (.punct ':') r with
    | none => none
    | some r =>
      match parseType (r.length + 1) r with
      | none => none
      | some (t, r) => (parseDefault r).map (fun x => (⟨pos, name, t, x.1⟩, x.2))

/-- grammar.rs `variable_definitions`, after the opening parenthesis: at least one variable, and the closing one. -/
def parseVarDefs : Nat → Toks → Option (List VarDef × Toks)
  | n + 1, (pos, .punct c) :: r =>
    if c = '$' then
      match parseVarDef pos r with
      | none => none
      | some (v, r) =>
        match eat (.punct ')') r with
        | some r => some ([v], r)
        | none => (parseVarDefs n r).map (fun x => (v :: x.1, x.2))
    else none
  | _, _ => none

/-- The name of an operation, if it has one. -/
def parseOpName (ts : Toks) : Option String × Toks :=
  match eatName ts with
  | none => (none, ts)
  | some (s, r) => (some s, r)

/-- grammar.rs `operation_common`: the variables, if there are any. -/
def parseVariables (ts : Toks) : Option (List VarDef × Toks) :=
  match eat (.punct '(') ts with
  | none => some ([], ts)
  | some r => parseVarDefs (r.length + 1) r

/-- grammar.rs `query`, `mutation` and `subscription`, after the keyword. -/
def parseOperation (kw : OpKeyword) (pos : Pos) (ts : Toks) : Option (Definition × Toks) :=
  match parseVariables (parseOpName ts).2 with
  | none => none
  | some (vars, r) =>
    match parseDirectives (r.length + 1) r with
    | none => none
    | some (dirs, r) =>
      (parseSelectionSet r).map (fun x => (.operation kw pos (parseOpName ts).1 vars dirs x.1, x.2))

/-- grammar.rs `fragment_definition`, after the keyword. -/
def parseFragment (pos : Pos) (ts : Toks) : Option (Definition × Toks) :=
  match eatName ts with
  | none => none
  | some (name, r) =>
    match eat (.name "on") r with
    | none => none
    | some r =>
      match eatName r with
      | none => none
      | some (cond, r) =>
        match parseDirectives (r.length + 1) r with
        | none => none
        | some (dirs, r) =>
          (parseSelectionSet r).map (fun x => (.fragment ⟨pos, name, cond, dirs, x.1⟩, x.2))

/-- grammar.rs `definition`. -/
def parseDefinition : Toks → Option (Definition × Toks)
  | (pos, .name s) :: r =>
    if s = "query" then parseOperation .query pos r
    else if s = "mutation" then parseOperation .mutation pos r
    else if s = "subscription" then parseOperation .subscription pos r
    else if s = "fragment" then parseFragment pos r
    else none
  | (pos, .punct c) :: r =>
    (parseSelectionSet ((pos, .punct c) :: r)).map (fun x => (.selectionSet pos x.1, x.2))
  | _ => none

/-- grammar.rs `parse_query`: one definition or more, and nothing else. -/
def parseDefinitions : Nat → Toks → Option Document
  | 0, _ => none
  | n + 1, ts =>
    match parseDefinition ts with
    | none => none
    | some (d, r) => if r = [] then some [d] else (parseDefinitions n r).map (fun ds => d :: ds)

/-- What the external parser leaves open: where a token is said to be (from the text and its rest), which documents
are refused besides, and the wording of errors. -/
structure ParserSetup where
  place : List Char → List Char → Pos
  refuse : List GTok → Bool
  say : String → String

/-- graphql.rs:71 `graphql_parser::parse_query`. -/
def parseQuery (P : ParserSetup) (text : String) : Except String Document :=
  match lexAll (P.place text.toList) (text.toList.length + 1) text.toList with
  | none => .error (P.say text)
  | some ts =>
    if P.refuse (ts.map Prod.snd) then .error (P.say text)
    else
      match parseDefinitions (ts.length + 1) ts with
      | none => .error (P.say text)
      | some ds => .ok ds

/-- The external functions with this parser. -/
def Ext.graphql (P : ParserSetup) (dist : String → String → Nat) : Ext := ⟨parseQuery P, dist⟩

end Qlc
