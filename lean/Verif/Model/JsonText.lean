import Verif.Model.Json
/-
Model of `serde_json::from_reader` (used in src/graphql/schema/json.rs:48-52 and src/cli.rs:361) as a function from
text to JSON trees, after RFC 8259 and the documented behaviour of serde_json 1: nothing but white space may follow
the value, control characters must be escaped, surrogates must come in pairs, and arrays and objects may be nested
127 levels deep.

Simplification: serde_json reads a value that no field asks for without building it, and then neither pairs
surrogates nor counts levels; here the whole text is held to the same rules.
-/
set_option autoImplicit false

namespace Qlc

/-- serde_json `parse_whitespace`, used by json.rs:49 and cli.rs:361: white space. -/
def isJsonSpace (c : Char) : Bool := c = ' ' || c = '\n' || c = '\t' || c = '\r'

/-- serde_json `parse_whitespace`. -/
def skipSpace : List Char → List Char
  | [] => []
  | c :: r => if isJsonSpace c then skipSpace r else c :: r

/-- serde_json `decode_hex_val`: the value of a hexadecimal digit, in either case. -/
def hexValue (c : Char) : Option Nat :=
  if '0' ≤ c ∧ c ≤ '9' then some (c.toNat - '0'.toNat)
  else if 'a' ≤ c ∧ c ≤ 'f' then some (c.toNat - 'a'.toNat + 10)
  else if 'A' ≤ c ∧ c ≤ 'F' then some (c.toNat - 'A'.toNat + 10)
  else none

/-- serde_json `decode_hex_escape`: four hexadecimal digits. -/
def hex4 : List Char → Option (Nat × List Char)
  | a :: b :: c :: d :: r =>
    match hexValue a, hexValue b, hexValue c, hexValue d with
    | some a, some b, some c, some d => some (a * 4096 + b * 256 + c * 16 + d, r)
    | _, _, _, _ => none
  | _ => none

/-- serde_json `parse_escape`: the escapes of one letter. -/
def simpleEscape (c : Char) : Option Char :=
  if c = '"' then some '"' else if c = '\\' then some '\\' else if c = '/' then some '/'
  else if c = 'b' then some '\x08' else if c = 'f' then some '\x0c' else if c = 'n' then some '\n'
  else if c = 'r' then some '\r' else if c = 't' then some '\t' else none

/-- serde_json `parse_unicode_escape`: what follows `\u`; a leading surrogate must be followed by an escaped trailing
one, and a trailing one must not stand alone. -/
def unicodeEscape (r : List Char) : Option (Char × List Char) :=
  match hex4 r with
  | none => none
  | some (n, r) =>
    if 0xDC00 ≤ n ∧ n ≤ 0xDFFF then none
    else if 0xD800 ≤ n ∧ n ≤ 0xDBFF then
      match r with
      | a :: b :: r =>
        if a = '\\' ∧ b = 'u' then
          match hex4 r with
          | none => none
          | some (m, r) =>
            if 0xDC00 ≤ m ∧ m ≤ 0xDFFF then some (Char.ofNat (0x10000 + (n - 0xD800) * 0x400 + (m - 0xDC00)), r)
            else none
        else none
      | _ => none
    else some (Char.ofNat n, r)

/-- serde_json `parse_str`, after the opening quote. -/
def parseStr : Nat → List Char → Option (List Char × List Char)
  | 0, _ => none
  | _, [] => none
  | fuel + 1, c :: r =>
    if c = '"' then some ([], r)
    else if c = '\\' then
      match r with
      | [] => none
      | e :: r =>
        if e = 'u' then
          match unicodeEscape r with
          | none => none
          | some (x, r) =>
            match parseStr fuel r with
            | none => none
            | some (s, r) => some (x :: s, r)
        else
          match simpleEscape e with
          | none => none
          | some x =>
            match parseStr fuel r with
            | none => none
            | some (s, r) => some (x :: s, r)
    else if c.toNat < 0x20 then none
    else
      match parseStr fuel r with
      | none => none
      | some (s, r) => some (c :: s, r)

/-- A decimal digit. -/
def isJsonDigit (c : Char) : Bool := decide ('0' ≤ c ∧ c ≤ '9')

/-- The digits at the beginning of a text. -/
def takeDigits : List Char → List Char × List Char
  | [] => ([], [])
  | c :: r => if isJsonDigit c then (c :: (takeDigits r).1, (takeDigits r).2) else ([], c :: r)

/-- The number that digits mean. -/
def digitsValue (cs : List Char) : Nat := cs.foldl (fun n c => n * 10 + (c.toNat - '0'.toNat)) 0

/-- serde_json `parse_integer`: digits, without a leading zero. -/
def parseInt (cs : List Char) : Option (List Char × List Char) :=
  match takeDigits cs with
  | ([], _) => none
  | (d :: ds, r) => if d = '0' ∧ ds ≠ [] then none else some (d :: ds, r)

/-- serde_json `parse_decimal`: a point and digits, if there is a point. -/
def parseFraction : List Char → Option (List Char × List Char)
  | '.' :: r =>
    match takeDigits r with
    | ([], _) => none
    | (ds, r) => some ('.' :: ds, r)
  | r => some ([], r)

/-- The sign of an exponent. -/
def parseExponentSign : List Char → List Char × List Char
  | '+' :: r => (['+'], r)
  | '-' :: r => (['-'], r)
  | r => ([], r)

/-- serde_json `parse_exponent`: `e` or `E`, a sign perhaps, and digits, if there is an `e` or `E`. -/
def parseExponent : List Char → Option (List Char × List Char)
  | [] => some ([], [])
  | c :: r =>
    if c = 'e' ∨ c = 'E' then
      match takeDigits (parseExponentSign r).2 with
      | ([], _) => none
      | (ds, r') => some (c :: (parseExponentSign r).1 ++ ds, r')
    else some ([], c :: r)

/-- The sign of a number. -/
def parseMinus : List Char → List Char × List Char
  | '-' :: r => (['-'], r)
  | r => ([], r)

/-- serde_json `parse_any_number`. -/
def parseNumber (cs : List Char) : Option (Json × List Char) :=
  match parseInt (parseMinus cs).2 with
  | none => none
  | some (ds, r) =>
    match parseFraction r with
    | none => none
    | some (fr, r) =>
      match parseExponent r with
      | none => none
      | some (ex, r) =>
        if (parseMinus cs).1 = [] ∧ fr = [] ∧ ex = [] then some (.nat (digitsValue ds), r)
        else some (.num (String.ofList ((parseMinus cs).1 ++ ds ++ fr ++ ex)), r)

/-- serde_json `parse_ident`: the rest of a word. -/
def parseWord : List Char → List Char → Option (List Char)
  | [], r => some r
  | _ :: _, [] => none
  | c :: cs, d :: r => if c = d then parseWord cs r else none

mutual
/-- serde_json `deserialize_any`: white space and a value; `depth` is `remaining_depth`. -/
def parseValue : Nat → Nat → List Char → Option (Json × List Char)
  | 0, _, _ => none
  | fuel + 1, depth, cs =>
    match skipSpace cs with
    | [] => none
    | c :: r =>
      if c = 'n' then (parseWord "ull".toList r).map (fun r => (.null, r))
      else if c = 't' then (parseWord "rue".toList r).map (fun r => (.bool true, r))
      else if c = 'f' then (parseWord "alse".toList r).map (fun r => (.bool false, r))
      else if c = '"' then (parseStr fuel r).map (fun x => (.str (String.ofList x.1), x.2))
      else if c = '[' then
        if depth ≤ 1 then none
        else
          match skipSpace r with
          | [] => none
          | c' :: r' =>
            if c' = ']' then some (.arr [], r')
            else (parseItems fuel (depth - 1) (c' :: r')).map (fun x => (.arr x.1, x.2))
      else if c = '{' then
        if depth ≤ 1 then none
        else
          match skipSpace r with
          | [] => none
          | c' :: r' =>
            if c' = '}' then some (.obj [], r')
            else (parseMembers fuel (depth - 1) (c' :: r')).map (fun x => (.obj x.1, x.2))
      else parseNumber (c :: r)
/-- serde_json `SeqAccess`: one or more values up to the closing bracket. -/
def parseItems : Nat → Nat → List Char → Option (List Json × List Char)
  | 0, _, _ => none
  | fuel + 1, depth, cs =>
    match parseValue fuel depth cs with
    | none => none
    | some (j, r) =>
      match skipSpace r with
      | [] => none
      | c :: r =>
        if c = ']' then some ([j], r)
        else if c = ',' then (parseItems fuel depth r).map (fun x => (j :: x.1, x.2))
        else none
/-- serde_json `MapAccess`: one or more members up to the closing brace. -/
def parseMembers : Nat → Nat → List Char → Option (List (String × Json) × List Char)
  | 0, _, _ => none
  | fuel + 1, depth, cs =>
    match skipSpace cs with
    | [] => none
    | q :: r =>
      if q = '"' then
        match parseStr fuel r with
        | none => none
        | some (k, r) =>
          match skipSpace r with
          | [] => none
          | c :: r =>
            if c = ':' then
              match parseValue fuel depth r with
              | none => none
              | some (j, r) =>
                match skipSpace r with
                | [] => none
                | c :: r =>
                  if c = '}' then some ([(String.ofList k, j)], r)
                  else if c = ',' then
                    (parseMembers fuel depth r).map (fun x => ((String.ofList k, j) :: x.1, x.2))
                  else none
            else none
      else none
end

/-- `serde_json::from_reader` (json.rs:49, cli.rs:361): one value and white space. -/
def parseJson (cs : List Char) : Option Json :=
  match parseValue (2 * cs.length + 2) 128 cs with
  | none => none
  | some (j, r) => if skipSpace r = [] then some j else none

/-- What the program sees of a file that can be opened, as bytes (json.rs:48-52, cli.rs:361).  `say` is serde_json's
wording of the error. -/
def JsonFile.ofBytes (say : List UInt8 → String) (bytes : List UInt8) : JsonFile :=
  match String.fromUTF8? bytes.toByteArray with
  | none => .syntaxError (say bytes)
  | some s =>
    match parseJson s.toList with
    | none => .syntaxError (say bytes)
    | some j => .tree j (say bytes)

/-- What opening a file (schema.rs:205-209, cli.rs:360-391) yields. -/
inductive FileRead where
  | notFound (err : String)
  | ioError (err : String)
  | bytes (bs : List UInt8)

/-- Reading an opened file as JSON (json.rs:48-52, cli.rs:361). -/
def FileRead.asJson (say : List UInt8 → String) : FileRead → JsonFile
  | .notFound e => .notFound e
  | .ioError e => .ioError e
  | .bytes bs => JsonFile.ofBytes say bs

end Qlc
