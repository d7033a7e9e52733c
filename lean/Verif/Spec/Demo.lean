import Verif.Model.Main
/-
A concrete schema, document and file system, used by the examples that show that the hypotheses of the
theorems can be met.
-/
set_option autoImplicit false

namespace Qlc.Demo

/-- A named type reference. -/
def t (kind name : String) : JFieldType := .mk kind (some name) none
/-- `x!`. -/
def nn (x : JFieldType) : JFieldType := .mk "NON_NULL" none (some x)
/-- `[x]`. -/
def li (x : JFieldType) : JFieldType := .mk "LIST" none (some x)
/-- A field without documentation. -/
def fld (name : String) (ty : JFieldType) : JField := ⟨name, none, ty, none⟩

/-- Introspection data of the demo schema. -/
def json : JSchema := ⟨[
  ⟨"OBJECT", "Query", none, none, none, some [
    fld "node" (t "INTERFACE" "Node"), fld "viewer" (nn (t "OBJECT" "User")),
    fld "search" (nn (li (nn (t "UNION" "Result")))), fld "count" (nn (t "SCALAR" "Int"))], none⟩,
  ⟨"OBJECT", "Mutation", none, none, none, some [fld "touch" (t "OBJECT" "User")], none⟩,
  ⟨"INTERFACE", "Node", none, some ["User", "Bot"], none, some [
    fld "id" (nn (t "SCALAR" "ID")), fld "name" (t "SCALAR" "String")], none⟩,
  ⟨"OBJECT", "User", some "A user", none, none, some [
    fld "id" (nn (t "SCALAR" "ID")), fld "name" (t "SCALAR" "String"),
    fld "role" (nn (t "ENUM" "Role")), fld "friends" (nn (li (nn (t "OBJECT" "User")))),
    ⟨"old", some "gone", t "SCALAR" "Date", some true⟩], none⟩,
  ⟨"OBJECT", "Bot", none, none, none, some [
    fld "id" (nn (t "SCALAR" "ID")), fld "name" (t "SCALAR" "String"),
    fld "owner" (t "OBJECT" "User")], none⟩,
  ⟨"UNION", "Result", none, some ["User", "Bot"], none, none, none⟩,
  ⟨"ENUM", "Role", some "Roles", none, none, none, some ["GUEST", "ADMIN"]⟩,
  ⟨"INPUT_OBJECT", "Filter", none, none, some [
    fld "role" (t "ENUM" "Role"), fld "page" (nn (t "INPUT_OBJECT" "Page"))], none, none⟩,
  ⟨"INPUT_OBJECT", "Page", none, none, some [fld "size" (t "SCALAR" "Int")], none, none⟩,
  ⟨"SCALAR", "Date", none, none, none, none, none⟩,
  ⟨"SCALAR", "Int", none, none, none, none, none⟩]⟩

/-- The demo schema. -/
def schema : Schema := match Schema.ofJson json with | .ok s => s | .error _ => []

/-- A leaf field selection. -/
def leaf (line col : Nat) (name : String) : Selection := .field ⟨line, col⟩ none name [] [] []

/-- `fragment F on Node { name }`. -/
def fragF : FragmentDef := ⟨⟨1, 1⟩, "F", "Node", [], [leaf 1 20 "name"]⟩

/-- The selections of the demo query. -/
def items : List Selection := [
  .field ⟨3, 3⟩ none "node" [] [] [leaf 4 5 "__typename", leaf 5 5 "id", .spread ⟨6, 8⟩ "F" [],
    .inline ⟨7, 9⟩ (some "User") [] [leaf 7 19 "role", leaf 7 24 "old"]],
  .field ⟨8, 3⟩ (some "me") "viewer" [] [] [.field ⟨8, 15⟩ none "friends" [] [] [leaf 8 25 "id"]]]

/-- `query Q($f: Filter, $n: Int!) { … }`. -/
def query : Definition := .operation .query ⟨2, 1⟩ (some "Q")
  [⟨⟨2, 9⟩, "n", .nonNull (.named "Int"), none⟩, ⟨⟨2, 20⟩, "f", .named "Filter", none⟩] [] items

/-- The context with the fragment in scope. -/
def ctx : Ctx := ⟨schema, true, [("F", fragF)]⟩

/-- Compile configuration: root `/r`. -/
def cfg : CompileConfig :=
  { bottomTypeConfig := .realName, useReadonlyTypes := true, globalTypesModuleName := "globals"
    typedGraphqlDocumentnodeModuleName := "doc", rootDir := ⟨true, ["r"]⟩
    showDeprecationWarnings := true, rootDirImportPrefix := none }

/-- A stand-in for the parser on the two demo files. -/
def ext : Ext where
  parse := fun c =>
    if c = "#import \"f.graphql\"\n#import \"m.graphql\"\nquery Q" then .ok [query]
    else if c = "fragment F" then .ok [.fragment fragF]
    else .error "syntax error"
  dist := fun a b => if a = b then 0 else 9

/-- The demo file system: `/r/q.graphql` imports `/r/f.graphql` and a missing file. -/
def world : World where
  resolve := Path.display
  disk := fun id =>
    if id = "/r/q.graphql" then .ok "#import \"f.graphql\"\n#import \"m.graphql\"\nquery Q"
    else if id = "/r/f.graphql" then .ok "fragment F"
    else .error "missing"
  writeErr := fun _ => none

/-- The query file. -/
def qPath : Path := ⟨true, ["r", "q.graphql"]⟩

/-- Text of the generated file, if any (for `#eval` and examples). -/
def output : Option String :=
  match compileFile .inOrder 5 ext cfg schema world qPath with
  | some (.done r) => match r.world.disk "/r/q.graphql.d.ts" with | .ok s => some s | _ => none
  | _ => none

end Qlc.Demo

namespace Qlc.Demo

/-- Introspection data in which an implementation narrows the type of an interface field. -/
def covJson : JSchema := ⟨[
  ⟨"OBJECT", "Query", none, none, none, some [fld "node" (t "INTERFACE" "Node")], none⟩,
  ⟨"INTERFACE", "Node", none, some ["User"], none, some [fld "owner" (t "INTERFACE" "Node")], none⟩,
  ⟨"OBJECT", "User", none, none, none, some [
    fld "owner" (t "OBJECT" "User"), fld "name" (t "SCALAR" "String")], none⟩]⟩

/-- The schema with a narrowed field type. -/
def covSchema : Schema := match Schema.ofJson covJson with | .ok s => s | .error _ => []

/-- `query { node { owner { __typename } ... on User { owner { name } } } }`, valid GraphQL. -/
def covQuery : Definition := .operation .query ⟨1, 1⟩ none [] []
  [.field ⟨2, 1⟩ none "node" [] [] [
    .field ⟨3, 1⟩ none "owner" [] [] [leaf 3 9 "__typename"],
    .inline ⟨4, 1⟩ (some "User") [] [.field ⟨4, 9⟩ none "owner" [] [] [leaf 4 17 "name"]]]]

/-- Introspection data with underscores in field names. -/
def usJson : JSchema := ⟨[
  ⟨"OBJECT", "Query", none, none, none, some [fld "a" (t "OBJECT" "A"), fld "a_b" (t "OBJECT" "B")], none⟩,
  ⟨"OBJECT", "A", none, none, none, some [fld "b_c" (t "OBJECT" "C")], none⟩,
  ⟨"OBJECT", "B", none, none, none, some [fld "c" (t "OBJECT" "D")], none⟩,
  ⟨"OBJECT", "C", none, none, none, some [fld "x" (t "SCALAR" "Int")], none⟩,
  ⟨"OBJECT", "D", none, none, none, some [fld "y" (t "SCALAR" "Int")], none⟩]⟩

/-- The schema with underscores in field names. -/
def usSchema : Schema := match Schema.ofJson usJson with | .ok s => s | .error _ => []

/-- `query Q { a { b_c { x } } a_b { c { y } } }`. -/
def usQuery : Definition := .operation .query ⟨1, 1⟩ (some "Q") [] [] [
  .field ⟨2, 1⟩ none "a" [] [] [.field ⟨2, 5⟩ none "b_c" [] [] [leaf 2 11 "x"]],
  .field ⟨3, 1⟩ none "a_b" [] [] [.field ⟨3, 7⟩ none "c" [] [] [leaf 3 11 "y"]]]

/-- The text of a compiled definition. -/
def textOf (cfg : TsConfig) (schema : Schema) (frags : AMap String FragmentDef) (d : Definition) :
    Option String :=
  match Operation.compile .inOrder 9 ⟨schema, false, frags⟩ d with
  | some (.ok op, _) =>
    match compileIr .inOrder op cfg schema with
    | .ok c => some c.contents
    | .error _ => none
  | _ => none

/-- Code generation settings. -/
def tsCfg : TsConfig := ⟨true, .realName, "globals", "doc"⟩

end Qlc.Demo

namespace Qlc.Demo

/-- The demo introspection data, with all built-in scalars listed. -/
def respJson : JSchema := ⟨json.types ++ [⟨"SCALAR", "String", none, none, none, none, none⟩,
  ⟨"SCALAR", "ID", none, none, none, none, none⟩]⟩

/-- The schema loaded from it. -/
def respSchema : Schema := match Schema.ofJson respJson with | .ok s => s | .error _ => []

/-- Introspection data in which two object types have a field of the same composite type. -/
def mergeJson : JSchema := ⟨[
  ⟨"OBJECT", "Query", none, none, none, some [fld "node" (nn (t "INTERFACE" "Node"))], none⟩,
  ⟨"INTERFACE", "Node", none, some ["User", "Bot"], none, some [fld "id" (nn (t "SCALAR" "ID"))], none⟩,
  ⟨"OBJECT", "User", none, none, none, some [fld "id" (nn (t "SCALAR" "ID")),
    fld "name" (nn (t "SCALAR" "String")), fld "link" (nn (t "OBJECT" "User"))], none⟩,
  ⟨"OBJECT", "Bot", none, none, none, some [fld "id" (nn (t "SCALAR" "ID")),
    fld "link" (nn (t "OBJECT" "User"))], none⟩,
  ⟨"SCALAR", "String", none, none, none, none, none⟩,
  ⟨"SCALAR", "ID", none, none, none, none, none⟩]⟩

/-- The schema loaded from it. -/
def mergeSchema : Schema := match Schema.ofJson mergeJson with | .ok s => s | .error _ => []

/-- `query Q { node { ... on Bot { link { id } } ... on User { link { name } } } }`. -/
def mergeQuery : Definition := .operation .query ⟨1, 1⟩ (some "Q") [] [] [
  .field ⟨2, 1⟩ none "node" [] [] [
    .inline ⟨3, 1⟩ (some "Bot") [] [.field ⟨3, 9⟩ none "link" [] [] [leaf 3 16 "id"]],
    .inline ⟨4, 1⟩ (some "User") [] [.field ⟨4, 9⟩ none "link" [] [] [leaf 4 16 "name"]]]]

/-- `query Q { node { id @skip(if: true) } }`. -/
def skippedQuery : Definition := .operation .query ⟨1, 1⟩ (some "Q") [] [] [
  .field ⟨2, 1⟩ none "node" [] [] [
    .field ⟨3, 1⟩ none "id" [] [⟨"skip", [("if", .bool true)]⟩] []]]

end Qlc.Demo

namespace Qlc.Demo

/-- Introspection data with an interface that nothing implements. -/
def voidJson : JSchema := ⟨[
  ⟨"OBJECT", "Query", none, none, none, some [fld "node" (t "INTERFACE" "Void")], none⟩,
  ⟨"INTERFACE", "Void", none, some [], none, some [fld "id" (t "SCALAR" "ID")], none⟩]⟩

/-- The schema with an interface that nothing implements. -/
def voidSchema : Schema := match Schema.ofJson voidJson with | .ok s => s | .error _ => []

/-- `query Q { node { id } }`. -/
def voidQuery : Definition := .operation .query ⟨1, 1⟩ (some "Q") [] []
  [.field ⟨2, 1⟩ none "node" [] [] [leaf 2 8 "id"]]

end Qlc.Demo

namespace Qlc.Demo

/-- The demo query, tidied: the import is gone, `me` comes first, the spread is written out, `id` is asked for
twice, and the fragment on `User` is split. -/
def tidyQuery : Definition := .operation .query ⟨1, 1⟩ (some "Q")
  [⟨⟨1, 9⟩, "n", .nonNull (.named "Int"), none⟩, ⟨⟨1, 20⟩, "f", .named "Filter", none⟩] [] [
  .field ⟨2, 3⟩ (some "me") "viewer" [] [] [.field ⟨8, 15⟩ none "friends" [] [] [leaf 8 25 "id"]],
  .field ⟨3, 3⟩ none "node" [] [] [leaf 4 5 "__typename", leaf 5 5 "id", leaf 5 5 "id", leaf 1 20 "name",
    .inline ⟨7, 9⟩ (some "User") [] [leaf 7 19 "role"], .inline ⟨8, 5⟩ (some "User") [] [leaf 7 24 "old"]]]

/-- The demo introspection data after the schema has grown: a new type, a new field, a new enum value and a new
input field. -/
def grownJson : JSchema := ⟨[
  ⟨"OBJECT", "Team", none, none, none, some [fld "members" (nn (li (nn (t "OBJECT" "User"))))], none⟩,
  ⟨"OBJECT", "Query", none, none, none, some [
    fld "team" (t "OBJECT" "Team"),
    fld "node" (t "INTERFACE" "Node"), fld "viewer" (nn (t "OBJECT" "User")),
    fld "search" (nn (li (nn (t "UNION" "Result")))), fld "count" (nn (t "SCALAR" "Int"))], none⟩,
  ⟨"OBJECT", "Mutation", none, none, none, some [fld "touch" (t "OBJECT" "User")], none⟩,
  ⟨"INTERFACE", "Node", none, some ["Bot", "User"], none, some [
    fld "id" (nn (t "SCALAR" "ID")), fld "name" (t "SCALAR" "String")], none⟩,
  ⟨"OBJECT", "User", some "A user", none, none, some [
    fld "id" (nn (t "SCALAR" "ID")), fld "name" (t "SCALAR" "String"),
    fld "role" (nn (t "ENUM" "Role")), fld "friends" (nn (li (nn (t "OBJECT" "User")))),
    ⟨"old", some "gone", t "SCALAR" "Date", some true⟩, fld "team" (t "OBJECT" "Team")], none⟩,
  ⟨"OBJECT", "Bot", none, none, none, some [
    fld "id" (nn (t "SCALAR" "ID")), fld "name" (t "SCALAR" "String"),
    fld "owner" (t "OBJECT" "User")], none⟩,
  ⟨"UNION", "Result", none, some ["User", "Bot"], none, none, none⟩,
  ⟨"ENUM", "Role", some "Roles", none, none, none, some ["GUEST", "ADMIN", "OWNER"]⟩,
  ⟨"INPUT_OBJECT", "Filter", none, none, some [
    fld "role" (t "ENUM" "Role"), fld "team" (t "SCALAR" "ID"), fld "page" (nn (t "INPUT_OBJECT" "Page"))], none, none⟩,
  ⟨"INPUT_OBJECT", "Page", none, none, some [fld "size" (t "SCALAR" "Int")], none, none⟩,
  ⟨"SCALAR", "Date", none, none, none, none, none⟩,
  ⟨"SCALAR", "Int", none, none, none, none, none⟩,
  ⟨"SCALAR", "String", none, none, none, none, none⟩,
  ⟨"SCALAR", "ID", none, none, none, none, none⟩]⟩

/-- The schema loaded from it. -/
def grownSchema : Schema := match Schema.ofJson grownJson with | .ok s => s | .error _ => []

end Qlc.Demo
