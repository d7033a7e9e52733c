import Verif.Model.IR
/-
Model of src/typescript.rs and src/typescript/field.rs.  The generated text is modelled as is.
-/
set_option autoImplicit false

namespace Qlc

/-- graphql.rs:24-29 `BottomTypeConfig`. -/
inductive BottomTypeConfig where
  | defaultBottomType
  | realName
  | realNameWithPrefix (p : String)
  deriving DecidableEq, Repr

/-- The fields of graphql.rs:31-40 `CompileConfig` that code generation reads. -/
structure TsConfig where
  useReadonlyTypes : Bool
  bottomTypeConfig : BottomTypeConfig
  globalTypesModuleName : String
  typedGraphqlDocumentnodeModuleName : String
  deriving DecidableEq, Repr

/-- typescript.rs:18-27 `Error`. -/
inductive TsError where
  | missingType (name : String)
  | notGlobalType (name : String)
  | invalidFieldDef (fieldTypeName fieldName : String)
  | expectedAtLeastOnePossibility
  deriving DecidableEq, Repr

/-- typescript.rs:13-16 `HEADER`. -/
def header : String :=
  "/* eslint-disable */\n// This file was automatically generated and should not be edited.\n\n"

/-- typescript/field.rs:4-15 `compile_scalar` (used for input object fields). -/
def compileScalar (cfg : TsConfig) : ScalarType → String
  | .boolean => "boolean"
  | .string | .id => "string"
  | .float | .int => "number"
  | .custom name =>
    match cfg.bottomTypeConfig with
    | .defaultBottomType => "any"
    | .realName => name
    | .realNameWithPrefix s => s ++ name

/-- typescript.rs:262-271 `compile_custom_scalar_name`. -/
def compileCustomScalarName (cfg : TsConfig) (name : String) : String :=
  match cfg.bottomTypeConfig with
  | .defaultBottomType => "any"
  | .realName => name
  | .realNameWithPrefix s => s ++ name

/-- typescript.rs:273-280 `type_name_from_scalar` (used for selected fields). -/
def typeNameFromScalar (cfg : TsConfig) : ScalarType → String
  | .boolean => "boolean"
  | .string | .id => "string"
  | .float | .int => "number"
  | .custom name => compileCustomScalarName cfg name

/-- typescript.rs:239-260 `compile_documentation`. -/
def compileDocumentation (documentation : Option String) (deprecated : Bool) (tabWidth : Nat) :
    String :=
  let tab := spaces tabWidth
  let processed := documentation.map (fun docs =>
    String.ofList (remove2 '*' '/' (remove2 '/' '*'
      (replaceNl (("\n " ++ tab ++ "* ").toList) docs.toList))))
  let wrap := fun (content : String) =>
    "/**\n " ++ tab ++ "* " ++ content ++ "\n " ++ tab ++ "*/\n" ++ tab
  match processed, deprecated with
  | some docs, true => wrap (docs ++ "\n " ++ tab ++ "* @deprecated")
  | some docs, false => wrap docs
  | none, true => wrap "@deprecated"
  | none, false => ""

/-- typescript.rs:74-92 `from_input_def_field_def`. -/
def fromInputDefFieldDef (cfg : TsConfig) (fieldName : String) (field : SField) :
    Except TsError String :=
  match field.type.definition with
  | .scalar s => .ok (compileScalar cfg s)
  | .enum => .ok field.type.name
  | .inputObject => .ok field.type.name
  | _ => .error (.invalidFieldDef field.type.name fieldName)

/-- typescript.rs:105-122: the text after the doc comment of one input field. -/
def inputFieldText (name fieldType : String) : Mod → String
  | .none => name ++ ": " ++ fieldType ++ ";"
  | .nullable => name ++ "?: " ++ fieldType ++ " | null;"
  | .nullableList => name ++ "?: " ++ fieldType ++ "[] | null;"
  | .list => name ++ ": " ++ fieldType ++ "[];"
  | .listOfNullable => name ++ ": (" ++ fieldType ++ " | null)[];"
  | .nullableListOfNullable => name ++ "?: (" ++ fieldType ++ " | null)[] | null;"

/-- typescript.rs:102-124: one input field. -/
def inputFieldDef (cfg : TsConfig) (name : String) (field : SField) : Except TsError String :=
  match fromInputDefFieldDef cfg name field with
  | .error e => .error e
  | .ok fieldType =>
    .ok ("  " ++ compileDocumentation field.documentation field.deprecated 2 ++
      inputFieldText name fieldType field.type.last)

/-- typescript.rs:94-130 `input_def_from_type`. -/
def inputDefFromType (ω : Hash) (cfg : TsConfig) (name : String) (fields : FieldsLookup) :
    Except TsError String :=
  let sorted := sortBy Prod.fst (ω.perm ["typescript.rs:100"] fields)
  match seqE (sorted.map (fun e => inputFieldDef cfg e.1 e.2)) with
  | .error e => .error e
  | .ok fs => .ok ("export type " ++ name ++ " = {\n" ++ joinWith "\n" fs ++ "\n};")

/-- typescript.rs:132-146 `enum_def_from_type`. -/
def enumDefFromType (name : String) (documentation : Option String) (values : List String) :
    String :=
  compileDocumentation documentation false 0 ++ "export enum " ++ name ++ " {\n" ++
    joinWith "\n" (sortStr (values.map (fun v => "  " ++ v ++ " = \"" ++ v ++ "\","))) ++ "\n}"

/-- typescript.rs:196 `name_to_type: HashMap<&str, &Type>`. -/
abbrev NameToType := AMap String SType

/-- typescript.rs:161-192 `add_sub_input_object_field`, with the recursive call
`add_sub_input_objects` as a parameter.  `none` = out of fuel. -/
def addSubInputObjectField (schema : Schema)
    (rec : SType → NameToType → Option (Except TsError NameToType))
    (fieldType : FieldType) (fieldName : String) (m : NameToType) :
    Option (Except TsError NameToType) :=
  match fieldType.definition with
  | .inputObject =>
    match schema.getType fieldType.name with
    | none => some (.error (.missingType fieldType.name))
    | some t => rec t (AMap.insert m fieldType.name t)
  | .enum =>
    match schema.getType fieldType.name with
    | none => some (.error (.missingType fieldType.name))
    | some t => some (.ok (AMap.insert m fieldType.name t))
  | .scalar _ => some (.ok m)
  | _ => some (.error (.invalidFieldDef fieldType.name fieldName))

/-- typescript.rs:154-156: the loop over the fields of an input object. -/
def addSubInputFields (schema : Schema)
    (rec : SType → NameToType → Option (Except TsError NameToType)) :
    List SField → NameToType → Option (Except TsError NameToType)
  | [], m => some (.ok m)
  | f :: rest, m =>
    match addSubInputObjectField schema rec f.type f.name m with
    | none => none
    | some (.error e) => some (.error e)
    | some (.ok m') => addSubInputFields schema rec rest m'

/-- typescript.rs:148-159 `add_sub_input_objects`. -/
def addSubInputObjects (ω : Hash) (schema : Schema) :
    Nat → SType → NameToType → Option (Except TsError NameToType)
  | 0 => fun _ _ => none
  | n + 1 => fun t m =>
    match t.definition with
    | .inputObject _ fields =>
      addSubInputFields schema (addSubInputObjects ω schema n)
        (ω.perm ["typescript.rs:154"] (fields.map Prod.snd)) m
    | _ => some (.ok m)

/-- typescript.rs:201-207: the loop over the used names. -/
def globalNameLoop (ω : Hash) (fuel : Nat) (schema : Schema) :
    List String → NameToType → Option (Except TsError NameToType)
  | [], m => some (.ok m)
  | name :: rest, m =>
    match schema.getType name with
    | none => some (.error (.missingType name))
    | some t =>
      match addSubInputObjects ω schema fuel t m with
      | none => none
      | some (.error e) => some (.error e)
      | some (.ok m') => globalNameLoop ω fuel schema rest (AMap.insert m' name t)

/-- typescript.rs:213-224: the definition text of one global. -/
def globalDef (ω : Hash) (cfg : TsConfig) (name : String) (t : SType) : Except TsError String :=
  match t.definition with
  | .enum vs => .ok (enumDefFromType name t.documentation vs)
  | .inputObject n fields => inputDefFromType ω cfg n fields
  | _ => .error (.notGlobalType name)

/-- typescript.rs:194-226 `global_types_from_names`. -/
def globalTypesFromNames (ω : Hash) (fuel : Nat) (cfg : TsConfig) (schema : Schema)
    (globalNames : List String) : Option (Except TsError (List String)) :=
  match globalNameLoop ω fuel schema (ω.perm ["typescript.rs:201"] globalNames) [] with
  | none => none
  | some (.error e) => some (.error e)
  | some (.ok m) =>
    let sorted := sortBy Prod.fst (ω.perm ["typescript.rs:209"] m)
    some (seqE (sorted.map (fun e => globalDef ω cfg e.1 e.2)))

/-- typescript.rs:228-237 `compile_globals`. -/
def compileGlobals (ω : Hash) (fuel : Nat) (cfg : TsConfig) (schema : Schema)
    (globalNames : List String) : Option (Except TsError String) :=
  match globalTypesFromNames ω fuel cfg schema globalNames with
  | none => none
  | some (.error e) => some (.error e)
  | some (.ok defs) => some (.ok (header ++ joinWith "\n\n" defs))

/-- typescript.rs:282-296 `single_prop_type_def`. -/
def singlePropTypeDef (m : Mod) (inner : String) : String :=
  match m with
  | .none => inner
  | .nullable => inner ++ " | null"
  | .list => inner ++ "[]"
  | .nullableList => inner ++ "[] | null"
  | .listOfNullable => "(" ++ inner ++ " | null)[]"
  | .nullableListOfNullable => "(" ++ inner ++ " | null)[] | null"

/-- typescript.rs:298-308 `prop_type_def`. -/
def propTypeDef (rest : List Mod) (last : Mod) (flat : String) : String :=
  rest.foldl (fun result m => singlePropTypeDef m ("(" ++ result ++ ")"))
    (singlePropTypeDef last flat)

/-- typescript.rs:310-316 `field_ids_for_complex_ir` (as a list, compared as a set below). -/
def fieldIds (fields : List IRField) : List String := fields.map IRField.propName

/-- `HashSet` equality of two property name sets (typescript.rs:364). -/
def sameSet (a b : List String) : Bool := a.all (· ∈ b) && b.all (· ∈ a)

/-- typescript.rs:352-359: `common_props` after the loop. -/
def commonProps : List (List String) → List String
  | [] => []
  | first :: rest => first.filter (fun p => rest.all (fun ps => decide (p ∈ ps)))

/-- Generation threads `global_types: &mut HashSet<String>`. -/
abbrev TsM (α : Type) := List String → Except TsError (α × List String)

/-- What generation needs to know about one possibility: its name, its property names, and how to
generate its definitions under a display name (for `__typename`) and a type path. -/
structure Poss where
  name : String
  props : List String
  gen : String → String → TsM (List String)

/-- typescript.rs:383-396: definitions and names of the possibilities that are not merged. -/
def genDistinct (main : String) (repeated : List String) :
    List Poss → List String → List String → TsM (List String × List String)
  | [], defs, names => fun g => .ok ((defs, names), g)
  | p :: rest, defs, names => fun g =>
    if p.name ∈ repeated then genDistinct main repeated rest defs names g
    else
      let path := main ++ "_" ++ p.name
      match p.gen p.name path g with
      | .error e => .error e
      | .ok (ds, g') => genDistinct main repeated rest (defs ++ ds) (names ++ [path]) g'

/-- typescript.rs:318-331 `type_definitions_from_smoosh_complex_ir`. -/
def genSmoosh (p : Poss) (repeated : List String) (path : String) : TsM (List String) :=
  p.gen (joinWith "\" | \"" (sortStr repeated)) path

/-- typescript.rs:333-411 `type_definitions_from_complex_field_collection`. -/
def genCollection (ω : Hash) (ps : List Poss) (main : String) : TsM (List String) := fun g =>
  match ps with
  | [] => .error .expectedAtLeastOnePossibility
  | [p] => p.gen p.name main g
  | first :: second :: more =>
    let all := first :: second :: more
    let common := commonProps (all.map Poss.props)
    let repeated := ((all.filter (fun p => sameSet common p.props)).map Poss.name).foldl setInsert []
    let repeatedIter := ω.perm ["typescript.rs:375,404", main] repeated
    if all.length = repeated.length then
      genSmoosh first repeatedIter main g
    else
      match genDistinct main repeated all [] [] g with
      | .error e => .error e
      | .ok ((defs, names), g') =>
        match (all.filter (fun p => p.name ∈ repeated)).getLast? with
        | none =>
          .ok (defs ++ ["export type " ++ main ++ " = " ++ joinWith " | " names ++ ";"], g')
        | some rep =>
          let smoosh := main ++ "_$$other"
          match genSmoosh rep repeatedIter smoosh g' with
          | .error e => .error e
          | .ok (ds, g'') =>
            .ok (defs ++ ds ++
              ["export type " ++ main ++ " = " ++ joinWith " | " (names ++ [smoosh]) ++ ";"], g'')

/-- typescript.rs:440-454: the text of one property. -/
def propDefText (cfg : TsConfig) (prop : String) (doc : Option String) (dep : Bool) (last : Mod)
    (rest : List Mod) (flat : String) : String :=
  "  " ++ compileDocumentation doc dep 2 ++
    (if cfg.useReadonlyTypes then "readonly " else "") ++ prop ++ ": " ++
    propTypeDef rest last flat ++ ";"

mutual
/-- typescript.rs:421-455: the loop over the fields; accumulates definitions and property texts. -/
def genFields (ω : Hash) (cfg : TsConfig) (dispName path : String) :
    List IRField → TsM (List String × List String)
  | [] => fun g => .ok (([], []), g)
  | .mk prop doc dep last mods ty :: rest => fun g =>
    match genFieldType ω cfg dispName (path ++ "_" ++ prop) ty g with
    | .error e => .error e
    | .ok ((ds, flat), g') =>
      match genFields ω cfg dispName path rest g' with
      | .error e => .error e
      | .ok ((ds', ps), g'') => .ok ((ds ++ ds', propDefText cfg prop doc dep last mods flat :: ps), g'')
/-- typescript.rs:422-439: definitions and flat type name of one field type. -/
def genFieldType (ω : Hash) (cfg : TsConfig) (dispName subPath : String) :
    IRType → TsM (List String × String)
  | .complex ps => fun g =>
    match genCollection ω (possOf ω cfg ps) subPath g with
    | .error e => .error e
    | .ok (ds, g') => .ok ((ds, subPath), g')
  | .enum name => fun g => .ok (([], name), setInsert g name)
  | .scalar s => fun g => .ok (([], typeNameFromScalar cfg s), g)
  | .typeName => fun g => .ok (([], "\"" ++ dispName ++ "\""), g)
/-- The possibilities of a collection; `gen` is typescript.rs:413-461
`type_definitions_from_complex_ir` (with the possibility's name replaced by the display name, as
typescript.rs:325-329 does for merged possibilities). -/
def possOf (ω : Hash) (cfg : TsConfig) : List Complex → List Poss
  | [] => []
  | .mk name fields :: rest =>
    ⟨name, fieldIds fields, fun dispName path g =>
      match genFields ω cfg dispName path fields g with
      | .error e => .error e
      | .ok ((ds, ps), g') =>
        .ok (ds ++ ["export type " ++ path ++ " = {\n" ++ joinWith "\n" ps ++ "\n};"], g')⟩ ::
      possOf ω cfg rest
end

/-- typescript.rs:463-488 `compile_variable_type_name`. -/
def compileVariableTypeName (cfg : TsConfig) (schema : Schema) (v : Variable) : TsM String :=
  fun g =>
  match v.type with
  | .id | .string => .ok ("string", g)
  | .float | .int => .ok ("number", g)
  | .boolean => .ok ("boolean", g)
  | .custom name =>
    match schema.getType name with
    | none => .error (.missingType name)
    | some t =>
      match t.definition with
      | .scalar _ => .ok (compileCustomScalarName cfg name, g)
      | _ => .ok (name, setInsert g name)

/-- typescript.rs:500-509: the type texts of all variables. -/
def compileVariableTypes (cfg : TsConfig) (schema : Schema) :
    List Variable → TsM (List (Variable × String))
  | [] => fun g => .ok ([], g)
  | v :: rest => fun g =>
    match compileVariableTypeName cfg schema v g with
    | .error e => .error e
    | .ok (tn, g') =>
      match compileVariableTypes cfg schema rest g' with
      | .error e => .error e
      | .ok (vs, g'') => .ok ((v, propTypeDef [] v.modifier tn) :: vs, g'')

/-- typescript.rs:514-521: the text of one variable property. -/
def variablePropText (v : Variable) (typeDef : String) : String :=
  match v.modifier with
  | .nullable | .nullableList | .nullableListOfNullable =>
    "  " ++ v.propName ++ "?: " ++ typeDef ++ ";"
  | _ => "  " ++ v.propName ++ ": " ++ typeDef ++ ";"

/-- typescript.rs:490-534 `compile_variables_type_definition`: name and contents. -/
def compileVariablesTypeDefinition (ω : Hash) (cfg : TsConfig) (schema : Schema) (op : Operation) :
    TsM (Option (String × String)) := fun g =>
  match op.variables with
  | none => .ok (none, g)
  | some vars =>
    match compileVariableTypes cfg schema vars g with
    | .error e => .error e
    | .ok (vs, g') =>
      let sorted := sortBy (fun (e : Variable × String) => e.1.propName)
        (ω.perm ["typescript.rs:511"] vs)
      let propDefs := joinWith "\n" (sorted.map (fun e => variablePropText e.1 e.2))
      let name := op.name ++ "Variables"
      .ok (some (name, "\n\nexport type " ++ name ++ " = {\n" ++ propDefs ++ "\n};"), g')

/-- typescript.rs:536-557 `compile_imports`. -/
def compileImports (ω : Hash) (cfg : TsConfig) (docNode : String) (used : List String) : String :=
  if used.isEmpty then
    "import type { " ++ docNode ++ " } from \"" ++ cfg.typedGraphqlDocumentnodeModuleName ++
      "\";\n\n"
  else
    "import type { " ++ docNode ++ " } from \"" ++ cfg.typedGraphqlDocumentnodeModuleName ++
      "\";\nimport type { " ++ joinWith ", " (sortStr (ω.perm ["typescript.rs:547"] used)) ++
      " } from \"" ++ cfg.globalTypesModuleName ++ "\";\n\n"

/-- typescript.rs:573-578. -/
def docNodeName : OpKind → String
  | .mutation => "MutationDocumentNode"
  | .subscription => "SubscriptionDocumentNode"
  | .fragment => "FragmentDocumentNode"
  | .query => "QueryDocumentNode"

/-- typescript.rs:68-72 `Compile`. -/
structure Compile where
  contents : String
  globalTypesUsed : List String

/-- typescript.rs:559-600 `compile_ir`. -/
def compileIr (ω : Hash) (op : Operation) (cfg : TsConfig) (schema : Schema) :
    Except TsError Compile :=
  match genCollection ω (possOf ω cfg op.collection) op.name [] with
  | .error e => .error e
  | .ok (defs, g) =>
    match compileVariablesTypeDefinition ω cfg schema op g with
    | .error e => .error e
    | .ok (varDef, g') =>
      let docNode := docNodeName op.kind
      let imports := compileImports ω cfg docNode g'
      let variables := (varDef.map Prod.snd).getD ""
      let varName := (varDef.map Prod.fst).getD "never"
      let annotation := match op.kind with
        | .fragment => docNode ++ "<" ++ op.name ++ ">"
        | _ => docNode ++ "<" ++ op.name ++ ", " ++ varName ++ ">"
      .ok ⟨header ++ imports ++ joinWith "\n\n" defs ++ variables ++
        "\n\ndeclare const graphqlDocument: " ++ annotation ++
        ";\nexport default graphqlDocument;", g'⟩

end Qlc
