import Verif.Model.Path
import Verif.Model.Typescript
/-
Model of src/cli.rs and of the conversions of errors and warnings to printable messages
(ir.rs:27-53,114-197, variable.rs:52-86, typescript.rs:29-51, schema.rs:200-237).
-/
set_option autoImplicit false

namespace Qlc

/-- cli.rs:12-17 `MessageLevel`. -/
inductive Level where
  | compileWarning | compileError | programError
  deriving DecidableEq, Repr

/-- cli.rs:19-25 `LocationInformation`. -/
structure Location where
  lineNumber : String
  line : String
  helpText : Option String
  columnNumber : Option Nat
  deriving DecidableEq, Repr

/-- cli.rs:28-35 `new_from_line_and_column`. -/
def Location.ofLineAndColumn (n : Nat) (line : String) (col : Nat) : Location :=
  ⟨toString n, line, none, some col⟩

/-- cli.rs:37-48 `new_from_contents_and_position`.  The parser's positions start at line 1, so the
subtraction does not underflow. -/
def Location.ofContentsAndPos (contents : String) (pos : Pos) : Location :=
  ⟨toString pos.line, ((lines contents)[pos.line - 1]?).getD "<<QLC unknown line>>", none,
    some pos.column⟩

/-- cli.rs:50-53 `with_help_text`. -/
def Location.withHelp (l : Location) (h : String) : Location := { l with helpText := some h }

/-- cli.rs:104-108 `SourceInformation`. -/
structure Source where
  path : Path
  location : Option Location
  deriving DecidableEq, Repr

/-- cli.rs:130-135 `PrintableMessage`. -/
structure Msg where
  level : Level
  source : Option Source
  message : String
  deriving DecidableEq, Repr

/-- The `colored` crate: a style name and a text to the coloured text.  With `--no-color` it is the
identity on the text. -/
abbrev Paint := String → String → String

/-- `--no-color` (cli.rs:413-415). -/
def Paint.plain : Paint := fun _ s => s

/-- cli.rs:59-64 `fmt_colon_encoding`. -/
def Location.colon (l : Location) : String :=
  match l.columnNumber with
  | none => ":" ++ l.lineNumber
  | some c => ":" ++ l.lineNumber ++ ":" ++ toString c

/-- cli.rs:66-101 `fmt_line_encoding`.  Columns start at 1 (the parser's positions, and 9 for
imports), so the subtraction does not underflow. -/
def Location.lineEncoding (p : Paint) (style : String) (l : Location) : String :=
  let bar := p "blue" "|"
  let indent := spaces (l.lineNumber.length + 1)
  "\n" ++ indent ++ bar ++ "\n" ++ p "blue" l.lineNumber ++ " " ++ bar ++ " " ++ l.line ++ "\n" ++
  (match l.columnNumber with
    | none => indent ++ " " ++ bar
    | some c => indent ++ bar ++ " " ++ spaces (c - 1) ++ p style "^") ++
  (match l.helpText with
    | none => ""
    | some t => "\n" ++ indent ++ p "blue" "=" ++ " " ++ p "green" "help:" ++ " " ++ t)

/-- cli.rs:111-127 `fmt_file`. -/
def Source.render (p : Paint) (style : String) (s : Source) : String :=
  let indent := spaces ((s.location.map (fun l => l.lineNumber.length)).getD 2)
  "\n" ++ indent ++ p "blue" "-->" ++ " " ++ s.path.display ++
  (match s.location with
    | none => ""
    | some l => l.colon ++ l.lineEncoding p style)

/-- cli.rs:137-154 `Display for PrintableMessage`. -/
def Msg.render (p : Paint) (m : Msg) : String :=
  let style := match m.level with | .compileWarning => "yellow" | _ => "red"
  let header := match m.level with
    | .compileWarning => p "yellow" "warning"
    | .compileError => p "red" "error"
    | .programError => p "red" "program error"
  p "bold" header ++ p "bold" ":" ++ " " ++ p "bold" m.message ++
  (match m.source with
    | some s => s.render p style
    | none => "")

/-- cli.rs:165-171. -/
def Msg.simpleCompileError (m : String) : Msg := ⟨.compileError, none, m⟩
/-- cli.rs:173-179. -/
def Msg.simpleCompileWarning (m : String) : Msg := ⟨.compileWarning, none, m⟩
/-- cli.rs:225-231. -/
def Msg.simpleProgramError (m : String) : Msg := ⟨.programError, none, m⟩

/-- cli.rs:181-201, 203-223, 233-253: the three located constructors differ in the level only. -/
def Msg.located (level : Level) (message : String) (path : Path) (contents : String) (pos : Pos)
    (help : Option String) : Msg :=
  let loc := Location.ofContentsAndPos contents pos
  ⟨level, some ⟨path, some (match help with | some h => loc.withHelp h | none => loc)⟩, message⟩

/-- cli.rs:255-265 `with_source_information`. -/
def Msg.withSource (m : Msg) (path : Path) (loc : Option Location) : Msg :=
  { m with source := some ⟨path, loc⟩ }

/-- cli.rs:157-163, 267-277: `op` is "read" or "write"; `err` is the displayed I/O error. -/
def Msg.ioError (op err : String) (path : Path) : Msg :=
  ⟨.compileError, none, "could not " ++ op ++ " `" ++ path.display ++ "`: " ++ err⟩

/-- cli.rs:501-519 `similar_help_suggestions`; `dist` is `strsim::generic_damerau_levenshtein`
(external). -/
def similarHelp (dist : String → String → Nat) (name : String) (possible : List String) :
    Option String :=
  let similar := possible.filter (fun p => dist name p < 3)
  if similar.isEmpty then none
  else some (" Did you mean one of the following: `" ++ joinWith "`, `" similar ++ "`?")

/-- ir.rs:27-53. -/
def Warning.toMsg (contents : String) (path : Path) : Warning → Msg
  | .overFragmentNarrowing pos possible spread =>
    .located .compileWarning ("fragment over narrowing with type `" ++ spread ++ "`") path contents
      pos (some ("The parent types of this spread are limited to `" ++ joinWith "`, `" possible ++
        "`, making spreading `" ++ spread ++ "` extraneous."))
  | .deprecatedFieldUse pos field parent =>
    .located .compileWarning
      ("use of deprecated field `" ++ field ++ "` on type `" ++ parent ++ "`") path contents pos none

/-- variable.rs:52-86. -/
def VarError.toMsg (contents : String) (path : Path) : VarError → Msg
  | .unknownCustomVariableType name pos =>
    .located .compileError ("unknown type for variable `" ++ name ++ "`") path contents pos none
  | .unprocessableVariableType name pos =>
    .located .programError ("failed to process variable `" ++ name ++ "`") path contents pos
      (some "This is most likely a bug in QLC or some unsupported variable type. Please report a bug!")
  | .listOfListNotSupported name pos =>
    .located .compileError ("unsupported list of lists type for variable `" ++ name ++ "`") path
      contents pos (some "QLC does not support lists of lists as variable types")

/-- ir.rs:114-197. -/
def IrError.toMsg (dist : String → String → Nat) (contents : String) (path : Path) : IrError → Msg
  | .selectionSetAsOperationUnsupported pos =>
    .located .compileError "unsupported selection set as operation" path contents pos
      (some "QLC does not support a plain selection set as an operation.")
  | .unknownFragment name pos possible =>
    .located .compileError ("unknown spread fragment name `" ++ name ++ "`") path contents pos
      (some ("This fragment name doesn't appear to be in scope." ++
        (similarHelp dist name possible).getD " Did you forget to import it?"))
  | .missingTypeConditionOnInlineFragment pos =>
    .located .compileError "fragment missing type condition on inline fragment" path contents pos
      (some "Fragments must specify a type they can be spread on.")
  | .selectionSetOnWrongType name pos =>
    .located .compileError ("unexpected selection on field of type `" ++ name ++ "`") path contents
      pos (some "This field is not a complex type with selections. Did you accidentally place the curlies on this field?")
  | .missingSelectionSetOnType name pos =>
    .located .compileError ("expected selection on field of type `" ++ name ++ "`") path contents
      pos (some "This is a complex type, and it is improper GraphQL to not have at least one sub field selection.")
  | .unknownField parent field pos possible =>
    .located .compileError ("unknown field `" ++ field ++ "`") path contents pos
      (some ("Check the fields of `" ++ parent ++ "`." ++ (similarHelp dist field possible).getD ""))
  | .variable e => e.toMsg contents path
  | .missingType name => .simpleProgramError ("failed lookup of type `" ++ name ++ "`")
  | .inputObjectOnSelection field type =>
    .simpleProgramError ("unexpectedly traversing field `" ++ field ++
      "` with input object type `" ++ type ++ "`")
  | .unexpectedComplexTraversal type =>
    .simpleProgramError ("unexpectedly traversing a terminal of type `" ++ type ++ "`")
  | .mixedTerminalAndComplexFields terminal complex =>
    .simpleProgramError ("unexpectedly attempting merge of complex type `" ++ complex ++
      "` and terminal type `" ++ terminal ++ "`.")

/-- typescript.rs:29-51. -/
def TsError.toMsg : TsError → Msg
  | .missingType name => .simpleProgramError ("failed lookup of type `" ++ name ++ "`")
  | .notGlobalType name => .simpleProgramError ("unexpected global type of `" ++ name ++
      "`, which is not an enum nor input object")
  | .invalidFieldDef ft f => .simpleProgramError ("unexpected field `" ++ f ++ "` of type `" ++ ft ++
      "`: must be enum, another input object, or scalar")
  | .expectedAtLeastOnePossibility =>
    .simpleProgramError "could not determine possiblities for complex type"

/-- schema.rs:200-202, 210-236. -/
def SchemaError.toMsg (e : SchemaError) : Msg :=
  .simpleCompileError ("malformed schema: " ++ e.reason)

/-- What `print_exit_info` does: the printed chunks and the exit status. -/
structure Exit where
  printed : List String
  code : Nat
  deriving DecidableEq, Repr

/-- cli.rs:525-535: the counters after the loop, warnings and errors. -/
def countMsgs : List Msg → Nat × Nat
  | [] => (0, 0)
  | m :: rest =>
    let (w, e) := countMsgs rest
    match m.level with
    | .compileWarning => (w + 1, e)
    | .compileError | .programError => (w, e + 1)

/-- cli.rs:522-557 `print_exit_info`. -/
def printExitInfo (p : Paint) (msgs : List Msg) : Exit :=
  let (warningCount, errorCount) := countMsgs msgs
  let hasErrors := decide (errorCount > 0)
  let plural := if errorCount > 1 then "s" else ""
  ⟨msgs.map (fun m => m.render p ++ "\n\n") ++
    (if hasErrors then
      [(Msg.simpleCompileError ("failure due to " ++ toString errorCount ++ " error" ++
        plural)).render p ++ "\n"] else []) ++
    (if warningCount > 0 then
      [(Msg.simpleCompileWarning (toString warningCount ++ " warning" ++ plural ++
        " emitted")).render p ++ "\n"] else []),
    if hasErrors then 1 else 0⟩

/-- cli.rs:290-331 `CliArgs` (how clap fills it: Model/Args.lean). -/
structure CliArgs where
  rootDir : Option Path := none
  configFile : Option Path := none
  schemaPath : Option Path := none
  useCustomScalars : Bool := false
  customScalarPrefix : Option String := none
  rootDirImportPrefix : Option String := none
  globalTypesModuleName : Option String := none
  typedGraphqlDocumentnodeModuleName : Option String := none
  disableReadonlyTypes : Bool := false
  showDeprecationWarnings : Bool := false
  numThreads : Option Nat := none
  noColor : Bool := false

/-- cli.rs:334-354 `ConfigFileMatches`. -/
structure ConfigFile where
  schemaPath : Option Path := none
  useCustomScalars : Option Bool := none
  disableReadonlyTypes : Option Bool := none
  customScalarPrefix : Option String := none
  numThreads : Option Nat := none
  showDeprecationWarnings : Option Bool := none
  rootDirImportPrefix : Option String := none
  globalTypesModuleName : Option String := none
  typedGraphqlDocumentnodeModuleName : Option String := none

/-- What opening and decoding the configuration file yields. -/
inductive ConfigRead where
  | notFound (err : String)
  | ioError (err : String)
  | serdeError (err : String)
  | parsed (c : ConfigFile)

/-- cli.rs:357-391 `from_file_parse`. -/
def ConfigFile.fromFileParse (cliArg : Option Path) (read : Path → ConfigRead) :
    Except Msg ConfigFile :=
  let path := cliArg.getD (Path.ofString ".qlcrc.json")
  match read path with
  | .parsed c => .ok { c with
      schemaPath := c.schemaPath.bind (fun s =>
        if s.abs then some s else path.parent.map (fun d => d.join s)) }
  | .serdeError e =>
    .error (.simpleProgramError ("error in config file `" ++ path.display ++ "`: " ++ e))
  | .ioError e => .error (.ioError "read" e path)
  | .notFound e => if cliArg.isSome then .error (.ioError "read" e path) else .ok {}

/-- cli.rs:395-407 `RuntimeConfig`. -/
structure RuntimeConfig where
  rootDir : Path
  schemaPath : Path
  showDeprecationWarnings : Bool
  useCustomScalars : Bool
  disableReadonlyTypes : Bool
  customScalarPrefix : Option String
  numberThreads : Nat
  rootDirImportPrefix : Option String
  globalTypesModuleName : String
  typedGraphqlDocumentnodeModuleName : String

/-- cli.rs:422-457: merging arguments and config file; `cpus` is `num_cpus::get()`. -/
def RuntimeConfig.merge (cpus : Nat) (a : CliArgs) (c : ConfigFile) : RuntimeConfig :=
  let rootDir := a.rootDir.getD (Path.ofString ".")
  { rootDir := rootDir
    schemaPath := (a.schemaPath.or c.schemaPath).getD (rootDir.join (Path.ofString "schema.json"))
    showDeprecationWarnings := a.showDeprecationWarnings || c.showDeprecationWarnings.getD false
    useCustomScalars := a.useCustomScalars || c.useCustomScalars.getD false
    disableReadonlyTypes := a.disableReadonlyTypes || c.disableReadonlyTypes.getD false
    customScalarPrefix := a.customScalarPrefix.or
      (c.useCustomScalars.bind (fun _ => c.customScalarPrefix))
    numberThreads := (a.numThreads.or c.numThreads).getD (min cpus 8)
    rootDirImportPrefix := a.rootDirImportPrefix.or c.rootDirImportPrefix
    globalTypesModuleName := (a.globalTypesModuleName.or c.globalTypesModuleName).getD
      "graphql-globals"
    typedGraphqlDocumentnodeModuleName :=
      (a.typedGraphqlDocumentnodeModuleName.or c.typedGraphqlDocumentnodeModuleName).getD
        "@notarize/qlc-cli/typed-documentnode" }

/-- cli.rs:410-458 `from_cli`: the configuration, or the message with which the program exits. -/
def RuntimeConfig.fromCli (cpus : Nat) (read : Path → ConfigRead) (a : CliArgs) :
    Except Msg RuntimeConfig :=
  match ConfigFile.fromFileParse a.configFile read with
  | .error m => .error m
  | .ok c => .ok (RuntimeConfig.merge cpus a c)

/-- cli.rs:468-474 `bottom_type_config`. -/
def RuntimeConfig.bottomTypeConfig (r : RuntimeConfig) : BottomTypeConfig :=
  match r.useCustomScalars, r.customScalarPrefix with
  | false, _ => .defaultBottomType
  | true, none => .realName
  | true, some s => .realNameWithPrefix s

end Qlc
