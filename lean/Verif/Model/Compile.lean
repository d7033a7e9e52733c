import Verif.Model.Cli
/-
Model of src/graphql.rs: imports, compile_file, compile_global_types_file.
-/
set_option autoImplicit false

namespace Qlc

/-- graphql.rs:31-40 `CompileConfig`. -/
structure CompileConfig extends TsConfig where
  rootDir : Path
  showDeprecationWarnings : Bool
  rootDirImportPrefix : Option String

/-- graphql.rs:42-54 `From<&RuntimeConfig> for CompileConfig`. -/
def CompileConfig.ofRuntime (r : RuntimeConfig) : CompileConfig :=
  { rootDir := r.rootDir
    useReadonlyTypes := !r.disableReadonlyTypes
    bottomTypeConfig := r.bottomTypeConfig
    showDeprecationWarnings := r.showDeprecationWarnings
    rootDirImportPrefix := r.rootDirImportPrefix
    globalTypesModuleName := r.globalTypesModuleName
    typedGraphqlDocumentnodeModuleName := r.typedGraphqlDocumentnodeModuleName }

/-- External functions: the graphql parser and the edit distance. -/
structure Ext where
  /-- `graphql_parser::parse_query`; the error is the displayed parse error. -/
  parse : String → Except String Document
  /-- `strsim::generic_damerau_levenshtein`. -/
  dist : String → String → Nat

/-- The file system as the program sees it.  `resolve` is the kernel's path resolution (symbolic
links, `..`) to a file identity; it does not change when a regular file is written. -/
structure World where
  resolve : Path → String
  /-- Contents of a file, or the displayed error of opening/reading it (missing, not UTF-8, …). -/
  disk : String → Except String String
  /-- If writing a file fails: the displayed error, and what a failing write leaves in the file (`none`
  if the file could not even be opened, so nothing changed). -/
  writeErr : String → Option (String × Option String)

/-- graphql.rs:56-65 `read_graphql_file` up to the message. -/
def World.read (w : World) (p : Path) : Except String String := w.disk (w.resolve p)

/-- Replace the contents of one file. -/
def World.put (w : World) (id : String) (contents : String) : World :=
  { w with disk := fun id' => if id' = id then .ok contents else w.disk id' }

/-- `std::fs::write`: the error, if any, and the changed world.  `fs::write` truncates first, so a
failing write may leave partial contents. -/
def World.write (w : World) (p : Path) (contents : String) : Option String × World :=
  match w.writeErr (w.resolve p) with
  | some (e, none) => (some e, w)
  | some (e, some left) => (some e, w.put (w.resolve p) left)
  | none => (none, w.put (w.resolve p) contents)

/-- graphql.rs:56-65 `read_graphql_file`. -/
def readGraphqlFile (w : World) (p : Path) : Except Msg String :=
  match w.read p with
  | .ok c => .ok c
  | .error e => .error (.ioError "read" e p)

/-- graphql.rs:85-93: the position of a definition. -/
def Definition.pos : Definition → Pos
  | .selectionSet pos _ => pos
  | .operation _ pos _ _ _ _ => pos
  | .fragment f => f.pos

/-- graphql.rs:67-100 `parse_graphql_file`; returns the only definition. -/
def parseGraphqlFile (ext : Ext) (contents : String) (path : Path) : Except Msg Definition :=
  match ext.parse contents with
  | .error e => .error ((Msg.simpleCompileError e).withSource path none)
  | .ok [] => .error (.simpleCompileError "missing defintion in the document")
  | .ok [d] => .ok d
  | .ok (_ :: d2 :: _) =>
    .error ((Msg.simpleCompileError "multi definition files unsupported").withSource path
      (some ((Location.ofContentsAndPos contents d2.pos).withHelp
        "QLC does not support documents with more than one fragment, query or mutation per file. Move this definition to a seperate file and import it instead.")))

/-- graphql.rs:14 `IMPORT_START`. -/
def importStart : List Char := "#import \"".toList

/-- `str::strip_prefix` on characters. -/
def stripPrefixC : List Char → List Char → Option (List Char)
  | [], cs => some cs
  | _ :: _, [] => none
  | p :: ps, c :: cs => if p = c then stripPrefixC ps cs else none

/-- The text before the last `'"'`, if there is one. -/
def beforeLastQuote (cs : List Char) : Option (List Char) :=
  match cs.reverse.dropWhile (· ≠ '"') with
  | [] => none
  | _ :: before => some before.reverse

/-- graphql.rs:107-110: the slice `[IMPORT_START.len()..last_quote]`.  The argument is the line after
`#import "`.  If it has no further quote, `rfind` finds the one at index 8 and the slice `9..8`
panics: `none`. -/
def importPathText (afterStart : List Char) : Option (List Char) := beforeLastQuote afterStart

/-- graphql.rs:112-123: resolving the import path. -/
def resolveImport (cfg : CompileConfig) (importPath : List Char) (currentDir : Path) : Path :=
  match cfg.rootDirImportPrefix.bind (fun pre => stripPrefixC pre.toList importPath) with
  | some rest => cfg.rootDir.join (Path.ofChars rest)
  | none =>
    if importPath.head? = some '.' then currentDir.join (Path.ofChars importPath)
    else cfg.rootDir.join (Path.ofChars importPath)

/-- graphql.rs:102-124 `get_file_path_of_fragment`; `none` is a panic. -/
def getFilePathOfFragment (cfg : CompileConfig) (afterStart : List Char) (currentDir : Path) :
    Option Path :=
  (importPathText afterStart).map (fun t => resolveImport cfg t currentDir)

/-- A computation that can panic. -/
inductive PanicOr (α : Type) where
  | panic
  | done (a : α)

/-- The two `&mut` parameters of `add_imported_fragments`. -/
structure ImportSt where
  imports : AMap Path (String × Location)
  messages : List Msg

/-- graphql.rs:136-146: what to do with one line. -/
inductive LineKind where
  | skip
  | stop
  | import (afterStart : List Char)

/-- graphql.rs:136-146. -/
def lineKind (line : List Char) : LineKind :=
  if (trimC line).isEmpty then .skip
  else match stripPrefixC importStart line with
    | some rest => .import rest
    | none => if line.head? = some '#' then .skip else .stop

/-- graphql.rs:135-166: the loop over the lines, with the recursive call as a parameter (file path,
contents, state).  `idx` is `line_index`. -/
def importLoop (w : World) (cfg : CompileConfig) (currentFile currentDir : Path)
    (rec : Path → String → ImportSt → Option (PanicOr ImportSt)) :
    Nat → List (List Char) → ImportSt → Option (PanicOr ImportSt)
  | _, [], s => some (.done s)
  | idx, line :: rest, s =>
    match lineKind line with
    | .skip => importLoop w cfg currentFile currentDir rec (idx + 1) rest s
    | .stop => some (.done s)
    | .import after =>
      let loc := Location.ofLineAndColumn (idx + 1) (String.ofList line) 9
      match getFilePathOfFragment cfg after currentDir with
      | none => some .panic
      | some file =>
        match readGraphqlFile w file with
        | .error m =>
          importLoop w cfg currentFile currentDir rec (idx + 1) rest
            { s with messages := s.messages ++ [m.withSource currentFile (some loc)] }
        | .ok contents =>
          match rec file contents s with
          | none => none
          | some .panic => some .panic
          | some (.done s') =>
            importLoop w cfg currentFile currentDir rec (idx + 1) rest
              { s' with imports := AMap.insert s'.imports file (contents, loc) }

/-- graphql.rs:126-167 `add_imported_fragments`. -/
def addImported (w : World) (cfg : CompileConfig) :
    Nat → Path → String → ImportSt → Option (PanicOr ImportSt)
  | 0 => fun _ _ _ => none
  | n + 1 => fun file contents s =>
    importLoop w cfg file file.pop (addImported w cfg n) 0 (linesC contents.toList) s

/-- graphql.rs:175-198: the loop of `parse_foreign_fragments`. -/
def foreignLoop (ext : Ext) (path : Path) :
    List (Path × (String × Location)) → AMap String FragmentDef → List Msg →
      AMap String FragmentDef × List Msg
  | [], frags, msgs => (frags, msgs)
  | (otherPath, contents, location) :: rest, frags, msgs =>
    match parseGraphqlFile ext contents otherPath with
    | .error _ => foreignLoop ext path rest frags msgs
    | .ok (.fragment f) => foreignLoop ext path rest (AMap.insert frags f.name f) msgs
    | .ok _ =>
      foreignLoop ext path rest frags (msgs ++
        [(Msg.simpleCompileError ("cannot import non-fragment GraphQL document `" ++ path.display ++
          "`")).withSource path (some (location.withHelp
          "This document is not a fragment, and importing it is probably a mistake."))])

/-- graphql.rs:169-200 `parse_foreign_fragments`. -/
def parseForeignFragments (ω : Hash) (ext : Ext) (path : Path)
    (imports : AMap Path (String × Location)) (msgs : List Msg) :
    AMap String FragmentDef × List Msg :=
  foreignLoop ext path (ω.perm ["graphql.rs:175"] imports) [] msgs

/-- graphql.rs:18-22 `CompileReport`. -/
structure CompileReport where
  messages : List Msg
  globalTypesUsed : List String

/-- Result of compiling a file: what is returned and the world afterwards. -/
structure CompileResult where
  result : Except (List Msg) CompileReport
  world : World

/-- graphql.rs:202-254: everything before the write: messages, and the generated text. -/
def generateFile (ω : Hash) (fuel : Nat) (ext : Ext) (cfg : CompileConfig) (schema : Schema)
    (w : World) (path : Path) : Option (PanicOr (Except (List Msg) (List Msg × Compile))) :=
  match readGraphqlFile w path with
  | .error m => some (.done (.error [m]))
  | .ok contents =>
    match parseGraphqlFile ext contents path with
    | .error m => some (.done (.error [m]))
    | .ok d =>
      match addImported w cfg fuel path contents ⟨[], []⟩ with
      | none => none
      | some .panic => some .panic
      | some (.done st) =>
        let (frags, msgs) := parseForeignFragments ω ext path st.imports st.messages
        match Operation.compile ω fuel ⟨schema, cfg.showDeprecationWarnings, frags⟩ d with
        | none => none
        | some (.error es, ws) =>
          some (.done (.error (msgs ++ (es.map (IrError.toMsg ext.dist contents path) ++
            ws.map (Warning.toMsg contents path)))))
        | some (.ok op, ws) =>
          let msgs := msgs ++ ws.map (Warning.toMsg contents path)
          match compileIr ω op cfg.toTsConfig schema with
          | .error e => some (.done (.error (msgs ++ [e.toMsg])))
          | .ok c => some (.done (.ok (msgs, c)))

/-- graphql.rs:256. -/
def outputPath (path : Path) : Path := path.withExtension "graphql.d.ts"

/-- graphql.rs:202-268 `compile_file`. -/
def compileFile (ω : Hash) (fuel : Nat) (ext : Ext) (cfg : CompileConfig) (schema : Schema)
    (w : World) (path : Path) : Option (PanicOr CompileResult) :=
  match generateFile ω fuel ext cfg schema w path with
  | none => none
  | some .panic => some .panic
  | some (.done (.error msgs)) => some (.done ⟨.error msgs, w⟩)
  | some (.done (.ok (msgs, c))) =>
    match w.write (outputPath path) c.contents with
    | (some e, w') => some (.done ⟨.error [.ioError "write" e (outputPath path)], w'⟩)
    | (none, w') => some (.done ⟨.ok ⟨msgs, c.globalTypesUsed⟩, w'⟩)

/-- graphql.rs:280-292: where the globals file goes. -/
def globalsPath (cfg : CompileConfig) (rootPath : Path) : Path :=
  let base := match cfg.rootDirImportPrefix.bind
      (fun pre => stripPrefixC pre.toList cfg.globalTypesModuleName.toList) with
    | some rest => rootPath.join (Path.ofChars rest)
    | none => rootPath.join (Path.ofString cfg.globalTypesModuleName)
  if base.extension.isSome then base else base.withExtension "ts"

/-- graphql.rs:270-297 `compile_global_types_file`. -/
def compileGlobalTypesFile (ω : Hash) (fuel : Nat) (cfg : CompileConfig) (schema : Schema)
    (w : World) (rootPath : Path) (globalNames : List String) :
    Option (Except Msg Unit × World) :=
  if globalNames.isEmpty then some (.ok (), w)
  else
    match compileGlobals ω fuel cfg.toTsConfig schema globalNames with
    | none => none
    | some (.error e) => some (.error e.toMsg, w)
    | some (.ok contents) =>
      match w.write (globalsPath cfg rootPath) contents with
      | (some e, w') => some (.error (.ioError "write" e rootPath), w')
      | (none, w') => some (.ok (), w')

end Qlc
