import Verif.Model.Pool
/-
Model of src/main.rs and of the sequential skeleton of worker_pool.rs `work`.
-/
set_option autoImplicit false

namespace Qlc

/-- What opening, reading and decoding the schema file yields. -/
inductive SchemaRead where
  | ioError (err : String)
  | serdeError (err : String)
  | parsed (j : JSchema)

/-- schema.rs:204-237 `parse_schema`. -/
def parseSchema (path : Path) : SchemaRead → Except (List Msg) Schema
  | .ioError e => .error [.ioError "read" e path]
  | .serdeError e => .error [.simpleCompileError ("malformed schema: JSON parse error: " ++ e)]
  | .parsed j =>
    match Schema.ofJson j with
    | .error e => .error [e.toMsg]
    | .ok s => .ok s

/-- worker_pool.rs:109-117: `compile_file` as the pool uses it; each file has its own hash seeds. -/
def poolCompile (ω : Path → Hash) (fuel : Nat) (ext : Ext) (cfg : CompileConfig) (schema : Schema) :
    Compiler World := fun w p =>
  match compileFile (ω p) fuel ext cfg schema w p with
  | none => (.diverge, w)
  | some .panic => (.panic, w)
  | some (.done r) =>
    match r.result with
    | .ok report => (.done report.globalTypesUsed report.messages, r.world)
    | .error msgs => (.done [] msgs, r.world)

/-- worker_pool.rs:281-290: the end of `work`: the globals file and the final messages. -/
def finishWork (ω : Hash) (fuel : Nat) (cfg : CompileConfig) (schema : Schema) (w : World)
    (rootPath : Path) (aggregate : List Msg × List String) : Option (List Msg × World) :=
  match compileGlobalTypesFile ω fuel cfg schema w rootPath aggregate.2 with
  | none => none
  | some (.ok (), w') => some (aggregate.1, w')
  | some (.error m, w') => some (aggregate.1 ++ [m], w')

/-- The end of a run of the program. -/
structure Finished where
  exit : Exit
  world : World

/-- main.rs:8-20 with worker_pool.rs:240-291: `Runs … f` says that the program, started with these
arguments and surroundings, can print and exit as `f` says.  The schedule is existentially chosen by
the operating system. -/
inductive Runs (ω : Path → Hash) (ω' : Hash) (fuel : Nat) (ext : Ext) (paint : Paint) (cpus : Nat)
    (readConfig : Path → ConfigRead) (readSchema : Path → SchemaRead) (tree : Path → Entry)
    (w : World) (args : CliArgs) : Finished → Prop where
  | badConfig (m : Msg) (h : RuntimeConfig.fromCli cpus readConfig args = .error m) :
      Runs ω ω' fuel ext paint cpus readConfig readSchema tree w args
        ⟨printExitInfo paint [m], w⟩
  | badSchema (r : RuntimeConfig) (ms : List Msg)
      (h : RuntimeConfig.fromCli cpus readConfig args = .ok r)
      (hs : parseSchema r.schemaPath (readSchema r.schemaPath) = .error ms) :
      Runs ω ω' fuel ext paint cpus readConfig readSchema tree w args
        ⟨printExitInfo paint ms, w⟩
  | finished (r : RuntimeConfig) (schema : Schema) (sched : List Nat) (ms : List Msg) (w' : World)
      (s : PoolSt World)
      (h : RuntimeConfig.fromCli cpus readConfig args = .ok r)
      (hs : parseSchema r.schemaPath (readSchema r.schemaPath) = .ok schema)
      (hrun : s = (PoolSt.init w r.numberThreads (tree r.rootDir)).run
        (poolCompile ω fuel ext (.ofRuntime r) schema) r.numberThreads sched)
      (hfin : s.finished = true)
      (hend : finishWork ω' fuel (.ofRuntime r) schema s.world r.rootDir s.aggregate
        = some (ms, w')) :
      Runs ω ω' fuel ext paint cpus readConfig readSchema tree w args
        ⟨printExitInfo paint ms, w'⟩

end Qlc
