import Verif.Model.Main
/-
A finer model of a run: `compile_file` as a program of single file reads and a write, and the pool with
these operations interleaved.  Writing a file is opening it (which empties it) followed by any number of
partial writes, as `std::fs::write` does.  The finer model can be stopped at any point, which is what a
crash or a kill signal does.
-/
set_option autoImplicit false

namespace Qlc

/-- A program that reads and writes whole files (`fs::read_to_string`, `fs::write`). -/
inductive Ops (α : Type) where
  | ret (a : α)
  | read (p : Path) (k : Except String String → Ops α)
  | write (p : Path) (contents : String) (k : Option String → Ops α)

/-- Sequencing. -/
def Ops.bind {α β : Type} : Ops α → (α → Ops β) → Ops β
  | .ret a, f => f a
  | .read p k, f => .read p (fun r => (k r).bind f)
  | .write p c k, f => .write p c (fun r => (k r).bind f)

/-- Running a program without interruption. -/
def Ops.run {α : Type} (w : World) : Ops α → α × World
  | .ret a => (a, w)
  | .read p k => (k (w.read p)).run w
  | .write p c k => (k (w.write p c).1).run (w.write p c).2

/-- graphql.rs:135-166, as `importLoop`, with the read at line 155 as an operation. -/
def importLoopOps (cfg : CompileConfig) (currentFile currentDir : Path)
    (rec : Path → String → ImportSt → Ops (Option (PanicOr ImportSt))) :
    Nat → List (List Char) → ImportSt → Ops (Option (PanicOr ImportSt))
  | _, [], s => .ret (some (.done s))
  | idx, line :: rest, s =>
    match lineKind line with
    | .skip => importLoopOps cfg currentFile currentDir rec (idx + 1) rest s
    | .stop => .ret (some (.done s))
    | .import after =>
      let loc := Location.ofLineAndColumn (idx + 1) (String.ofList line) 9
      match getFilePathOfFragment cfg after currentDir with
      | none => .ret (some .panic)
      | some file => .read file fun r =>
        match r with
        | .error e =>
          importLoopOps cfg currentFile currentDir rec (idx + 1) rest
            { s with messages := s.messages ++
              [(Msg.ioError "read" e file).withSource currentFile (some loc)] }
        | .ok contents => (rec file contents s).bind fun r =>
          match r with
          | none => .ret none
          | some .panic => .ret (some .panic)
          | some (.done s') =>
            importLoopOps cfg currentFile currentDir rec (idx + 1) rest
              { s' with imports := AMap.insert s'.imports file (contents, loc) }

/-- graphql.rs:126-167 `add_imported_fragments`, as `addImported`. -/
def addImportedOps (cfg : CompileConfig) :
    Nat → Path → String → ImportSt → Ops (Option (PanicOr ImportSt))
  | 0 => fun _ _ _ => .ret none
  | n + 1 => fun file contents s =>
    importLoopOps cfg file file.pop (addImportedOps cfg n) 0 (linesC contents.toList) s

/-- graphql.rs:202-268 `compile_file` as the pool sees it (worker_pool.rs:109-117), as `compileFile` and
`poolCompile`: reads of the file and its imports, then at most one write. -/
def compileOps (ω : Hash) (fuel : Nat) (ext : Ext) (cfg : CompileConfig) (schema : Schema)
    (path : Path) : Ops FileOutcome :=
  .read path fun r =>
    match r with
    | .error e => .ret (.done [] [.ioError "read" e path])
    | .ok contents =>
      match parseGraphqlFile ext contents path with
      | .error m => .ret (.done [] [m])
      | .ok d => (addImportedOps cfg fuel path contents ⟨[], []⟩).bind fun r =>
        match r with
        | none => .ret .diverge
        | some .panic => .ret .panic
        | some (.done st) =>
          let (frags, msgs) := parseForeignFragments ω ext path st.imports st.messages
          match Operation.compile ω fuel ⟨schema, cfg.showDeprecationWarnings, frags⟩ d with
          | none => .ret .diverge
          | some (.error es, ws) =>
            .ret (.done [] (msgs ++ (es.map (IrError.toMsg ext.dist contents path) ++
              ws.map (Warning.toMsg contents path))))
          | some (.ok op, ws) =>
            let msgs := msgs ++ ws.map (Warning.toMsg contents path)
            match compileIr ω op cfg.toTsConfig schema with
            | .error e => .ret (.done [] (msgs ++ [e.toMsg]))
            | .ok c => .write (outputPath path) c.contents fun err =>
              match err with
              | some e => .ret (.done [] [.ioError "write" e (outputPath path)])
              | none => .ret (.done c.globalTypesUsed msgs)

/-- graphql.rs:270-297 `compile_global_types_file` and worker_pool.rs:281-290, as `finishWork`; `none`
if collecting the global types never ends. -/
def finishOps (ω : Hash) (fuel : Nat) (cfg : CompileConfig) (schema : Schema) (rootPath : Path)
    (aggregate : List Msg × List String) : Ops (Option (List Msg)) :=
  if aggregate.2.isEmpty then .ret (some aggregate.1)
  else
    match compileGlobals ω fuel cfg.toTsConfig schema aggregate.2 with
    | none => .ret none
    | some (.error e) => .ret (some (aggregate.1 ++ [e.toMsg]))
    | some (.ok contents) => .write (globalsPath cfg rootPath) contents fun err =>
      match err with
      | some e => .ret (some (aggregate.1 ++ [.ioError "write" e rootPath]))
      | none => .ret (some aggregate.1)

/-! ### Interrupted operations -/

/-- What reading a file yields when only the first `n` bytes of a text have been written: it may end
inside a character (`read_to_string` reports that as an error). -/
def cutChars : List Char → Nat → Except String (List Char)
  | [], _ => .ok []
  | c :: cs, n =>
    if n = 0 then .ok []
    else if n < c.utf8Size then .error "stream did not contain valid UTF-8"
    else match cutChars cs (n - c.utf8Size) with
      | .ok l => .ok (c :: l)
      | .error e => .error e

/-- The first `n` bytes of a text, as a file's contents. -/
def cut (text : String) (n : Nat) : Except String String :=
  match cutChars text.toList n with
  | .ok l => .ok (String.ofList l)
  | .error e => .error e

/-- The number of bytes of a text. -/
def byteLength (text : String) : Nat := text.utf8ByteSize

/-- Set what reading a file yields. -/
def World.set (w : World) (id : String) (r : Except String String) : World :=
  { w with disk := fun id' => if id' = id then r else w.disk id' }

/-- Where a running program of file operations is. -/
inductive Flight (α : Type) where
  /-- Between two operations. -/
  | ops (o : Ops α)
  /-- Inside `fs::write`: the file is open and `n` bytes of the text that this call will leave there have
  been written; then the program continues with `next`. -/
  | writing (p : Path) (text : String) (n : Nat) (next : Ops α)

/-- One system call.  `m` is the number of bytes a partial write manages to write.  The result is a new
position or the returned value. -/
def Flight.step {α : Type} (w : World) (m : Nat) : Flight α → (Flight α × World) ⊕ α
  | .ops (.ret a) => .inr a
  | .ops (.read p k) => .inl (.ops (k (w.read p)), w)
  | .ops (.write p c k) =>
    match w.writeErr (w.resolve p) with
    | some (e, none) => .inl (.ops (k (some e)), w)
    | some (e, some left) => .inl (.writing p left 0 (k (some e)), w.set (w.resolve p) (.ok ""))
    | none => .inl (.writing p c 0 (k none), w.set (w.resolve p) (.ok ""))
  | .writing p text n next =>
    if byteLength text ≤ n then .inl (.ops next, w)
    else .inl (.writing p text (n + m) next, w.set (w.resolve p) (cut text (n + m)))

/-- The pool, with the compiles that are under way. -/
structure FinePool where
  pool : PoolSt World
  flights : Nat → Option (Flight FileOutcome)

/-- The initial state. -/
def FinePool.init (world : World) (threads : Nat) (root : Entry) : FinePool :=
  ⟨PoolSt.init world threads root, fun _ => none⟩

/-- Replace one worker's flight. -/
def FinePool.setFlight (F : FinePool) (i : Nat) (f : Option (Flight FileOutcome)) : FinePool :=
  { F with flights := fun j => if j = i then f else F.flights j }

/-- One step of worker `i`.  A worker that compiles a file makes one system call, or starts, or returns
from the compile, which is then a step of the pool; a compile that never returns stays where it is.
Everything else is as in `PoolSt.step`, where the compiler is not called. -/
def FinePool.step (compile : Path → Ops FileOutcome) (threads : Nat) (F : FinePool)
    (im : Nat × Nat) : FinePool :=
  match F.pool.workers[im.1]? with
  | none => F
  | some me =>
    match me.pc with
    | .running (.graphQl p) =>
      match F.flights im.1 with
      | none => F.setFlight im.1 (some (.ops (compile p)))
      | some f =>
        match f.step F.pool.world im.2 with
        | .inl (f', w') => { F.setFlight im.1 (some f') with pool := { F.pool with world := w' } }
        | .inr .diverge => F
        | .inr out =>
          { F.setFlight im.1 none with pool := F.pool.step (fun w _ => (out, w)) threads im.1 }
    | _ => { F with pool := F.pool.step (fun w _ => (.diverge, w)) threads im.1 }

/-- A run: any list of worker indices and sizes of partial writes. -/
def FinePool.run (compile : Path → Ops FileOutcome) (threads : Nat) (F : FinePool)
    (sched : List (Nat × Nat)) : FinePool :=
  sched.foldl (FinePool.step compile threads) F

/-- The main thread writing the globals file: any list of sizes of partial writes.  The result is the
position and file system, or the returned value and file system. -/
def Flight.steps {α : Type} : World → List Nat → Flight α → (Flight α ⊕ α) × World
  | w, [], f => (.inl f, w)
  | w, m :: ms, f =>
    match f.step w m with
    | .inl (f', w') => Flight.steps w' ms f'
    | .inr a => (.inr a, w)

end Qlc
