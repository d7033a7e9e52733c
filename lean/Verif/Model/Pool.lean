import Verif.Model.Compile
/-
Model of src/worker_pool.rs: a small-step semantics in which one step is one channel operation, one
atomic operation or one piece of work.  Thread-local bookkeeping is merged with the neighbouring shared
operation.  Channels are unbounded FIFO queues (crossbeam-channel `unbounded`), atomics are
sequentially consistent (the code uses `SeqCst`), spurious scheduling is arbitrary: a schedule is any
list of worker indices.
-/
set_option autoImplicit false

namespace Qlc

/-- A directory entry as `fs::read_dir` and `file_type` report it.  The directory tree is taken to be
fixed while the program runs, up to files qlc writes itself, which the walk ignores anyway. -/
inductive Entry where
  /-- A regular file. -/
  | file (path : Path)
  /-- Anything that is neither a directory nor a regular file, e.g. a symbolic link. -/
  | other (path : Path)
  /-- An entry whose metadata cannot be read: `io_entry?` or `file_type()?` fails. -/
  | bad (err : String)
  /-- A directory that can be listed. -/
  | dir (path : Path) (entries : List Entry)
  /-- A directory for which `read_dir` fails. -/
  | badDir (path : Path) (err : String)

/-- worker_pool.rs:79-83 `Work`; a directory carries its tree. -/
inductive Work where
  | graphQl (path : Path)
  | dirEntry (e : Entry)

/-- worker_pool.rs:86-101 `run_dir_entry`: one pass over the listing. -/
def runEntries : List Entry → Except String (List Work)
  | [] => .ok []
  | .bad err :: _ => .error err
  | .dir p es :: rest =>
    match runEntries rest with
    | .error e => .error e
    | .ok ws => .ok (.dirEntry (.dir p es) :: ws)
  | .badDir p err :: rest =>
    match runEntries rest with
    | .error e => .error e
    | .ok ws => .ok (.dirEntry (.badDir p err) :: ws)
  | .file p :: rest =>
    match runEntries rest with
    | .error e => .error e
    | .ok ws => .ok (if p.extension = some "graphql" then .graphQl p :: ws else ws)
  | .other _ :: rest => runEntries rest

/-- What `compile_file` does as far as the pool can see.  `diverge` stands for a compile that never
returns (cyclic imports or fragments). -/
inductive FileOutcome where
  | done (globals : List String) (messages : List Msg)
  | panic
  | diverge

/-- `compile_file` as a parameter of the pool: `σ` is the file system.  A compile is one step of the
pool; that it reads and writes several files in between is only relevant when a file reads what another
one writes, which C57's hypothesis excludes.  `Model/Steps.lean` has every file operation as a step of
its own, and C66 proves that the two agree. -/
abbrev Compiler (σ : Type) := σ → Path → FileOutcome × σ

/-- worker_pool.rs:18-26 `WorkResult`, plus panics and divergence. -/
inductive WorkResult where
  | moreWork (ws : List Work)
  | compileResult (globals : List String) (messages : List Msg)
  | dirIoError (err : String) (path : Path)
  | panic
  | diverge

/-- worker_pool.rs:103-119 `Work::run`.  Only directories are ever put into a `DirEntry`
(worker_pool.rs:92 and 255), so the three last `dirEntry` cases only arise for a root path that is not
a directory, for which `read_dir` fails. -/
def Work.run {σ : Type} (compile : Compiler σ) (w : σ) : Work → WorkResult × σ
  | .dirEntry (.dir p es) =>
    match runEntries es with
    | .ok ws => (.moreWork ws, w)
    | .error e => (.dirIoError e p, w)
  | .dirEntry (.badDir p err) => (.dirIoError err p, w)
  | .dirEntry (.bad err) => (.dirIoError err ⟨false, []⟩, w)
  | .dirEntry (.file p) => (.dirIoError "Not a directory" p, w)
  | .dirEntry (.other p) => (.dirIoError "Not a directory" p, w)
  | .graphQl p =>
    match compile w p with
    | (.done gs ms, w') => (.compileResult gs ms, w')
    | (.panic, w') => (.panic, w')
    | (.diverge, _) => (.diverge, w)

/-- worker_pool.rs:12-16 `Message`. -/
inductive QMsg where
  | work (w : Work)
  | quit

/-- Where a worker is in worker_pool.rs:134-201. -/
inductive PC where
  /-- About to call `try_recv` (line 161). -/
  | recv
  /-- Got work; about to `set_waiting(false)` (line 163). -/
  | gotWork (w : Work)
  /-- About to `set_quitting(false)` (line 164). -/
  | gotWork2 (w : Work)
  /-- About to run the work (line 136). -/
  | running (w : Work)
  /-- Sending the additional work (lines 145-147). -/
  | sending (ws : List Work)
  /-- Got `Quit`; about to `set_waiting(true)` (line 168). -/
  | gotQuit
  /-- About to `set_quitting(true)` (line 169). -/
  | gotQuit2
  /-- In the quit loop, about to load `num_waiting` (line 171). -/
  | quitLoad
  /-- In the quit loop, about to load `num_quitting` (line 172). -/
  | quitLoad2 (nwait : Nat)
  /-- The queue was empty; about to `set_waiting(true)` (line 187). -/
  | empty
  /-- About to `set_quitting(false)` (line 188). -/
  | empty2
  /-- About to load `num_waiting` (line 189). -/
  | emptyLoad
  /-- About to send this many `Quit`s (lines 190-192). -/
  | sendQuit (n : Nat)
  /-- `run` returned (line 156). -/
  | exited
  /-- The compile panicked and the thread is gone. -/
  | panicked

/-- worker_pool.rs:122-131 `Worker`, with `aggregate` (28-62). -/
structure WorkerSt where
  pc : PC
  isWaiting : Bool
  isQuitting : Bool
  messages : List Msg
  globals : List String

/-- worker_pool.rs:249-272: shared state and the workers. -/
structure PoolSt (σ : Type) where
  /-- The file system. -/
  world : σ
  /-- Ghost: the files whose compile returned, in order. -/
  log : List Path
  queue : List QMsg
  numWaiting : Nat
  numQuitting : Nat
  workers : List WorkerSt

/-- worker_pool.rs:259-269. -/
def WorkerSt.init : WorkerSt := ⟨.recv, false, false, [], []⟩

/-- worker_pool.rs:250-272: the initial state with `threads` workers. -/
def PoolSt.init {σ : Type} (world : σ) (threads : Nat) (root : Entry) : PoolSt σ :=
  ⟨world, [], [.work (.dirEntry root)], 0, 0, List.replicate threads WorkerSt.init⟩

/-- worker_pool.rs:211-219 `set_waiting`: the counter and the worker's flag. -/
def setWaiting {σ : Type} (desired : Bool) (s : PoolSt σ) (me : WorkerSt) : PoolSt σ × WorkerSt :=
  if desired && !me.isWaiting then
    ({ s with numWaiting := s.numWaiting + 1 }, { me with isWaiting := true })
  else if !desired && me.isWaiting then
    ({ s with numWaiting := s.numWaiting - 1 }, { me with isWaiting := false })
  else (s, me)

/-- worker_pool.rs:221-229 `set_quitting`. -/
def setQuitting {σ : Type} (desired : Bool) (s : PoolSt σ) (me : WorkerSt) :
    PoolSt σ × WorkerSt :=
  if desired && !me.isQuitting then
    ({ s with numQuitting := s.numQuitting + 1 }, { me with isQuitting := true })
  else if !desired && me.isQuitting then
    ({ s with numQuitting := s.numQuitting - 1 }, { me with isQuitting := false })
  else (s, me)

/-- `HashSet::extend`. -/
def setExtend (s new : List String) : List String := new.foldl setInsert s

/-- worker_pool.rs:136-154: running one piece of work and using its result. -/
def runWork {σ : Type} (compile : Compiler σ) (s : PoolSt σ) (me : WorkerSt) (w : Work) :
    PoolSt σ × WorkerSt :=
  match w.run compile s.world with
  | (.moreWork ws, σ') => ({ s with world := σ' }, { me with pc := .sending ws })
  | (.compileResult gs ms, σ') =>
    ({ s with
        world := σ'
        log := match w with
          | .graphQl p => s.log ++ [p]
          | _ => s.log },
      { me with
        pc := .recv
        globals := setExtend me.globals gs
        messages := me.messages ++ ms })
  | (.dirIoError err path, σ') =>
    ({ s with world := σ' },
      { me with pc := .recv, messages := me.messages ++ [.ioError "read" err path] })
  | (.panic, σ') => ({ s with world := σ' }, { me with pc := .panicked })
  | (.diverge, _) => (s, me)

/-- worker_pool.rs:134-201: one step of one worker.  `threads` is `thread_count`. -/
def stepWorker {σ : Type} (compile : Compiler σ) (threads : Nat) (s : PoolSt σ) (me : WorkerSt) :
    PoolSt σ × WorkerSt :=
  match me.pc with
  | .recv =>
    match s.queue with
    | [] => (s, { me with pc := .empty })
    | .work w :: q => ({ s with queue := q }, { me with pc := .gotWork w })
    | .quit :: q => ({ s with queue := q }, { me with pc := .gotQuit })
  | .gotWork w => let (s', me') := setWaiting false s me; (s', { me' with pc := .gotWork2 w })
  | .gotWork2 w => let (s', me') := setQuitting false s me; (s', { me' with pc := .running w })
  | .running w => runWork compile s me w
  | .sending [] => (s, { me with pc := .recv })
  | .sending (w :: ws) => ({ s with queue := s.queue ++ [.work w] }, { me with pc := .sending ws })
  | .gotQuit => let (s', me') := setWaiting true s me; (s', { me' with pc := .gotQuit2 })
  | .gotQuit2 => let (s', me') := setQuitting true s me; (s', { me' with pc := .quitLoad })
  | .quitLoad => (s, { me with pc := .quitLoad2 s.numWaiting })
  | .quitLoad2 nwait =>
    if nwait < threads then (s, { me with pc := .recv })
    else if s.numQuitting = threads then (s, { me with pc := .exited })
    else (s, { me with pc := .quitLoad })
  | .empty => let (s', me') := setWaiting true s me; (s', { me' with pc := .empty2 })
  | .empty2 => let (s', me') := setQuitting false s me; (s', { me' with pc := .emptyLoad })
  | .emptyLoad =>
    if s.numWaiting = threads then (s, { me with pc := .sendQuit threads })
    else (s, { me with pc := .recv })
  | .sendQuit 0 => (s, { me with pc := .recv })
  | .sendQuit (n + 1) => ({ s with queue := s.queue ++ [.quit] }, { me with pc := .sendQuit n })
  | .exited => (s, me)
  | .panicked => (s, me)

/-- One step of worker `i` of the pool (no effect if there is no such worker). -/
def PoolSt.step {σ : Type} (compile : Compiler σ) (threads : Nat) (s : PoolSt σ) (i : Nat) :
    PoolSt σ :=
  match s.workers[i]? with
  | none => s
  | some me =>
    let (s', me') := stepWorker compile threads s me
    { s' with workers := s.workers.set i me' }

/-- A run: any list of worker indices. -/
def PoolSt.run {σ : Type} (compile : Compiler σ) (threads : Nat) (s : PoolSt σ)
    (sched : List Nat) : PoolSt σ :=
  sched.foldl (PoolSt.step compile threads) s

/-- worker_pool.rs:275-277: all handles joined. -/
def PoolSt.finished {σ : Type} (s : PoolSt σ) : Bool :=
  s.workers.all (fun w => match w.pc with | .exited => true | _ => false)

/-- worker_pool.rs:274-278: the joined aggregate: messages and globals in worker order. -/
def PoolSt.aggregate {σ : Type} (s : PoolSt σ) : List Msg × List String :=
  (s.workers.flatMap WorkerSt.messages, s.workers.foldl (fun acc w => setExtend acc w.globals) [])

end Qlc
