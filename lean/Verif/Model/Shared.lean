import Verif.Model.Steps
/-
Several invocations of the program at the same time over the same files.  Files are sequences of bytes here,
because two processes that write to one file write at positions of their own: `std::fs::write` opens the file,
which empties it, and then calls `write`, which puts bytes at the position where the previous call of the same
process ended, whatever others have made of the file in the meantime.
-/
set_option autoImplicit false

namespace Qlc

/-- The bytes of a text. -/
def utf8 (text : String) : List UInt8 := text.toUTF8.data.toList

/-- `fs::read_to_string`: the text of these bytes, or the displayed error. -/
def decodeUtf8 (b : List UInt8) : Except String String :=
  match String.fromUTF8? ⟨b.toArray⟩ with
  | some s => .ok s
  | none => .error "stream did not contain valid UTF-8"

/-- The file system, as `World`, with bytes. -/
structure ByteFs where
  resolve : Path → String
  /-- The bytes of a file, or the displayed error of opening it. -/
  files : String → Except String (List UInt8)
  /-- As in `World`. -/
  writeErr : String → Option (String × Option String)

/-- What reading these bytes yields. -/
def readBytes : Except String (List UInt8) → Except String String
  | .error e => .error e
  | .ok b => decodeUtf8 b

/-- The file system as programs that read whole files see it. -/
def ByteFs.view (fs : ByteFs) : World := ⟨fs.resolve, fun id => readBytes (fs.files id), fs.writeErr⟩

/-- Opening a file for writing empties it (`File::create`). -/
def ByteFs.truncate (fs : ByteFs) (id : String) : ByteFs :=
  { fs with files := fun id' => if id' = id then .ok [] else fs.files id' }

/-- `write(2)`: these bytes at this position.  A gap before the position is filled with zeros; writing no
bytes changes nothing. -/
def overlay (b : List UInt8) (pos : Nat) (chunk : List UInt8) : List UInt8 :=
  if chunk = [] then b
  else (b ++ List.replicate (pos - b.length) 0).take pos ++ chunk ++ b.drop (pos + chunk.length)

/-- `write(2)` on an open file. -/
def ByteFs.pwrite (fs : ByteFs) (id : String) (pos : Nat) (chunk : List UInt8) : ByteFs :=
  { fs with files := fun id' =>
      if id' = id then
        match fs.files id with
        | .ok b => .ok (overlay b pos chunk)
        | .error e => .error e
      else fs.files id' }

/-- One system call of a program, as `Flight.step`, on bytes. -/
def ByteFs.step {α : Type} (fs : ByteFs) (m : Nat) : Flight α → (Flight α × ByteFs) ⊕ α
  | .ops (.ret a) => .inr a
  | .ops (.read p k) => .inl (.ops (k (readBytes (fs.files (fs.resolve p)))), fs)
  | .ops (.write p c k) =>
    match fs.writeErr (fs.resolve p) with
    | some (e, none) => .inl (.ops (k (some e)), fs)
    | some (e, some left) => .inl (.writing p left 0 (k (some e)), fs.truncate (fs.resolve p))
    | none => .inl (.writing p c 0 (k none), fs.truncate (fs.resolve p))
  | .writing p text n next =>
    if byteLength text ≤ n then .inl (.ops next, fs)
    else .inl (.writing p text (n + m) next, fs.pwrite (fs.resolve p) n (((utf8 text).drop n).take m))

/-- Where the main thread of an invocation is (worker_pool.rs:274-291). -/
inductive MainPc where
  /-- In `join` (lines 275-277). -/
  | joining
  /-- Dealing with the globals file (lines 281-290). -/
  | finishing (f : Flight (Option (List Msg)))
  /-- `work` has returned these messages (`none`: collecting the global types never ends). -/
  | returned (r : Option (List Msg))

/-- An invocation under way: its threads, which do not share anything with other invocations but the files. -/
structure Proc where
  pool : PoolSt Unit
  flights : Nat → Option (Flight FileOutcome)
  main : MainPc

/-- The settings of an invocation, the hash seeds of its threads and, as everywhere, the fuel. -/
structure Job where
  cfg : CompileConfig
  schema : Schema
  ω : Path → Hash
  ω' : Hash
  fuel : Nat
  threads : Nat

/-- worker_pool.rs:249-272: an invocation after its threads have been started. -/
def Proc.init (threads : Nat) (root : Entry) : Proc :=
  ⟨PoolSt.init () threads root, fun _ => none, .joining⟩

/-- Replace the compile that a worker is busy with. -/
def Proc.setFlight (P : Proc) (i : Nat) (f : Option (Flight FileOutcome)) : Proc :=
  { P with flights := fun j => if j = i then f else P.flights j }

/-- One step of worker `i`, as `FinePool.step`. -/
def Proc.work (compile : Path → Ops FileOutcome) (threads : Nat) (fs : ByteFs) (P : Proc) (i m : Nat) :
    Proc × ByteFs :=
  match P.pool.workers[i]? with
  | none => (P, fs)
  | some me =>
    match me.pc with
    | .running (.graphQl p) =>
      match P.flights i with
      | none => (P.setFlight i (some (.ops (compile p))), fs)
      | some f =>
        match fs.step m f with
        | .inl (f', fs') => (P.setFlight i (some f'), fs')
        | .inr .diverge => (P, fs)
        | .inr out =>
          ({ P.setFlight i none with pool := P.pool.step (fun _ _ => (out, ())) threads i }, fs)
    | _ => ({ P with pool := P.pool.step (fun _ _ => (.diverge, ())) threads i }, fs)

/-- worker_pool.rs:274-291: one step of the main thread, `finish` being what it does with what the workers
have collected. -/
def Proc.mainStep (finish : List Msg × List String → Ops (Option (List Msg))) (fs : ByteFs) (P : Proc)
    (m : Nat) : Proc × ByteFs :=
  match P.main with
  | .joining =>
    if P.pool.finished then ({ P with main := .finishing (.ops (finish P.pool.aggregate)) }, fs) else (P, fs)
  | .finishing f =>
    match fs.step m f with
    | .inl (f', fs') => ({ P with main := .finishing f' }, fs')
    | .inr r => ({ P with main := .returned r }, fs)
  | .returned _ => (P, fs)

/-- Who makes a step. -/
inductive Actor where
  | worker (i : Nat)
  | main

/-- All invocations and the files. -/
structure Sys where
  fs : ByteFs
  procs : Nat → Proc

/-- One step of one thread of invocation `k`; `m` is the number of bytes a partial write manages to write. -/
def Sys.step (ext : Ext) (rootPath : Path) (jobs : Nat → Job) (S : Sys) (e : Nat × Actor × Nat) : Sys :=
  let J := jobs e.1
  let r := match e.2.1 with
    | .worker i =>
      (S.procs e.1).work (fun p => compileOps (J.ω p) J.fuel ext J.cfg J.schema p) J.threads S.fs i e.2.2
    | .main => (S.procs e.1).mainStep (finishOps J.ω' J.fuel J.cfg J.schema rootPath) S.fs e.2.2
  ⟨r.2, fun k => if k = e.1 then r.1 else S.procs k⟩

/-- Any number of invocations, started on these files. -/
def Sys.init (fs : ByteFs) (jobs : Nat → Job) (root : Entry) : Sys :=
  ⟨fs, fun k => Proc.init (jobs k).threads root⟩

/-- A run: any interleaving of the steps of all threads of all invocations. -/
def Sys.run (ext : Ext) (rootPath : Path) (jobs : Nat → Job) (S : Sys) (es : List (Nat × Actor × Nat)) : Sys :=
  es.foldl (Sys.step ext rootPath jobs) S

end Qlc
