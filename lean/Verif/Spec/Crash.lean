import Verif.Model.Steps
import Verif.Spec.Files
/-
Independent vocabulary for runs that are stopped at any point: what the file system may then look like.
-/
set_option autoImplicit false

namespace Qlc.Spec

/-- What writing `c` to a file leaves there if the file can be opened: `c`, or what the failing write
got done. -/
def Leaves (w : World) (id : String) (c t : String) : Prop :=
  (w.writeErr id = none ∧ t = c) ∨ ∃ e, w.writeErr id = some (e, some t)

/-- Compiling `p` alone generates a text, and writing it leaves `t` in the output of `p`. -/
def WouldLeave (ω : Hash) (fuel : Nat) (ext : Ext) (cfg : CompileConfig) (schema : Schema) (w : World)
    (p : Path) (t : String) : Prop :=
  ∃ msgs out, generateFile ω fuel ext cfg schema w p = some (.done (.ok (msgs, out))) ∧
    Leaves w (w.resolve (outputPath p)) out.contents t

/-- `F` is reached by some interleaving of the workers' single file operations. -/
def FineReached (ω : Path → Hash) (fuel : Nat) (ext : Ext) (cfg : CompileConfig) (schema : Schema)
    (w : World) (root : Entry) (threads : Nat) (F : FinePool) : Prop :=
  ∃ sched, F = (FinePool.init w threads root).run (fun p => compileOps (ω p) fuel ext cfg schema p)
    threads sched

/-- After the workers have stopped in `F`, the main thread deals with the globals file, system call by
system call; `now` is where it is (or what it returned) and the file system at that moment. -/
def FineFinish (ω' : Hash) (fuel : Nat) (cfg : CompileConfig) (schema : Schema) (rootPath : Path)
    (F : FinePool) (now : (Flight (Option (List Msg)) ⊕ Option (List Msg)) × World) : Prop :=
  ∃ sizes, now = Flight.steps F.pool.world sizes
    (.ops (finishOps ω' fuel cfg schema rootPath F.pool.aggregate))

/-- The whole program after the schema has been loaded, as `RunsTo`, with single file operations
interleaved. -/
structure FineRunsTo (ω : Path → Hash) (ω' : Hash) (fuel : Nat) (ext : Ext) (cfg : CompileConfig)
    (schema : Schema) (rootPath : Path) (root : Entry) (threads : Nat) (w : World) (F : FinePool)
    (ms : List Msg) (w' : World) : Prop where
  reached : FineReached ω fuel ext cfg schema w root threads F
  finished : F.pool.finished = true
  nothingLeft : pending F.pool = []
  globals : FineFinish ω' fuel cfg schema rootPath F (.inr (some ms), w')

/-- `w'` is what is left of `w` after the program was run any number of times, each time stopped at any
point or not at all: while the workers were busy, or, after they had done all the work, while the main thread
dealt with the globals file. -/
inductive StoppedRuns (ext : Ext) (cfg : CompileConfig) (schema : Schema) (rootPath : Path) (root : Entry)
    (w : World) : World → Prop where
  | none : StoppedRuns ext cfg schema rootPath root w w
  | workers {w' : World} {ω : Path → Hash} {fuel threads : Nat} {F : FinePool} :
      StoppedRuns ext cfg schema rootPath root w w' →
      FineReached ω fuel ext cfg schema w' root threads F →
      StoppedRuns ext cfg schema rootPath root w F.pool.world
  | globals {w' : World} {ω : Path → Hash} {ω' : Hash} {fuel threads : Nat} {F : FinePool}
      {now : (Flight (Option (List Msg)) ⊕ Option (List Msg)) × World} :
      StoppedRuns ext cfg schema rootPath root w w' →
      FineReached ω fuel ext cfg schema w' root threads F → F.pool.finished = true → pending F.pool = [] →
      FineFinish ω' fuel cfg schema rootPath F now →
      StoppedRuns ext cfg schema rootPath root w now.2

end Qlc.Spec
