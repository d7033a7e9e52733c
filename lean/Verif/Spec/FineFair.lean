import Verif.Spec.Crash
import Verif.Spec.Fair
/-
Infinite schedules of the pool with single file operations.
-/
set_option autoImplicit false

namespace Qlc.Spec

/-- The state after `n` steps of an infinite schedule of workers and sizes of partial writes. -/
def fineAt (compile : Path → Ops FileOutcome) (threads : Nat) (F : FinePool) (sched : Nat → Nat × Nat) :
    Nat → FinePool
  | 0 => F
  | n + 1 => (fineAt compile threads F sched n).step compile threads (sched n)

/-- Every partial write writes at least a byte.  (`write` returning 0 is reported as an error.) -/
def Progressing (sizes : Nat → Nat) : Prop := ∀ n, 0 < sizes n

end Qlc.Spec

namespace Qlc.Spec

/-- Under the schedule, a worker that has taken work off the channel is the next one to do a step. -/
def FineUndisturbed (compile : Path → Ops FileOutcome) (threads : Nat) (F : FinePool)
    (sched : Nat → Nat × Nat) : Prop :=
  ∀ (n j : Nat) (w : WorkerSt), (fineAt compile threads F sched n).pool.workers[j]? = some w →
    JustTook w → j = (sched n).1

end Qlc.Spec
