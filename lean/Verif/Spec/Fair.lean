import Verif.Spec.Pool
/-
Infinite schedules of the worker pool and fairness.
-/
set_option autoImplicit false

namespace Qlc.Spec

/-- The state after `n` steps of an infinite schedule. -/
def stateAt {σ : Type} (compile : Compiler σ) (threads : Nat) (s : PoolSt σ) (sched : Nat → Nat) :
    Nat → PoolSt σ
  | 0 => s
  | n + 1 => (stateAt compile threads s sched n).step compile threads (sched n)

/-- The operating system never stops scheduling a thread: every worker gets a turn after any moment. -/
def Fair (threads : Nat) (sched : Nat → Nat) : Prop :=
  ∀ i, i < threads → ∀ n, ∃ m, n ≤ m ∧ sched m = i

end Qlc.Spec
