import Verif.Lemmas.PoolFair
import Verif.Props.Pool
import Verif.Props.PoolResults
/-
Property C71: under a fair scheduler the workers always finish.
-/
set_option autoImplicit false

namespace Qlc
open Spec

variable {σ : Type}

theorem fairRun_init (compile : Compiler σ) (world : σ) (threads : Nat) (root : Entry)
    (hall : ∀ w p, FoundIn root p → ∃ gs ms w', compile w p = (.done gs ms, w'))
    (sched : Nat → Nat) (hfair : Fair threads sched) :
    FairRun compile threads root (stateAt compile threads (PoolSt.init world threads root) sched) sched := by
  have hall' : AllReturn compile root := fun w p hp => hall w p ((mem_filesOf root p).1 hp)
  refine ⟨hall', ?_, fun _ => rfl, hfair⟩
  intro n
  induction n with
  | zero => exact init_good compile world threads root
  | succ n ih => exact ih.step hall' _

/-- **C71.** If no compile of a file of the tree panics or hangs, then under every schedule that gives each
worker a turn again and again, all workers exit after finitely many steps. -/
theorem C71_fair_schedules_finish (compile : Compiler σ) (world : σ) (threads : Nat) (root : Entry)
    (hall : ∀ w p, FoundIn root p → ∃ gs ms w', compile w p = (.done gs ms, w'))
    (sched : Nat → Nat) (hfair : Fair threads sched) :
    ∃ N, ∀ n, N ≤ n →
      (stateAt compile threads (PoolSt.init world threads root) sched n).finished = true :=
  (fairRun_init compile world threads root hall sched hfair).all_exit

/-- A state of an infinite schedule is reached by its first steps. -/
theorem stateAt_run (compile : Compiler σ) (threads : Nat) (s : PoolSt σ) (sched : Nat → Nat) (n : Nat) :
    stateAt compile threads s sched n = s.run compile threads ((List.range n).map sched) := by
  induction n with
  | zero => rfl
  | succ n ih =>
    rw [stateAt, ih, List.range_succ, List.map_append, run_append]
    rfl

/-- Round robin is a fair schedule. -/
theorem roundRobin_fair (threads : Nat) : Fair threads (fun n => n % threads) := by
  intro i hi n
  refine ⟨threads * n + i, ?_, ?_⟩
  · have : 0 < threads := by omega
    have := Nat.le_mul_of_pos_left n this
    omega
  · simp only [Nat.mul_add_mod]
    exact Nat.mod_eq_of_lt hi

/-- **C71.** With one thread, every file of the tree is compiled after finitely many steps, exactly once. -/
theorem C71_one_thread_compiles_everything (compile : Compiler σ) (world : σ) (root : Entry)
    (hall : ∀ w p, FoundIn root p → ∃ gs ms w', compile w p = (.done gs ms, w'))
    (sched : Nat → Nat) (hfair : Fair 1 sched) :
    ∃ n, (stateAt compile 1 (PoolSt.init world 1 root) sched n).finished = true ∧
      (stateAt compile 1 (PoolSt.init world 1 root) sched n).log.Perm (filesOf root) ∧
      ∀ p, p ∈ (stateAt compile 1 (PoolSt.init world 1 root) sched n).log ↔ FoundIn root p := by
  obtain ⟨N, hN⟩ := C71_fair_schedules_finish compile world 1 root hall sched hfair
  exact ⟨N, hN N (Nat.le_refl _), C51_one_thread_compiles_everything compile world root _ _
    (stateAt_run compile 1 _ sched N) (hN N (Nat.le_refl _))⟩

/-- **C71.** With any number of threads: unless some worker decides to quit while work is left, every file of
the tree is compiled after finitely many steps. -/
theorem C71_all_files_compiled (compile : Compiler σ) (world : σ) (threads : Nat) (ht : 0 < threads) (root : Entry)
    (hall : ∀ w p, FoundIn root p → ∃ gs ms w', compile w p = (.done gs ms, w'))
    (sched : Nat → Nat) (hfair : Fair threads sched)
    (hq : ∀ n i, DecidesToQuit threads (stateAt compile threads (PoolSt.init world threads root) sched n) i →
      sched n = i → pending (stateAt compile threads (PoolSt.init world threads root) sched n) = []) :
    ∃ n, (stateAt compile threads (PoolSt.init world threads root) sched n).finished = true ∧
      (stateAt compile threads (PoolSt.init world threads root) sched n).log.Perm (filesOf root) := by
  obtain ⟨N, hN⟩ := C71_fair_schedules_finish compile world threads root hall sched hfair
  refine ⟨N, hN N (Nat.le_refl _), (C51_all_files_compiled compile world threads root _ _
    (stateAt_run compile threads _ sched N) ht ?_ (hN N (Nat.le_refl _))).1⟩
  intro before i after he hd
  have hlen : before.length < N := by
    have := congrArg List.length he
    simp at this
    omega
  have hb : before = (List.range before.length).map sched := by
    have := congrArg (List.take before.length) he
    rw [List.take_left' rfl, ← List.map_take, List.take_range, Nat.min_eq_left (by omega)] at this
    exact this.symm
  have hi : sched before.length = i := by
    have := congrArg (fun l => l[before.length]?) he
    simp only [List.getElem?_map, List.getElem?_range hlen, Option.map_some,
      List.getElem?_append_right (Nat.le_refl _), Nat.sub_self, List.getElem?_cons_zero,
      Option.some.injEq] at this
    exact this
  have hst := stateAt_run compile threads (PoolSt.init world threads root) sched before.length
  rw [← hb] at hst
  rw [← hst] at hd ⊢
  exact hq _ i hd hi

/-- The hypotheses are met by the demo compiler and round robin with three threads. -/
example : ∃ N, (stateAt Demo.okCompile 3 (PoolSt.init () 3 Demo.tree) (fun n => n % 3) N).finished = true := by
  obtain ⟨N, h⟩ := C71_fair_schedules_finish Demo.okCompile () 3 Demo.tree (fun _ _ _ => ⟨_, _, _, rfl⟩) _
    (roundRobin_fair 3)
  exact ⟨N, h N (Nat.le_refl _)⟩

end Qlc
