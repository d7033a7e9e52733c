import Verif.Lemmas.PoolLive
import Verif.Spec.Demo
/-
The worker pool: C49 to C56.
-/
set_option autoImplicit false

namespace Qlc
open Spec

variable {σ : Type}

/-! ### Demo data -/

namespace Demo
/-- A tree with two query files, a link, a hidden file, another file and an unreadable directory. -/
def tree : Entry := .dir ⟨true, ["r"]⟩ [
  .file ⟨true, ["r", "a.graphql"]⟩,
  .dir ⟨true, ["r", "s"]⟩ [.file ⟨true, ["r", "s", "b.graphql"]⟩,
    .other ⟨true, ["r", "s", "l.graphql"]⟩],
  .badDir ⟨true, ["r", "u"]⟩ "denied",
  .file ⟨true, ["r", ".graphql"]⟩,
  .file ⟨true, ["r", "c.txt"]⟩]

/-- The files of the demo tree. -/
def treeFiles : List Path := [⟨true, ["r", "a.graphql"]⟩, ⟨true, ["r", "s", "b.graphql"]⟩]

/-- A compiler that uses the global type `G` in every file and changes nothing. -/
def okCompile : Compiler Unit := fun _ _ => (.done ["G"] [], ())

/-- A compiler that panics on `a.graphql`. -/
def panicCompile : Compiler Unit := fun _ p =>
  if p = ⟨true, ["r", "a.graphql"]⟩ then (.panic, ()) else (.done [] [], ())

/-- Enough steps of a single worker for the demo tree. -/
def oneWorker : List Nat := List.replicate 60 0

/-- A directory with one file in a subdirectory. -/
def raceTree : Entry := .dir ⟨true, ["r"]⟩ [.dir ⟨true, ["r", "s"]⟩ [.file ⟨true, ["r", "s", "w.graphql"]⟩]]

/-- The interleaving of two workers that loses `w.graphql`: worker 0 takes the subdirectory from the
queue while still counted as waiting, and worker 1 then finds the queue empty and everybody waiting. -/
def raceSched : List Nat :=
  [1, 0, 0, 0, 0, 1, 1, 1, 1, 1, 0, 1, 1, 1, 1, 1, 1, 1, 0, 0, 0, 0, 0, 1, 1, 1, 0, 0, 0, 0, 0, 1, 1]
end Demo

/-! ### C49 -/

/-- C49: at every moment the counters are the numbers of workers whose flag is set. Hence they never
exceed the number of threads, and a worker whose flag is set (the only one that may decrement) finds the
counter positive. -/
theorem C49_counters_exact (compile : Compiler σ) (world : σ) (threads : Nat) (root : Entry)
    (sched : List Nat) (s : PoolSt σ) (h : ReachedBy compile world threads root sched s) :
    s.workers.length = threads ∧
    s.numWaiting = (s.workers.filter WorkerSt.isWaiting).length ∧
    s.numQuitting = (s.workers.filter WorkerSt.isQuitting).length ∧
    s.numWaiting ≤ threads ∧ s.numQuitting ≤ threads ∧
    (∀ w ∈ s.workers, w.isWaiting = true → 0 < s.numWaiting) ∧
    (∀ w ∈ s.workers, w.isQuitting = true → 0 < s.numQuitting) := by
  have I := reached_inv h
  have e1 := I.waiting
  have e2 := I.quitting
  have l1 := countW_le WorkerSt.isWaiting s.workers
  have l2 := countW_le WorkerSt.isQuitting s.workers
  have hl := I.len
  rw [countW_eq_filter] at e1 e2 l1 l2
  refine ⟨hl, e1, e2, by omega, by omega, ?_, ?_⟩
  · intro w hw hf
    rw [e1]
    exact List.length_pos_of_mem (List.mem_filter.2 ⟨hw, hf⟩)
  · intro w hw hf
    rw [e2]
    exact List.length_pos_of_mem (List.mem_filter.2 ⟨hw, hf⟩)

/-- C49, the effect of one step: a counter moves by exactly the change of the stepping worker's flag (so
the saturating subtraction of the model is never saturated). -/
theorem C49_no_underflow (compile : Compiler σ) (world : σ) (threads : Nat) (root : Entry)
    (sched : List Nat) (s : PoolSt σ) (h : ReachedBy compile world threads root sched s) (i : Nat) :
    let s' := s.step compile threads i
    s'.numWaiting + (s.workers.filter WorkerSt.isWaiting).length
      = s.numWaiting + (s'.workers.filter WorkerSt.isWaiting).length ∧
    s'.numQuitting + (s.workers.filter WorkerSt.isQuitting).length
      = s.numQuitting + (s'.workers.filter WorkerSt.isQuitting).length := by
  have I := reached_inv h
  have I' := step_inv compile threads s i I
  simp only [← countW_eq_filter]
  rw [I.waiting, I.quitting, I'.waiting, I'.quitting]
  omega

/-- In the race schedule both counters reach 2. -/
example : ∃ s, ReachedBy Demo.okCompile () 2 Demo.raceTree Demo.raceSched s ∧ s.numWaiting = 2 ∧
    s.numQuitting = 2 := ⟨_, rfl, by decide +kernel, by decide +kernel⟩

/-! ### C50 -/

/-- C50: compiled files, owed files and the files on which a worker panicked are together exactly the
files of the tree, with multiplicity. -/
theorem C50_files_are_conserved (compile : Compiler σ) (world : σ) (threads : Nat) (root : Entry)
    (sched : List Nat) (s : PoolSt σ) (h : ReachedBy compile world threads root sched s) :
    ∃ lost : List Path, lost.length = (s.workers.filter isPanicked).length ∧
      (∀ p ∈ lost, ∃ w, (compile w p).1 = .panic) ∧
      (s.log ++ (pending s).flatMap workFiles ++ lost).Perm (filesOf root) := by
  obtain ⟨lost, h1, h2, h3⟩ := reached_conserved h
  refine ⟨lost, ?_, h2, h3⟩
  rw [h1, numPanicked, countW_eq_filter]

/-- C50, no file is compiled twice and none is invented. -/
theorem C50_no_file_twice (compile : Compiler σ) (world : σ) (threads : Nat) (root : Entry)
    (sched : List Nat) (s : PoolSt σ) (h : ReachedBy compile world threads root sched s)
    (hd : (filesOf root).Nodup) :
    s.log.Nodup ∧ (∀ p ∈ s.log, FoundIn root p) ∧
    ∀ p ∈ s.log, p ∉ (pending s).flatMap workFiles := by
  obtain ⟨lost, _, _, hp⟩ := reached_conserved h
  have hn := (hp.nodup_iff).2 hd
  rw [List.append_assoc, List.nodup_append] at hn
  refine ⟨hn.1, ?_, ?_⟩
  · intro p hpl
    rw [← mem_filesOf]
    exact hp.mem_iff.1 (by simp [hpl])
  · intro p hpl hpp
    exact hn.2.2 p hpl p (by simp [hpp]) rfl

/-- The demo tree has two distinct files, and a single worker compiles both. -/
example : (filesOf Demo.tree).Nodup ∧
    ((PoolSt.init () 1 Demo.tree).run Demo.okCompile 1 Demo.oneWorker).log = Demo.treeFiles := by
  decide +kernel

/-! ### C51 -/

/-- Places a worker only reaches after a decision to quit. -/
def quitPc : PC → Bool
  | .gotQuit | .gotQuit2 | .quitLoad | .quitLoad2 _ | .sendQuit _ | .exited => true
  | _ => false

/-- Something that only exists after a decision to quit. -/
def quitEvidence (s : PoolSt σ) : Prop :=
  QMsg.quit ∈ s.queue ∨ ∃ w ∈ s.workers, quitPc w.pc = true

theorem runWork_shape (compile : Compiler σ) (s : PoolSt σ) (me : WorkerSt) (w : Work)
    (hpc : me.pc = .running w) : (runWork compile s me w).1.queue = s.queue ∧
    ((runWork compile s me w).2.pc = .recv ∨ (∃ ws, (runWork compile s me w).2.pc = .sending ws) ∨
      (runWork compile s me w).2.pc = .panicked ∨ (runWork compile s me w).2.pc = .running w) := by
  unfold runWork
  rcases w.run compile s.world with ⟨r, w'⟩
  cases r <;> simp [hpc]

theorem step_evidence (compile : Compiler σ) (threads : Nat) (s : PoolSt σ) (i : Nat)
    (h : quitEvidence (s.step compile threads i)) : quitEvidence s ∨ DecidesToQuit threads s i := by
  rcases step_cases compile threads s i with h0 | ⟨me, hme, h0⟩
  · rw [h0] at h; exact .inl h
  · have hmem := List.mem_of_getElem? hme
    rw [h0] at h
    have hold : (QMsg.quit ∈ (stepWorker compile threads s me).1.queue → QMsg.quit ∈ s.queue) →
        quitPc (stepWorker compile threads s me).2.pc = false →
        quitEvidence s ∨ DecidesToQuit threads s i := by
      intro hq hw
      rcases h with h | ⟨w, hw', h⟩
      · exact .inl (.inl (hq h))
      · rcases mem_set_cases hw' with rfl | hw'
        · rw [hw] at h; simp at h
        · exact .inl (.inr ⟨w, hw', h⟩)
    have hself : quitPc me.pc = true → quitEvidence s := fun hx => .inr ⟨me, hmem, hx⟩
    cases hpc : me.pc with
    | recv =>
      cases hq : s.queue with
      | nil => exact hold (by simp [stepWorker, hpc, hq]) (by simp [stepWorker, hpc, hq, quitPc])
      | cons m q =>
        cases m with
        | work w =>
          exact hold (by simp [stepWorker, hpc, hq]) (by simp [stepWorker, hpc, hq, quitPc])
        | quit => exact .inl (.inl (by rw [hq]; exact List.mem_cons_self ..))
    | gotWork w =>
      refine hold ?_ (by simp [stepWorker, hpc, quitPc])
      cases hw : me.isWaiting <;> simp [stepWorker, hpc, setWaiting, hw]
    | gotWork2 w =>
      refine hold ?_ (by simp [stepWorker, hpc, quitPc])
      cases hw : me.isQuitting <;> simp [stepWorker, hpc, setQuitting, hw]
    | running w =>
      have hr : stepWorker compile threads s me = runWork compile s me w := by
        simp only [stepWorker, hpc]
      obtain ⟨hq, hp⟩ := runWork_shape compile s me w hpc
      refine hold (by rw [hr, hq]; exact id) ?_
      rw [hr]
      rcases hp with hp | ⟨ws, hp⟩ | hp | hp <;> rw [hp] <;> rfl
    | sending ws =>
      cases ws <;> exact hold (by simp [stepWorker, hpc]) (by simp [stepWorker, hpc, quitPc])
    | gotQuit => exact .inl (hself (by simp [hpc, quitPc]))
    | gotQuit2 => exact .inl (hself (by simp [hpc, quitPc]))
    | quitLoad => exact .inl (hself (by simp [hpc, quitPc]))
    | quitLoad2 n => exact .inl (hself (by simp [hpc, quitPc]))
    | empty =>
      obtain ⟨h1, h2⟩ := sw_empty compile threads s hpc
      exact hold (by rw [h2]; exact id) (by rw [h1]; rfl)
    | empty2 =>
      obtain ⟨h1, h2⟩ := sw_empty2 compile threads s hpc
      exact hold (by rw [h2]; exact id) (by rw [h1]; rfl)
    | emptyLoad =>
      by_cases hn : s.numWaiting = threads
      · exact .inr ⟨me, hme, hpc, hn⟩
      · exact hold (by simp [stepWorker, hpc, hn]) (by simp [stepWorker, hpc, hn, quitPc])
    | sendQuit n => exact .inl (hself (by simp [hpc, quitPc]))
    | exited => exact .inl (hself (by simp [hpc, quitPc]))
    | panicked => exact hold (by simp [stepWorker, hpc]) (by simp [stepWorker, hpc, quitPc])

theorem step_pending_nil (compile : Compiler σ) (threads : Nat) (s : PoolSt σ) (i : Nat)
    (h : pending s = []) : pending (s.step compile threads i) = [] := by
  cases step_effect compile threads s i with
  | quiet hp hw hl hm hg hn => rw [h] at hp; exact hp.eq_nil
  | listed p es ws rest hp hr hp' hw hl hm hg hn => rw [h] at hp; simpa using hp
  | unlisted e err p rest hp hr hp' hw hl hm hg hn => rw [h] at hp; simpa using hp
  | compiled p gs ms rest hp hr hp' hl hm hg hn => rw [h] at hp; simpa using hp
  | panicked p rest hp hr hp' hl hm hg hn => rw [h] at hp; simpa using hp

theorem evidence_pending (compile : Compiler σ) (threads : Nat) (sched : List Nat) :
    ∀ s : PoolSt σ, (quitEvidence s → pending s = []) → NoEarlyQuit compile threads s sched →
      quitEvidence (s.run compile threads sched) → pending (s.run compile threads sched) = [] := by
  induction sched with
  | nil => intro s h _; exact h
  | cons i sched ih =>
    intro s h hn
    rw [run_cons]
    refine ih _ ?_ ?_
    · intro he
      apply step_pending_nil
      rcases step_evidence compile threads s i he with he | he
      · exact h he
      · exact hn [] i sched rfl he
    · intro before j after hs hd
      exact hn (i :: before) j after (by rw [hs]; rfl) hd

theorem exited_of_finished {s : PoolSt σ} (h : s.finished = true) : ∀ w ∈ s.workers, w.pc = .exited := by
  intro w hw
  unfold PoolSt.finished at h
  rw [List.all_eq_true] at h
  have := h w hw
  cases hpc : w.pc <;> simp [hpc] at this ⊢

theorem no_panic_of_finished {s : PoolSt σ} (h : s.finished = true) : numPanicked s = 0 := by
  unfold numPanicked
  rw [countW_zero]
  intro w hw
  simp [isPanicked, exited_of_finished h w hw]

theorem finished_pending {compile : Compiler σ} {world : σ} {threads : Nat} {root : Entry}
    {sched : List Nat} {s : PoolSt σ} (h : ReachedBy compile world threads root sched s)
    (ht : 0 < threads) (hq : NoEarlyQuit compile threads (PoolSt.init world threads root) sched)
    (hf : s.finished = true) : pending s = [] := by
  have hlen := (reached_inv h).len
  have hpos : 0 < s.workers.length := by omega
  have hmem := List.getElem_mem hpos
  rw [h]
  refine evidence_pending compile threads sched _ ?_ hq ?_
  · rintro (he | ⟨w, hw, he⟩)
    · simp [PoolSt.init] at he
    · simp only [PoolSt.init, List.mem_replicate] at hw
      rw [hw.2] at he
      simp [WorkerSt.init, quitPc] at he
  · rw [← h]
    exact .inr ⟨_, hmem, by rw [exited_of_finished hf _ hmem]; rfl⟩

/-- C51: if all workers exited and none of them ever decided to quit while work was queued or in a
worker's hands, then exactly the files of the tree were compiled. -/
theorem C51_all_files_compiled (compile : Compiler σ) (world : σ) (threads : Nat) (root : Entry)
    (sched : List Nat) (s : PoolSt σ) (h : ReachedBy compile world threads root sched s)
    (ht : 0 < threads) (hq : NoEarlyQuit compile threads (PoolSt.init world threads root) sched)
    (hf : s.finished = true) :
    s.log.Perm (filesOf root) ∧ ∀ p, p ∈ s.log ↔ FoundIn root p := by
  have hp := finished_pending h ht hq hf
  obtain ⟨lost, h1, _, h2⟩ := reached_conserved h
  rw [no_panic_of_finished hf] at h1
  rw [List.eq_nil_of_length_eq_zero h1, hp] at h2
  simp only [List.flatMap_nil, List.append_nil] at h2
  refine ⟨h2, fun p => ?_⟩
  rw [h2.mem_iff, mem_filesOf]

/-- The state a lone worker is in when it looks at the counter. -/
def loneInv (s : PoolSt σ) : Prop :=
  ∀ w ∈ s.workers, (w.pc = .empty ∨ w.pc = .empty2 ∨ w.pc = .emptyLoad) → s.queue = []

theorem step_lone (compile : Compiler σ) (s : PoolSt σ) (i : Nat) (hl : s.workers.length = 1)
    (h : loneInv s) : loneInv (s.step compile 1 i) := by
  rcases step_cases compile 1 s i with h0 | ⟨me, hme, h0⟩
  · rw [h0]; exact h
  · have hi := lt_of_getElem? hme
    have hi0 : i = 0 := by omega
    subst hi0
    have hws : s.workers = [me] := by
      match hw : s.workers, hl with
      | [x], _ => rw [hw] at hme; simp at hme; rw [hme]
    rw [h0]
    intro w hw hpcs
    have hw' : w = (stepWorker compile 1 s me).2 := by
      simpa [hws] using hw
    subst hw'
    have hin := h me (by rw [hws]; simp)
    show (stepWorker compile 1 s me).1.queue = []
    cases hpc : me.pc with
    | recv =>
      cases hq : s.queue with
      | nil => simp [stepWorker, hpc, hq]
      | cons m q => cases m <;> simp [stepWorker, hpc, hq] at hpcs
    | empty => rw [(sw_empty compile 1 s hpc).2]; exact hin (.inl hpc)
    | empty2 => rw [(sw_empty2 compile 1 s hpc).2]; exact hin (.inr (.inl hpc))
    | emptyLoad =>
      by_cases hn : s.numWaiting = 1 <;> simp [stepWorker, hpc, hn] at hpcs
    | running w =>
      have hp := (runWork_shape compile s me w hpc).2
      simp only [stepWorker, hpc] at hpcs
      rcases hp with hp | ⟨ws, hp⟩ | hp | hp <;> simp [hp] at hpcs
    | gotWork w => simp [stepWorker, hpc] at hpcs
    | gotWork2 w => simp [stepWorker, hpc] at hpcs
    | sending ws => cases ws <;> simp [stepWorker, hpc] at hpcs
    | gotQuit => simp [stepWorker, hpc] at hpcs
    | gotQuit2 => simp [stepWorker, hpc] at hpcs
    | quitLoad => simp [stepWorker, hpc] at hpcs
    | quitLoad2 n =>
      simp only [stepWorker, hpc] at hpcs
      split at hpcs
      · simp at hpcs
      · split at hpcs <;> simp at hpcs
    | sendQuit n => cases n <;> simp [stepWorker, hpc] at hpcs
    | exited => simp [stepWorker, hpc] at hpcs
    | panicked => simp [stepWorker, hpc] at hpcs

/-- With one thread no schedule contains an early quit. -/
theorem lone_no_early_quit (compile : Compiler σ) (world : σ) (root : Entry) (sched : List Nat) :
    NoEarlyQuit compile 1 (PoolSt.init world 1 root) sched := by
  intro before i after _ hd
  have hinv : loneInv ((PoolSt.init world 1 root).run compile 1 before) ∧
      ((PoolSt.init world 1 root).run compile 1 before).workers.length = 1 := by
    refine run_invariant compile 1 (fun s => loneInv s ∧ s.workers.length = 1) ?_ before _ ?_
    · intro s i ⟨h1, h2⟩
      refine ⟨step_lone compile s i h2 h1, ?_⟩
      rcases step_cases compile 1 s i with h0 | ⟨me, hme, h0⟩
      · rw [h0]; exact h2
      · rw [h0]; simpa using h2
    · refine ⟨?_, by simp [PoolSt.init]⟩
      intro w hw hpcs
      simp [PoolSt.init] at hw
      rw [hw] at hpcs
      simp [WorkerSt.init] at hpcs
  obtain ⟨hin, hl⟩ := hinv
  generalize (PoolSt.init world 1 root).run compile 1 before = s at *
  obtain ⟨me, hme, hpc, _⟩ := hd
  have hi := lt_of_getElem? hme
  have hi0 : i = 0 := by omega
  subst hi0
  have hws : s.workers = [me] := by
    match hw : s.workers, hl with
    | [x], _ => rw [hw] at hme; simp at hme; rw [hme]
  have hq := hin me (by rw [hws]; simp) (.inr (.inr hpc))
  simp [pending, hq, hws, heldWork, hpc]

/-- C51 for one thread: whatever the schedule, when the worker has exited every file was compiled. -/
theorem C51_one_thread_compiles_everything (compile : Compiler σ) (world : σ) (root : Entry)
    (sched : List Nat) (s : PoolSt σ) (h : ReachedBy compile world 1 root sched s)
    (hf : s.finished = true) :
    s.log.Perm (filesOf root) ∧ ∀ p, p ∈ s.log ↔ FoundIn root p :=
  C51_all_files_compiled compile world 1 root sched s h (by omega)
    (lone_no_early_quit compile world root sched) hf

/-- C51, the race: with two threads there is a tree with a file and a schedule after which all workers
have exited, the file was never compiled, nothing was written and nothing is reported – whatever the
compiler is. -/
theorem C51_race_loses_a_file (compile : Compiler σ) (world : σ) :
    ∃ (root : Entry) (p : Path) (sched : List Nat) (s : PoolSt σ),
      ReachedBy compile world 2 root sched s ∧ FoundIn root p ∧
      s.finished = true ∧ s.log = [] ∧ s.world = world ∧ s.aggregate = ([], []) := by
  have hext : Path.extension ⟨true, ["r", "s", "w.graphql"]⟩ = some "graphql" := by decide +kernel
  have hs : (PoolSt.init world 2 Demo.raceTree).run compile 2 Demo.raceSched =
      ⟨world, [], [.work (.graphQl ⟨true, ["r", "s", "w.graphql"]⟩)], 2, 2,
        [⟨.exited, true, true, [], []⟩, ⟨.exited, true, true, [], []⟩]⟩ := by
    simp [PoolSt.run, Demo.raceSched, PoolSt.init, Demo.raceTree, WorkerSt.init, PoolSt.step,
      stepWorker, setWaiting, setQuitting, runWork, Work.run, runEntries, hext]
  refine ⟨Demo.raceTree, ⟨true, ["r", "s", "w.graphql"]⟩, Demo.raceSched, _, rfl, ?_, ?_, ?_, ?_, ?_⟩
  · rw [← mem_filesOf]
    decide +kernel
  all_goals (rw [hs]; try rfl)

/-- Two threads can also do it right: the hypotheses of `C51_all_files_compiled` are met by a real run. -/
example : ∃ s, ReachedBy Demo.okCompile () 1 Demo.tree Demo.oneWorker s ∧ s.finished = true ∧
    s.log = Demo.treeFiles := ⟨_, rfl, by decide +kernel, by decide +kernel⟩

/-! ### C52 -/

/-- C52: if no compile of a file of the tree panics or hangs, then from every reachable state some
continuation makes all workers exit. -/
theorem C52_can_always_finish (compile : Compiler σ) (world : σ) (threads : Nat) (root : Entry)
    (hall : ∀ w p, FoundIn root p → ∃ gs ms w', compile w p = (.done gs ms, w'))
    (sched : List Nat) (s : PoolSt σ) (h : ReachedBy compile world threads root sched s) :
    ∃ more, (s.run compile threads more).finished = true := by
  have hall' : AllReturn compile root := fun w p hp => hall w p ((mem_filesOf root p).1 hp)
  rw [h]
  exact can_finish hall' ((init_good compile world threads root).run hall' sched)

/-- The hypothesis holds of the demo compiler. -/
example : ∀ w p, FoundIn Demo.tree p → ∃ gs ms w', Demo.okCompile w p = (.done gs ms, w') :=
  fun _ _ _ => ⟨_, _, _, rfl⟩

/-! ### C53 -/

theorem step_keeps (compile : Compiler σ) (threads : Nat) (s : PoolSt σ) (k : Nat)
    (I : PoolInv threads s) (i : Nat) (wi : WorkerSt) (hi : s.workers[i]? = some wi)
    (hpi : isPanicked wi = true) :
    (∃ wi' : WorkerSt, (s.step compile threads k).workers[i]? = some wi' ∧ isPanicked wi' = true) ∧
    ∀ (j : Nat) (wj : WorkerSt), s.workers[j]? = some wj → isExited wj = false →
      ∃ wj' : WorkerSt, (s.step compile threads k).workers[j]? = some wj' ∧ isExited wj' = false := by
  have hpc : wi.pc = .panicked := by
    unfold isPanicked at hpi
    cases h : wi.pc <;> simp [h] at hpi ⊢
  have hq : s.numQuitting < threads := by
    have hf := I.flags wi (List.mem_of_getElem? hi)
    simp only [flagsOk, hpc] at hf
    have h1 := countW_le WorkerSt.isQuitting s.workers
    have h2 : countW WorkerSt.isQuitting s.workers ≠ s.workers.length := by
      intro h
      have := (countW_full _ _).1 h wi (List.mem_of_getElem? hi)
      rw [hf.2] at this
      simp at this
    rw [I.quitting]
    have := I.len
    omega
  rcases step_cases compile threads s k with h0 | ⟨me, hme, h0⟩
  · rw [h0]
    exact ⟨⟨wi, hi, hpi⟩, fun j wj h1 h2 => ⟨wj, h1, h2⟩⟩
  · rw [h0]
    refine ⟨?_, ?_⟩
    · by_cases hik : k = i
      · subst hik
        rw [hi, Option.some.injEq] at hme
        subst hme
        refine ⟨_, List.getElem?_set_self (lt_of_getElem? hi), ?_⟩
        simp [stepWorker, hpc, isPanicked]
      · exact ⟨wi, by simp only; rw [List.getElem?_set_ne hik]; exact hi, hpi⟩
    · intro j wj hj hej
      by_cases hjk : k = j
      · subst hjk
        rw [hj, Option.some.injEq] at hme
        subst hme
        refine ⟨_, List.getElem?_set_self (lt_of_getElem? hj), ?_⟩
        cases hpcj : wj.pc with
        | recv =>
          cases hqq : s.queue with
          | nil => simp [stepWorker, hpcj, hqq, isExited]
          | cons m q => cases m <;> simp [stepWorker, hpcj, hqq, isExited]
        | running w =>
          simp only [stepWorker, hpcj, runWork, isExited]
          rcases w.run compile s.world with ⟨r, w'⟩
          cases r <;> simp [hpcj]
        | sending ws => cases ws <;> simp [stepWorker, hpcj, isExited]
        | quitLoad2 n =>
          have : ¬ s.numQuitting = threads := by omega
          by_cases hn : n < threads <;> simp [stepWorker, hpcj, isExited, hn, this]
        | emptyLoad =>
          by_cases hn : s.numWaiting = threads <;> simp [stepWorker, hpcj, isExited, hn]
        | sendQuit n => cases n <;> simp [stepWorker, hpcj, isExited]
        | exited => simp [isExited, hpcj] at hej
        | gotWork w => simp [stepWorker, hpcj, isExited]
        | gotWork2 w => simp [stepWorker, hpcj, isExited]
        | gotQuit => simp [stepWorker, hpcj, isExited]
        | gotQuit2 => simp [stepWorker, hpcj, isExited]
        | quitLoad => simp [stepWorker, hpcj, isExited]
        | empty => simp [stepWorker, hpcj, isExited]
        | empty2 => simp [stepWorker, hpcj, isExited]
        | panicked => simp [stepWorker, hpcj, isExited]
      · exact ⟨wj, by simp only; rw [List.getElem?_set_ne hjk]; exact hj, hej⟩

/-- C53: once a worker has panicked, no worker that has not exited by then can ever exit. -/
theorem C53_nobody_exits_after_a_panic (compile : Compiler σ) (world : σ) (threads : Nat)
    (root : Entry) (sched : List Nat) (s : PoolSt σ)
    (h : ReachedBy compile world threads root sched s)
    (i : Nat) (wi : WorkerSt) (hi : s.workers[i]? = some wi) (hpi : isPanicked wi = true)
    (j : Nat) (wj : WorkerSt) (hj : s.workers[j]? = some wj) (hej : isExited wj = false)
    (more : List Nat) :
    ∃ wj' : WorkerSt, (s.run compile threads more).workers[j]? = some wj' ∧ isExited wj' = false := by
  have key := run_invariant compile threads (fun s => PoolInv threads s ∧
    (∃ wi : WorkerSt, s.workers[i]? = some wi ∧ isPanicked wi = true) ∧
    ∃ wj : WorkerSt, s.workers[j]? = some wj ∧ isExited wj = false) (by
      rintro s k ⟨I, ⟨wi, h1, h2⟩, wj, h3, h4⟩
      obtain ⟨a, b⟩ := step_keeps compile threads s k I i wi h1 h2
      exact ⟨step_inv compile threads s k I, a, b j wj h3 h4⟩) more s
    ⟨reached_inv h, ⟨wi, hi, hpi⟩, wj, hj, hej⟩
  exact key.2.2

/-- C53, the hang: if only one file makes the compiler panic, then from the moment a worker has panicked,
every other worker that has not exited by then stays alive for ever: the program does not terminate. -/
theorem C53_panic_hangs_the_program (compile : Compiler σ) (world : σ) (threads : Nat)
    (root : Entry) (sched : List Nat) (s : PoolSt σ)
    (h : ReachedBy compile world threads root sched s)
    (bad : Path) (hbad : ∀ w p, (compile w p).1 = .panic → p = bad) (hd : (filesOf root).Nodup)
    (i : Nat) (wi : WorkerSt) (hi : s.workers[i]? = some wi) (hpi : isPanicked wi = true)
    (j : Nat) (wj : WorkerSt) (hj : s.workers[j]? = some wj) (hej : isExited wj = false) (hij : i ≠ j)
    (more : List Nat) :
    ∃ wj' : WorkerSt, (s.run compile threads more).workers[j]? = some wj' ∧ isExited wj' = false ∧
      isPanicked wj' = false := by
  have h' : ReachedBy compile world threads root (sched ++ more) (s.run compile threads more) := by
    unfold ReachedBy at h ⊢
    rw [run_append, ← h]
  obtain ⟨wj', h1, h2⟩ := C53_nobody_exits_after_a_panic compile world threads root sched s h i wi hi hpi
    j wj hj hej more
  refine ⟨wj', h1, h2, ?_⟩
  have hi' : ∃ wi' : WorkerSt, (s.run compile threads more).workers[i]? = some wi' ∧
      isPanicked wi' = true := by
    have key := run_invariant compile threads (fun s => PoolInv threads s ∧
      (∃ wi : WorkerSt, s.workers[i]? = some wi ∧ isPanicked wi = true)) (by
        rintro s k ⟨I, ⟨wi, h1, h2⟩⟩
        exact ⟨step_inv compile threads s k I, (step_keeps compile threads s k I i wi h1 h2).1⟩) more s
      ⟨reached_inv h, wi, hi, hpi⟩
    exact key.2
  obtain ⟨wi', h3, h4⟩ := hi'
  cases hp : isPanicked wj' with
  | false => rfl
  | true =>
    exfalso
    obtain ⟨lost, l1, l2, l3⟩ := reached_conserved h'
    have hle : numPanicked (s.run compile threads more) ≤ 1 := by
      rw [← l1]
      have hn : lost.Nodup := by
        have := (l3.nodup_iff).2 hd
        rw [List.nodup_append] at this
        exact this.2.1
      match lost, l2, hn with
      | [], _, _ => simp
      | [_], _, _ => simp
      | a :: b :: rest, l2, hn =>
        obtain ⟨w1, e1⟩ := l2 a (by simp)
        obtain ⟨w2, e2⟩ := l2 b (by simp)
        have e3 := hbad _ _ e1
        have e4 := hbad _ _ e2
        simp [e3, e4] at hn
    have c1 := countW_perm (f := isPanicked) (perm_of_getElem? h3)
    have hmem : wj' ∈ (s.run compile threads more).workers.eraseIdx i := by
      rw [List.mem_eraseIdx_iff_getElem?]
      exact ⟨j, Ne.symm hij, h1⟩
    have c2 : 0 < countW isPanicked ((s.run compile threads more).workers.eraseIdx i) := by
      rw [countW_eq_filter]
      exact List.length_pos_of_mem (List.mem_filter.2 ⟨hmem, hp⟩)
    have c3 : countW isPanicked (wi' :: (s.run compile threads more).workers.eraseIdx i)
        = 1 + countW isPanicked ((s.run compile threads more).workers.eraseIdx i) := by
      simp only [countW, List.map_cons, List.sum_cons, h4, b2n, if_true]
    unfold numPanicked at hle
    omega

/-- Two workers, one panics on `a.graphql`, the other has not exited. -/
example : ∃ s : PoolSt Unit, ReachedBy Demo.panicCompile () 2 Demo.tree
      [0, 0, 0, 0, 0, 0, 0, 0, 0, 0, 0, 0] s ∧
    (s.workers.map isPanicked = [true, false]) ∧ (s.workers.map isExited = [false, false]) :=
  ⟨_, rfl, by decide +kernel, by decide +kernel⟩

/-! ### C54 -/

/-- C54 for the pool: without workers nothing ever happens, and the pool counts as finished at once. -/
theorem C54_zero_threads_pool (compile : Compiler σ) (world : σ) (root : Entry) (sched : List Nat)
    (s : PoolSt σ) (h : ReachedBy compile world 0 root sched s) :
    s.finished = true ∧ s.world = world ∧ s.log = [] ∧ s.aggregate = ([], []) := by
  have key := run_invariant compile 0 (fun s => s = PoolSt.init world 0 root) (by
    rintro s i rfl
    rcases step_cases compile 0 (PoolSt.init world 0 root) i with h0 | ⟨me, hme, h0⟩
    · exact h0
    · simp [PoolSt.init] at hme) sched _ rfl
  rw [h, key]
  exact ⟨rfl, rfl, rfl, rfl⟩

/-- C54: a run with zero threads exits with status 0, prints nothing and writes nothing. -/
theorem C54_zero_threads_do_nothing (ω : Path → Hash) (ω' : Hash) (fuel : Nat) (ext : Ext)
    (paint : Paint) (cpus : Nat) (readConfig : Path → ConfigRead) (readSchema : Path → SchemaRead)
    (tree : Path → Entry) (w : World) (args : CliArgs) (r : RuntimeConfig) (schema : Schema)
    (hcfg : RuntimeConfig.fromCli cpus readConfig args = .ok r) (h0 : r.numberThreads = 0)
    (hschema : parseSchema r.schemaPath (readSchema r.schemaPath) = .ok schema) (f : Finished)
    (hrun : Runs ω ω' fuel ext paint cpus readConfig readSchema tree w args f) :
    f.exit.code = 0 ∧ f.exit.printed = [] ∧ f.world = w := by
  cases hrun with
  | badConfig m h => rw [hcfg] at h; simp at h
  | badSchema r' ms h hs =>
    rw [hcfg] at h
    simp only [Except.ok.injEq] at h
    subst h
    rw [hschema] at hs
    simp at hs
  | finished r' schema' sched ms w' s h hs hr hfin hend =>
    rw [hcfg] at h
    simp only [Except.ok.injEq] at h
    subst h
    rw [h0] at hr
    obtain ⟨_, e2, _, e4⟩ := C54_zero_threads_pool _ _ _ _ s hr
    rw [e2, e4] at hend
    simp [finishWork, compileGlobalTypesFile] at hend
    obtain ⟨rfl, rfl⟩ := hend
    exact ⟨rfl, rfl, rfl⟩

end Qlc
