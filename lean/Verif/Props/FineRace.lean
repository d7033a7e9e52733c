import Verif.Props.PoolRace
import Verif.Props.Ends
/-
C102, C103 for any number of threads: runs in which no worker is disturbed between taking work and
saying so.
-/
set_option autoImplicit false

namespace Qlc
open Spec

theorem fine_pool_cases (compile : Path → Ops FileOutcome) (threads : Nat) (F : FinePool) (im : Nat × Nat) :
    (∃ w', (F.step compile threads im).pool = { F.pool with world := w' }) ∨
    ∃ c, (F.step compile threads im).pool = F.pool.step c threads im.1 := by
  unfold FinePool.step
  cases hw : F.pool.workers[im.1]? with
  | none => exact .inl ⟨F.pool.world, rfl⟩
  | some me =>
    simp only
    cases hpc : me.pc with
    | running x =>
      cases x with
      | graphQl p =>
        simp only
        cases hfl : F.flights im.1 with
        | none => exact .inl ⟨F.pool.world, rfl⟩
        | some f =>
          simp only
          cases hs : f.step F.pool.world im.2 with
          | inl r => exact .inl ⟨r.2, rfl⟩
          | inr out =>
            cases out with
            | diverge => exact .inl ⟨F.pool.world, rfl⟩
            | done gs ms => exact .inr ⟨_, rfl⟩
            | panic => exact .inr ⟨_, rfl⟩
      | dirEntry e => exact .inr ⟨_, rfl⟩
    | _ => exact .inr ⟨_, rfl⟩

theorem fine_attended {compile : Path → Ops FileOutcome} {threads : Nat} (ht : 0 < threads) {w : World}
    {root : Entry} {sched : Nat → Nat × Nat}
    (hu : FineUndisturbed compile threads (FinePool.init w threads root) sched) (n : Nat) :
    PoolInv threads (fineAt compile threads (FinePool.init w threads root) sched n).pool ∧
      Attended (fineAt compile threads (FinePool.init w threads root) sched n).pool := by
  induction n with
  | zero =>
    exact ⟨reached_inv (compile := fun w _ => (.diverge, w)) (world := w) (threads := threads) (root := root)
      (sched := []) rfl, init_attended w threads ht root⟩
  | succ n ih =>
    have hj := hu n
    rw [fineAt]
    generalize fineAt compile threads (FinePool.init w threads root) sched n = F at ih hj
    obtain ⟨I, A⟩ := ih
    rcases fine_pool_cases compile threads F (sched n) with ⟨w', h⟩ | ⟨c, h⟩
    · rw [h]
      exact ⟨⟨I.len, I.waiting, I.quitting, I.flags⟩, A⟩
    · rw [h]
      refine ⟨step_inv c threads F.pool (sched n).1 I, step_attended c threads F.pool (sched n).1 I A ?_⟩
      intro hd x hx htook
      obtain ⟨j, hj'⟩ := List.mem_iff_getElem?.1 hx
      obtain rfl := hj j x hj' htook
      obtain ⟨me, hme, hpc, _⟩ := hd
      rw [hme] at hj'
      cases hj'
      obtain ⟨y, hy⟩ := htook
      rw [hpc] at hy
      cases hy

theorem attended_finished {threads : Nat} (ht : 0 < threads) {s : PoolSt World} (I : PoolInv threads s)
    (A : Attended s) (hf : s.finished = true) : pending s = [] := by
  rcases A with A | ⟨hev, _⟩
  · exact A
  · exfalso
    have hpos : 0 < s.workers.length := by rw [I.len]; exact ht
    have hmem := List.getElem_mem hpos
    exact hev (.inr ⟨_, hmem, by rw [exited_of_finished hf _ hmem]; rfl⟩)

section
variable {ω : Path → Hash} {ω' : Hash} {fuel : Nat} {ext : Ext} {cfg : CompileConfig} {schema : Schema}
  {w : World} {root : Entry} {threads : Nat} {rootPath : Path}

/-- **C102.** With any number of threads the whole program runs to its end under every fair schedule of
single system calls in which no other worker moves between a worker's taking work off the channel and its
saying so: all workers exit, every file has then been compiled, its output is what compiling it alone
leaves, and the main thread finishes the globals file after finitely many system calls. -/
theorem C102_undisturbed_completes (ht : 0 < threads) (hr : NoOutputRead w cfg root)
    (hd : OutputsDistinct w root) (hn : (filesOf root).Nodup)
    (hall : ∀ p, FoundIn root p → ∃ ms gs, CompilesWith ω fuel ext cfg schema w p ms gs)
    (hglob : ∀ used : List String, (∀ g, g ∈ used ↔ UsedGlobal ω fuel ext cfg schema w root g) →
      (compileGlobals ω' fuel cfg.toTsConfig schema used).isSome = true)
    (sched : Nat → Nat × Nat) (hfair : Fair threads (fun n => (sched n).1))
    (hsizes : Progressing (fun n => (sched n).2))
    (hu : FineUndisturbed (fun p => compileOps (ω p) fuel ext cfg schema p) threads
      (FinePool.init w threads root) sched) :
    ∃ N, ∀ n, N ≤ n → ∃ F, F = fineAt (fun p => compileOps (ω p) fuel ext cfg schema p) threads
        (FinePool.init w threads root) sched n ∧
      F.pool.finished = true ∧ pending F.pool = [] ∧ (∀ p, p ∈ F.pool.log ↔ FoundIn root p) ∧
      (∀ p, FoundIn root p → F.pool.world.disk (w.resolve (outputPath p)) =
        (poolCompile ω fuel ext cfg schema w p).2.disk (w.resolve (outputPath p))) ∧
      ∀ sizes, Progressing sizes → ∃ k ms w', Flight.steps F.pool.world ((List.range k).map sizes)
          (.ops (finishOps ω' fuel cfg schema rootPath F.pool.aggregate)) = (.inr (some ms), w') ∧
        FineRunsTo ω ω' fuel ext cfg schema rootPath root threads w F ms w' := by
  obtain ⟨N, hN⟩ := C102_workers_finish hr hd hn hall sched hfair hsizes
  refine ⟨N, fun n hle => ⟨_, rfl, hN n hle, ?_⟩⟩
  have hF : FineReached ω fuel ext cfg schema w root threads (fineAt
      (fun p => compileOps (ω p) fuel ext cfg schema p) threads (FinePool.init w threads root) sched n) :=
    ⟨_, fineAt_run _ _ _ _ _⟩
  have hf := hN n hle
  obtain ⟨I, A⟩ := fine_attended ht hu n
  generalize fineAt (fun p => compileOps (ω p) fuel ext cfg schema p) threads (FinePool.init w threads root)
    sched n = F at *
  have hp := attended_finished ht I A hf
  obtain ⟨sched', hreach⟩ := C66_interleaving_refines hr hd hn F hF hf
  have h57 := C57_files_independent_of_schedule ω fuel ext cfg schema hr hd threads sched' _ hreach hf hp
  refine ⟨hp, ?_, h57.2.2.1, fun sizes hs => fine_completes hr hd hn hall hglob hF hf hp sizes hs⟩
  obtain ⟨lost, h1, _, h2⟩ := reached_conserved hreach
  rw [no_panic_of_finished hf] at h1
  rw [List.eq_nil_of_length_eq_zero h1, hp] at h2
  simp only [List.flatMap_nil, List.append_nil] at h2
  intro p
  rw [h2.mem_iff, mem_filesOf]

/-- **C103.** A project without recursion, any number of threads: there is an amount of time that suffices
for every run in which workers are not disturbed between taking work and saying so; under every hash order
and fair schedule of single file operations the whole program completes. -/
theorem C103_undisturbed_completes (hcon : Consistent schema) (hr : NoOutputRead w cfg root)
    (hd : OutputsDistinct w root) (hn : (filesOf root).Nodup)
    (hu : ∀ p, FoundIn root p → NamesDiffer ext w cfg p)
    (hends : ∀ p, FoundIn root p → FileEnds ext cfg schema w p)
    (hinputs : InputsEnd ext cfg schema w root) :
    ∃ N, ∀ fuel, N ≤ fuel → ∀ (ω : Path → Hash) (ω' : Hash) (sched : Nat → Nat × Nat) (threads : Nat),
      0 < threads → Progressing (fun n => (sched n).2) → Fair threads (fun n => (sched n).1) →
      FineUndisturbed (fun p => compileOps (ω p) fuel ext cfg schema p) threads
        (FinePool.init w threads root) sched →
      ∃ n F ms w', F = fineAt (fun p => compileOps (ω p) fuel ext cfg schema p) threads
          (FinePool.init w threads root) sched n ∧
        FineRunsTo ω ω' fuel ext cfg schema rootPath root threads w F ms w' := by
  obtain ⟨N, hN⟩ := enough_time hcon hu hends hinputs
  refine ⟨N, fun fuel hf ω ω' sched threads ht hs hfair hund => ?_⟩
  obtain ⟨hall, hglob⟩ := hN fuel hf ω ω'
  obtain ⟨n, h⟩ := C102_undisturbed_completes (rootPath := rootPath) ht hr hd hn hall hglob sched hfair hs hund
  obtain ⟨F, hF, _, _, _, _, h⟩ := h n (Nat.le_refl _)
  obtain ⟨k, ms, w', _, R⟩ := h (fun _ => 1) (fun _ => Nat.one_pos)
  exact ⟨n, F, ms, w', hF, R⟩

end

/-! ### The demo -/

/-- A test for the first `k` steps of `FineUndisturbed`. -/
def fineTest (compile : Path → Ops FileOutcome) (threads : Nat) (sched : Nat → Nat × Nat) :
    Nat → Nat → FinePool → Bool
  | 0, _, F => F.pool.finished
  | k + 1, n, F =>
    (F.pool.workers.zipIdx.all fun e =>
      match e.1.pc with
      | .gotWork _ => decide (e.2 = (sched n).1)
      | _ => true) &&
    fineTest compile threads sched k (n + 1) (F.step compile threads (sched n))

theorem step_of_finished {compile : Path → Ops FileOutcome} {threads : Nat} {F : FinePool}
    (h : F.pool.finished = true) (im : Nat × Nat) :
    (F.step compile threads im).pool.workers = F.pool.workers := by
  unfold FinePool.step
  cases hw : F.pool.workers[im.1]? with
  | none => rfl
  | some me =>
    have hpc := exited_of_finished h me (List.mem_of_getElem? hw)
    simp only [hpc, PoolSt.step, hw, stepWorker]
    have hlt := lt_of_getElem? hw
    have : F.pool.workers[im.1] = me := by
      rw [List.getElem?_eq_getElem hlt] at hw
      exact Option.some.inj hw
    rw [← this]
    exact List.set_getElem_self hlt

theorem fineUndisturbed_of_test {compile : Path → Ops FileOutcome} {threads : Nat} {F0 : FinePool}
    {sched : Nat → Nat × Nat} (k : Nat) :
    ∀ n, fineTest compile threads sched k n (fineAt compile threads F0 sched n) = true →
      ∀ (m j : Nat) (w : WorkerSt), n ≤ m → (fineAt compile threads F0 sched m).pool.workers[j]? = some w →
        JustTook w → j = (sched m).1 := by
  induction k with
  | zero =>
    intro n h m j w hm hj htook
    simp only [fineTest] at h
    have hws : ∀ d, (fineAt compile threads F0 sched (n + d)).pool.finished = true := by
      intro d
      induction d with
      | zero => exact h
      | succ d ih =>
        rw [← Nat.add_assoc, fineAt]
        unfold PoolSt.finished
        rw [step_of_finished ih]
        exact ih
    obtain ⟨d, rfl⟩ := Nat.le.dest hm
    have := exited_of_finished (hws d) w (List.mem_of_getElem? hj)
    obtain ⟨x, hx⟩ := htook
    rw [this] at hx
    cases hx
  | succ k ih =>
    intro n h m j w hm hj htook
    simp only [fineTest, Bool.and_eq_true, List.all_eq_true] at h
    rcases Nat.eq_or_lt_of_le hm with rfl | hlt
    · obtain ⟨x, hx⟩ := htook
      have := h.1 (w, j) (by rw [List.mem_zipIdx_iff_getElem?]; exact hj)
      simp only [hx, decide_eq_true_eq] at this
      exact this
    · exact ih (n + 1) h.2 m j w hlt hj htook

/-- **C102.** The hypotheses are met by the demo with two threads that move in turns of three steps. -/
theorem C102_two_threads_demo : FineUndisturbed
      (fun p => compileOps .inOrder 5 Demo.ext Demo.cfg Demo.schema p) 2
      (FinePool.init Demo.world 2 Demo.fileTree) (fun n => (n / 3 % 2, 1000)) ∧
    Fair 2 (fun n => n / 3 % 2) ∧
    ∃ n F ms w', F = fineAt (fun p => compileOps .inOrder 5 Demo.ext Demo.cfg Demo.schema p) 2
        (FinePool.init Demo.world 2 Demo.fileTree) (fun n => (n / 3 % 2, 1000)) n ∧
      FineRunsTo (fun _ => .inOrder) .inOrder 5 Demo.ext Demo.cfg Demo.schema ⟨true, ["r"]⟩ Demo.fileTree 2
        Demo.world F ms w' := by
  have hu : FineUndisturbed (fun p => compileOps .inOrder 5 Demo.ext Demo.cfg Demo.schema p) 2
      (FinePool.init Demo.world 2 Demo.fileTree) (fun n => (n / 3 % 2, 1000)) := by
    have h : fineTest (fun p => compileOps .inOrder 5 Demo.ext Demo.cfg Demo.schema p) 2
        (fun n => (n / 3 % 2, 1000)) 60 0 (FinePool.init Demo.world 2 Demo.fileTree) = true := by
      decide +kernel
    intro n j w hj htook
    exact fineUndisturbed_of_test 60 0 h n j w (Nat.zero_le _) hj htook
  have hfair : Fair 2 (fun n => n / 3 % 2) := by
    intro i hi n
    refine ⟨6 * n + 3 * i, by omega, ?_⟩
    show (6 * n + 3 * i) / 3 % 2 = i
    omega
  refine ⟨hu, hfair, ?_⟩
  obtain ⟨N, h⟩ := C102_undisturbed_completes (ω := fun _ => .inOrder) (ω' := .inOrder) (fuel := 5)
    (ext := Demo.ext) (cfg := Demo.cfg) (schema := Demo.schema) (w := Demo.world) (root := Demo.fileTree)
    (rootPath := ⟨true, ["r"]⟩) (threads := 2) (by omega) demo_noOutputRead demo_outputsDistinct demo_nodup
    (fun p hp => demo_compilesWith hp) (fun used _ => demo_globals_end used) (fun n => (n / 3 % 2, 1000))
    hfair (fun _ => by show 0 < 1000; omega) hu
  obtain ⟨F, e, _, _, _, _, hs⟩ := h N (Nat.le_refl _)
  obtain ⟨k, ms, w', _, R⟩ := hs (fun _ => 1) (fun _ => Nat.one_pos)
  exact ⟨N, F, ms, w', e, R⟩

end Qlc
