import Verif.Props.PoolResults
import Verif.Spec.Files
/-
C51: where exactly the race of the worker pool is.
-/
set_option autoImplicit false

namespace Qlc
open Spec

variable {σ : Type}

/-- A worker that is busy, or that has sent or done work and not looked at the queue since. -/
def active (w : WorkerSt) : Prop := w.isWaiting = false ∧ w.pc ≠ .empty

/-- Before anybody has decided to quit: queued work has an active worker. -/
def Attended (s : PoolSt σ) : Prop :=
  pending s = [] ∨ (¬ quitEvidence s ∧ (s.queue ≠ [] → ∃ w ∈ s.workers, active w))

theorem setWaiting_queue (b : Bool) (s : PoolSt σ) (me : WorkerSt) :
    (setWaiting b s me).1.queue = s.queue := by
  unfold setWaiting
  split
  · rfl
  · split <;> rfl

theorem setQuitting_queue (b : Bool) (s : PoolSt σ) (me : WorkerSt) :
    (setQuitting b s me).1.queue = s.queue ∧ (setQuitting b s me).2.isWaiting = me.isWaiting := by
  unfold setQuitting
  split
  · exact ⟨rfl, rfl⟩
  · split <;> exact ⟨rfl, rfl⟩

theorem setWaiting_false_flag (s : PoolSt σ) (me : WorkerSt) :
    (setWaiting false s me).2.isWaiting = false := by
  cases h : me.isWaiting <;> simp [setWaiting, h]

theorem runWork_flag (compile : Compiler σ) (s : PoolSt σ) (me : WorkerSt) (w : Work) :
    (runWork compile s me w).2.isWaiting = me.isWaiting := by
  unfold runWork
  rcases w.run compile s.world with ⟨r, w'⟩
  cases r <;> rfl

/-- A step that leaves something in the queue either is by a worker that is active afterwards, or does
not touch an active worker, or leaves evidence of a decision to quit. -/
theorem step_active (compile : Compiler σ) (threads : Nat) (s : PoolSt σ) (me : WorkerSt)
    (hf : flagsOk me) (hq : QMsg.quit ∉ s.queue) (hpcq : quitPc me.pc = false)
    (hne : (stepWorker compile threads s me).1.queue ≠ [])
    (hload : ¬ (me.pc = .emptyLoad ∧ s.numWaiting = threads)) :
    (active (stepWorker compile threads s me).2) ∨ (s.queue ≠ [] ∧ ¬ active me) := by
  cases hpc : me.pc with
  | recv =>
    cases hqq : s.queue with
    | nil => simp [stepWorker, hpc, hqq] at hne
    | cons m q =>
      cases m with
      | quit => rw [hqq] at hq; exact absurd (List.mem_cons_self ..) hq
      | work w =>
        cases hw : me.isWaiting with
        | false => left; simp [stepWorker, hpc, hqq, active, hw]
        | true => right; simp [active, hw]
  | gotWork w =>
    left
    simp only [stepWorker, hpc]
    exact ⟨setWaiting_false_flag s me, by simp⟩
  | gotWork2 w =>
    left
    simp only [flagsOk, hpc] at hf
    simp only [stepWorker, hpc]
    exact ⟨(setQuitting_queue false s me).2.trans hf, by simp⟩
  | running w =>
    left
    simp only [flagsOk, hpc] at hf
    simp only [stepWorker, hpc]
    refine ⟨by rw [runWork_flag]; exact hf.1, ?_⟩
    rcases (runWork_shape compile s me w hpc).2 with h | ⟨ws, h⟩ | h | h <;> rw [h] <;> simp
  | sending ws =>
    left
    simp only [flagsOk, hpc] at hf
    cases ws <;> simp [stepWorker, hpc, active, hf.1]
  | empty =>
    right
    rw [(sw_empty compile threads s hpc).2] at hne
    exact ⟨hne, fun h => h.2 hpc⟩
  | empty2 =>
    right
    rw [(sw_empty2 compile threads s hpc).2] at hne
    simp only [flagsOk, hpc] at hf
    exact ⟨hne, fun h => by rw [h.1] at hf; cases hf⟩
  | emptyLoad =>
    right
    have hn : ¬ s.numWaiting = threads := fun h => hload ⟨hpc, h⟩
    simp only [flagsOk, hpc] at hf
    refine ⟨by simpa [stepWorker, hpc, hn] using hne, fun h => ?_⟩
    have := hf.1
    rw [h.1] at this; cases this
  | panicked =>
    left
    simp only [flagsOk, hpc] at hf
    simp [stepWorker, hpc, active, hf.1]
  | gotQuit => simp [hpc, quitPc] at hpcq
  | gotQuit2 => simp [hpc, quitPc] at hpcq
  | quitLoad => simp [hpc, quitPc] at hpcq
  | quitLoad2 n => simp [hpc, quitPc] at hpcq
  | sendQuit n => simp [hpc, quitPc] at hpcq
  | exited => simp [hpc, quitPc] at hpcq

theorem quit_iff_taking {compile : Compiler σ} {threads : Nat} {s : PoolSt σ} (I : PoolInv threads s)
    (A : Attended s) {i : Nat} (hd : DecidesToQuit threads s i) :
    pending s = [] ↔ ∀ w ∈ s.workers, ¬ JustTook w := by
  constructor
  · rintro hp w hw ⟨x, hx⟩
    have : x ∈ pending s := by
      unfold pending
      exact List.mem_append_right _ (List.mem_flatMap.2 ⟨w, hw, by simp [heldWork, hx]⟩)
    rw [hp] at this
    exact List.not_mem_nil this
  · intro hno
    rcases A with A | ⟨_, hact⟩
    · exact A
    obtain ⟨me, hme, hpc, hn⟩ := hd
    have hall : ∀ w ∈ s.workers, w.isWaiting = true := by
      rw [← countW_full, ← I.waiting, hn, I.len]
    have hq : s.queue = [] := by
      by_contra hq
      obtain ⟨w, hw, ha⟩ := hact hq
      have h1 := ha.1
      rw [hall w hw] at h1
      cases h1
    unfold pending
    rw [hq, List.flatMap_nil, List.nil_append, List.flatMap_eq_nil_iff]
    intro w hw
    have hf := I.flags w hw
    have hw' := hall w hw
    have hn' := hno w hw
    unfold heldWork
    cases hp : w.pc with
    | gotWork x => exact absurd ⟨x, hp⟩ hn'
    | gotWork2 x => simp [flagsOk, hp, hw'] at hf
    | running x => simp [flagsOk, hp, hw'] at hf
    | sending ws => simp [flagsOk, hp, hw'] at hf
    | _ => rfl

theorem step_attended (compile : Compiler σ) (threads : Nat) (s : PoolSt σ) (i : Nat)
    (I : PoolInv threads s) (A : Attended s)
    (hno : DecidesToQuit threads s i → ∀ w ∈ s.workers, ¬ JustTook w) :
    Attended (s.step compile threads i) := by
  by_cases hd : DecidesToQuit threads s i
  · exact .inl (step_pending_nil compile threads s i
      ((quit_iff_taking (compile := compile) I A hd).2 (hno hd)))
  rcases A with A | ⟨hev, hact⟩
  · exact .inl (step_pending_nil compile threads s i A)
  right
  refine ⟨fun h => ?_, ?_⟩
  · rcases step_evidence compile threads s i h with h | h
    · exact hev h
    · exact hd h
  · rcases step_cases compile threads s i with h0 | ⟨me, hme, h0⟩
    · rw [h0]; exact hact
    · rw [h0]
      intro hne
      have hmem := List.mem_of_getElem? hme
      have hlt := lt_of_getElem? hme
      have hq : QMsg.quit ∉ s.queue := fun h => hev (.inl h)
      have hpcq : quitPc me.pc = false := by
        cases h : quitPc me.pc with
        | false => rfl
        | true => exact absurd (.inr ⟨me, hmem, h⟩) hev
      rcases step_active compile threads s me (I.flags me hmem) hq hpcq hne
          (fun h => hd ⟨me, hme, h.1, h.2⟩) with h | ⟨h1, h2⟩
      · exact ⟨_, List.mem_set hlt _, h⟩
      · obtain ⟨w, hw, ha⟩ := hact h1
        obtain ⟨j, hj⟩ := List.mem_iff_getElem?.1 hw
        have hij : i ≠ j := by
          rintro rfl
          rw [hme] at hj
          cases hj
          exact h2 ha
        refine ⟨w, ?_, ha⟩
        apply List.mem_iff_getElem?.2
        exact ⟨j, by rw [List.getElem?_set_ne hij]; exact hj⟩

theorem init_attended (world : σ) (threads : Nat) (ht : 0 < threads) (root : Entry) :
    Attended (PoolSt.init world threads root) := by
  right
  refine ⟨?_, fun _ => ⟨WorkerSt.init, ?_, rfl, by simp [WorkerSt.init]⟩⟩
  · rintro (h | ⟨w, hw, h⟩)
    · simp [PoolSt.init] at h
    · simp only [PoolSt.init, List.mem_replicate] at hw
      rw [hw.2] at h
      simp [WorkerSt.init, quitPc] at h
  · simp only [PoolSt.init, List.mem_replicate]
    exact ⟨by omega, trivial⟩

theorem run_attended (compile : Compiler σ) (threads : Nat) (sched : List Nat) :
    ∀ s : PoolSt σ, PoolInv threads s → Attended s → NoQuitWhileTaking compile threads s sched →
      Attended (s.run compile threads sched) := by
  induction sched with
  | nil => intro s _ h _; exact h
  | cons i sched ih =>
    intro s I A hn
    rw [run_cons]
    refine ih _ (step_inv compile threads s i I)
      (step_attended compile threads s i I A (fun hd => hn [] i sched rfl hd)) ?_
    intro before j after hs hd
    exact hn (i :: before) j after (by rw [hs]; rfl) hd

/-- C51, the race is in one place: in any run from the start, no worker ever decides to quit while work
is left, exactly if no worker ever decides to quit while another one has taken work off the channel and is
not yet counted as busy. -/
theorem C51_only_race (compile : Compiler σ) (world : σ) (threads : Nat) (root : Entry)
    (sched : List Nat) :
    NoEarlyQuit compile threads (PoolSt.init world threads root) sched ↔
      NoQuitWhileTaking compile threads (PoolSt.init world threads root) sched := by
  constructor
  · intro h before i after hs hd w hw ⟨x, hx⟩
    have hp := h before i after hs hd
    have : x ∈ pending ((PoolSt.init world threads root).run compile threads before) := by
      unfold pending
      exact List.mem_append_right _ (List.mem_flatMap.2 ⟨w, hw, by simp [heldWork, hx]⟩)
    rw [hp] at this
    exact List.not_mem_nil this
  · intro h before i after hs hd
    have hinv := reached_inv (compile := compile) (world := world) (threads := threads) (root := root)
      (sched := before) rfl
    have ht : 0 < threads := by
      obtain ⟨me, hme, _⟩ := hd
      have := lt_of_getElem? hme
      have := hinv.len
      omega
    refine (quit_iff_taking (compile := compile) hinv ?_ hd).2 (h before i after hs hd)
    refine run_attended compile threads before _ ?_ (init_attended world threads ht root) ?_
    · exact reached_inv (compile := compile) (world := world) (threads := threads) (root := root)
        (sched := []) rfl
    · intro b j a he hd'
      exact h b j (a ++ i :: after) (by rw [hs, he]; simp) hd'

/-- C51: if taking work off the channel and saying so are never separated by a step of another worker,
then, whatever the number of threads and the schedule otherwise, when all workers have exited every file
of the tree was compiled, exactly once. -/
theorem C51_undisturbed_compiles_everything (compile : Compiler σ) (world : σ) (threads : Nat)
    (root : Entry) (sched : List Nat) (s : PoolSt σ)
    (h : ReachedBy compile world threads root sched s) (ht : 0 < threads)
    (hu : TakesUndisturbed compile threads (PoolSt.init world threads root) sched)
    (hf : s.finished = true) :
    s.log.Perm (filesOf root) ∧ (∀ p, p ∈ s.log ↔ FoundIn root p) ∧ pending s = [] := by
  have hq : NoEarlyQuit compile threads (PoolSt.init world threads root) sched := by
    rw [C51_only_race]
    intro before i after hs hd w hw hj
    obtain ⟨j, hj'⟩ := List.mem_iff_getElem?.1 hw
    obtain rfl := hu before i after hs j w hj' hj
    obtain ⟨me, hme, hpc, _⟩ := hd
    rw [hme] at hj'
    cases hj'
    obtain ⟨x, hx⟩ := hj
    rw [hpc] at hx
    cases hx
  obtain ⟨h1, h2⟩ := C51_all_files_compiled compile world threads root sched s h ht hq hf
  exact ⟨h1, h2, finished_pending h ht hq hf⟩

/-- So such runs are runs in the sense of the theorems about whole runs (C55, C57, C58, C74, C89 and
others). -/
theorem C51_undisturbed_runs {ω : Path → Hash} {ω' : Hash} {fuel : Nat} {ext : Ext} {cfg : CompileConfig}
    {schema : Schema} {rootPath : Path} {root : Entry} {threads : Nat} {w : World} {sched : List Nat}
    {s : PoolSt World} {ms : List Msg} {w' : World}
    (h : ReachedBy (poolCompile ω fuel ext cfg schema) w threads root sched s) (ht : 0 < threads)
    (hu : TakesUndisturbed (poolCompile ω fuel ext cfg schema) threads (PoolSt.init w threads root) sched)
    (hf : s.finished = true)
    (hg : finishWork ω' fuel cfg schema s.world rootPath s.aggregate = some (ms, w')) :
    RunsTo ω ω' fuel ext cfg schema rootPath root threads w s ms w' :=
  ⟨⟨sched, h⟩, hf, (C51_undisturbed_compiles_everything _ w threads root sched s h ht hu hf).2.2, hg⟩

/-! ### Examples -/

/-- A test for `TakesUndisturbed`. -/
def undisturbed (compile : Compiler σ) (threads : Nat) : PoolSt σ → List Nat → Bool
  | _, [] => true
  | s, i :: rest =>
    (s.workers.zipIdx.all fun e =>
      match e.1.pc with
      | .gotWork _ => decide (e.2 = i)
      | _ => true) && undisturbed compile threads (s.step compile threads i) rest

theorem takesUndisturbed_of_test (compile : Compiler σ) (threads : Nat) :
    ∀ (sched : List Nat) (s : PoolSt σ), undisturbed compile threads s sched = true →
      TakesUndisturbed compile threads s sched
  | [], _, _ => fun before i after h => by simp at h
  | i :: rest, s, h => by
    simp only [undisturbed, Bool.and_eq_true, List.all_eq_true] at h
    intro before j after hs k w hk hj
    cases before with
    | nil =>
      simp only [List.nil_append, List.cons.injEq] at hs
      obtain ⟨x, hx⟩ := hj
      have := h.1 (w, k) (by rw [List.mem_zipIdx_iff_getElem?]; exact hk)
      simp only [hx, decide_eq_true_eq] at this
      rw [this, hs.1]
    | cons b before =>
      simp only [List.cons_append, List.cons.injEq] at hs
      obtain ⟨rfl, hs⟩ := hs
      exact takesUndisturbed_of_test compile threads rest _ h.2 before j after hs k w hk hj

/-- Two workers take turns of two steps: one takes work and says so before the other moves. -/
def Demo.pairSched : List Nat :=
  (List.range 60).flatMap (fun n => [n % 2, n % 2])

/-- Two workers, a tree with two files, directories and an unreadable directory: no disturbance, all
workers exit, both files are compiled. -/
example : TakesUndisturbed Demo.okCompile 2 (PoolSt.init () 2 Demo.tree) Demo.pairSched ∧
    ((PoolSt.init () 2 Demo.tree).run Demo.okCompile 2 Demo.pairSched).finished = true ∧
    ((PoolSt.init () 2 Demo.tree).run Demo.okCompile 2 Demo.pairSched).log = Demo.treeFiles :=
  ⟨takesUndisturbed_of_test _ _ _ _ (by decide +kernel), by decide +kernel, by decide +kernel⟩

/-- In the schedule of the race, one worker is disturbed. -/
example : undisturbed Demo.okCompile 2 (PoolSt.init () 2 Demo.raceTree) Demo.raceSched = false := by
  decide +kernel

end Qlc
