import Verif.Spec.Fair
import Verif.Lemmas.PoolLive
/-
Termination of the worker pool under a fair scheduler.
-/
set_option autoImplicit false

namespace Qlc
open Spec

variable {σ : Type}

/-! ### Sequences -/

theorem eventually_const_of_antitone (f : Nat → Nat) (h : ∀ n, f (n + 1) ≤ f n) :
    ∃ N, ∀ n, N ≤ n → f n = f N := by
  have key : ∀ k N, f N ≤ k → ∃ N', N ≤ N' ∧ ∀ n, N' ≤ n → f n = f N' := by
    intro k
    induction k with
    | zero =>
      intro N hN
      refine ⟨N, Nat.le_refl _, fun n hn => ?_⟩
      have : f n ≤ f N := by
        induction hn with
        | refl => exact Nat.le_refl _
        | step _ ih => exact Nat.le_trans (h _) ih
      omega
    | succ k ih =>
      intro N hN
      by_cases hc : ∀ n, N ≤ n → f n = f N
      · exact ⟨N, Nat.le_refl _, hc⟩
      · simp only [Classical.not_forall] at hc
        obtain ⟨n, hn, hne⟩ := hc
        have hle : f n ≤ f N := by
          clear hne
          induction hn with
          | refl => exact Nat.le_refl _
          | step _ ih => exact Nat.le_trans (h _) ih
        obtain ⟨N', h1, h2⟩ := ih n (by omega)
        exact ⟨N', Nat.le_trans hn h1, h2⟩
  obtain ⟨N, _, hN⟩ := key (f 0) 0 (Nat.le_refl _)
  exact ⟨N, hN⟩

theorem uniform_bound (P : Nat → Nat → Prop) (T : Nat) (h : ∀ i, i < T → ∃ M, ∀ n, M ≤ n → P i n) :
    ∃ M, ∀ n, M ≤ n → ∀ i, i < T → P i n := by
  induction T with
  | zero => exact ⟨0, fun _ _ i hi => absurd hi (Nat.not_lt_zero i)⟩
  | succ T ih =>
    obtain ⟨M, hM⟩ := ih (fun i hi => h i (by omega))
    obtain ⟨M', hM'⟩ := h T (by omega)
    refine ⟨max M M', fun n hn i hi => ?_⟩
    by_cases hiT : i = T
    · subst hiT; exact hM' n (by omega)
    · exact hM n (by omega) i (by omega)

/-! ### Turns -/

theorem step_other (compile : Compiler σ) (threads : Nat) (s : PoolSt σ) {i j : Nat} (h : j ≠ i) :
    (s.step compile threads j).workers[i]? = s.workers[i]? := by
  rcases step_cases compile threads s j with e | ⟨me, _, e⟩
  · rw [e]
  · rw [e]
    simp only
    rw [List.getElem?_set_ne h]

/-- What is fixed about the run. -/
structure FairRun (compile : Compiler σ) (threads : Nat) (root : Entry) (S : Nat → PoolSt σ)
    (sched : Nat → Nat) : Prop where
  hall : AllReturn compile root
  good : ∀ n, Good compile threads root (S n)
  next : ∀ n, S (n + 1) = (S n).step compile threads (sched n)
  fair : Fair threads sched

section
variable {compile : Compiler σ} {threads : Nat} {root : Entry} {S : Nat → PoolSt σ} {sched : Nat → Nat}

theorem FairRun.worker (F : FairRun compile threads root S sched) {i : Nat} (hi : i < threads) (n : Nat) :
    ∃ me, (S n).workers[i]? = some me := by
  have : i < (S n).workers.length := by rw [(F.good n).inv.len]; exact hi
  exact ⟨_, List.getElem?_eq_getElem this⟩

theorem FairRun.lt (F : FairRun compile threads root S sched) {i n : Nat} {me : WorkerSt}
    (h : (S n).workers[i]? = some me) : i < threads := by
  rw [← (F.good n).inv.len]; exact lt_of_getElem? h

theorem FairRun.flags (F : FairRun compile threads root S sched) {i n : Nat} {me : WorkerSt}
    (h : (S n).workers[i]? = some me) : flagsOk me :=
  (F.good n).inv.flags me (List.mem_of_getElem? h)

theorem FairRun.stays (F : FairRun compile threads root S sched) (i n d : Nat)
    (h : ∀ k, n ≤ k → k < n + d → sched k ≠ i) : (S (n + d)).workers[i]? = (S n).workers[i]? := by
  induction d with
  | zero => rfl
  | succ d ih =>
    rw [← Nat.add_assoc, F.next, step_other _ _ _ (h (n + d) (by omega) (by omega))]
    exact ih (fun k h1 h2 => h k h1 (by omega))

/-- The next turn of a worker finds it as it is. -/
theorem FairRun.turn (F : FairRun compile threads root S sched) {i : Nat} (hi : i < threads) (n : Nat) :
    ∃ m, n ≤ m ∧ sched m = i ∧ (S m).workers[i]? = (S n).workers[i]? := by
  obtain ⟨m, hm, hs⟩ := F.fair i hi n
  have key : ∀ d, ∀ n, sched (n + d) = i → ∃ m, n ≤ m ∧ sched m = i ∧ (S m).workers[i]? = (S n).workers[i]? := by
    intro d
    induction d with
    | zero => intro n h; exact ⟨n, Nat.le_refl _, h, rfl⟩
    | succ d ih =>
      intro n h
      by_cases hn : sched n = i
      · exact ⟨n, Nat.le_refl _, hn, rfl⟩
      · obtain ⟨m, h1, h2, h3⟩ := ih (n + 1) (by rw [Nat.add_assoc, Nat.add_comm 1 d]; exact h)
        refine ⟨m, by omega, h2, ?_⟩
        rw [h3, F.next, step_other _ _ _ hn]
  obtain ⟨d, rfl⟩ := Nat.exists_eq_add_of_le hm
  exact key d n hs

theorem FairRun.own (F : FairRun compile threads root S sched) {i n : Nat} {me : WorkerSt}
    (h : (S n).workers[i]? = some me) (hs : sched n = i) :
    (S (n + 1)).workers[i]? = some (stepWorker compile threads (S n) me).2 := by
  rw [F.next, hs]; exact solo_self compile threads h

/-- If every own step of a worker brings it closer to a goal, it gets there. -/
theorem FairRun.leads (F : FairRun compile threads root S sched) {i : Nat}
    (inv goal : WorkerSt → Prop) (μ : WorkerSt → Nat) (N : Nat)
    (h : ∀ n, N ≤ n → ∀ me, (S n).workers[i]? = some me → sched n = i → inv me → ¬ goal me →
      goal (stepWorker compile threads (S n) me).2 ∨
      (inv (stepWorker compile threads (S n) me).2 ∧
        μ (stepWorker compile threads (S n) me).2 < μ me)) :
    ∀ n, N ≤ n → ∀ me, (S n).workers[i]? = some me → inv me →
      ∃ m, n ≤ m ∧ ∃ me', (S m).workers[i]? = some me' ∧ goal me' := by
  have key : ∀ k n, N ≤ n → ∀ me, (S n).workers[i]? = some me → inv me → μ me = k →
      ∃ m, n ≤ m ∧ ∃ me', (S m).workers[i]? = some me' ∧ goal me' := by
    intro k
    induction k using Nat.strongRecOn with
    | _ k ih =>
      intro n hn me hme hinv hk
      by_cases hg : goal me
      · exact ⟨n, Nat.le_refl _, me, hme, hg⟩
      · obtain ⟨m, hm, hs, he⟩ := F.turn (F.lt hme) n
        rw [hme] at he
        rcases h m (by omega) me he hs hinv hg with h1 | ⟨h1, h2⟩
        · exact ⟨m + 1, by omega, _, F.own he hs, h1⟩
        · obtain ⟨m', h3, h4⟩ := ih _ (by omega) (m + 1) (by omega) _ (F.own he hs) h1 rfl
          exact ⟨m', by omega, h4⟩
  intro n hn me hme hinv
  exact key _ n hn me hme hinv rfl

/-- A worker property that own steps keep is kept. -/
theorem FairRun.stable (F : FairRun compile threads root S sched) {i : Nat} (goal : WorkerSt → Prop) (N : Nat)
    (h : ∀ n, N ≤ n → ∀ me, (S n).workers[i]? = some me → sched n = i → goal me →
      goal (stepWorker compile threads (S n) me).2) {n : Nat} (hn : N ≤ n) {me : WorkerSt}
    (hme : (S n).workers[i]? = some me) (hg : goal me) {m : Nat} (hm : n ≤ m) :
    ∀ me', (S m).workers[i]? = some me' → goal me' := by
  induction hm with
  | refl => intro me' h'; rw [hme] at h'; injection h' with h'; rw [← h']; exact hg
  | @step m hm ih =>
    intro me' hme'
    obtain ⟨mm, hmm⟩ := F.worker (F.lt hme) m
    by_cases hs : sched m = i
    · have := F.own hmm hs
      rw [hme'] at this
      injection this with this
      rw [this]
      exact h m (by have : n ≤ m := hm; omega) mm hmm hs (ih mm hmm)
    · have : (S (m + 1)).workers[i]? = (S m).workers[i]? := by rw [F.next, step_other _ _ _ hs]
      rw [this] at hme'
      exact ih me' hme'

/-- Eventually for good. -/
theorem FairRun.settle (F : FairRun compile threads root S sched) (goal : WorkerSt → Prop)
    (μ : WorkerSt → Nat) (N : Nat)
    (h1 : ∀ n, N ≤ n → ∀ (i : Nat) (me : WorkerSt), (S n).workers[i]? = some me → sched n = i → goal me →
      goal (stepWorker compile threads (S n) me).2)
    (h2 : ∀ n, N ≤ n → ∀ (i : Nat) (me : WorkerSt), (S n).workers[i]? = some me → sched n = i → ¬ goal me →
      goal (stepWorker compile threads (S n) me).2 ∨
        μ (stepWorker compile threads (S n) me).2 < μ me) :
    ∃ M, N ≤ M ∧ ∀ n, M ≤ n → ∀ (i : Nat) (me : WorkerSt), (S n).workers[i]? = some me → goal me := by
  have : ∀ i, i < threads → ∃ M, ∀ n, M ≤ n → ∀ me, (S n).workers[i]? = some me → goal me := by
    intro i hi
    obtain ⟨me, hme⟩ := F.worker hi N
    obtain ⟨m, hm, me', hme', hg⟩ := F.leads (i := i) (fun _ => True) goal μ N
      (fun n hn me hme hs _ hg => by
        rcases h2 n hn i me hme hs hg with h | h
        · exact .inl h
        · exact .inr ⟨trivial, h⟩) N (Nat.le_refl _) me hme trivial
    exact ⟨m, fun n hn => F.stable goal N (fun n hn me => h1 n hn i me) hm hme' hg hn⟩
  obtain ⟨M, hM⟩ := uniform_bound (fun i n => ∀ me, (S n).workers[i]? = some me → goal me) threads this
  exact ⟨max N M, by omega, fun n hn i me hme => hM n (by omega) i (F.lt hme) me hme⟩

/-! ### The work runs out -/

/-- The worker is about to run work. -/
def hasWork (w : WorkerSt) : Bool :=
  match w.pc with
  | .gotWork _ | .gotWork2 _ | .running _ => true
  | _ => false

/-- The worker is sending work. -/
def isSending (w : WorkerSt) : Bool :=
  match w.pc with
  | .sending _ => true
  | _ => false

theorem FairRun.no_work (F : FairRun compile threads root S sched) :
    ∃ N, ∀ n, N ≤ n → ∀ (i : Nat) (me : WorkerSt), (S n).workers[i]? = some me → hasWork me = false := by
  obtain ⟨N, hN⟩ := eventually_const_of_antitone (fun n => wsum (pending (S n)))
    (fun n => by simp only [F.next]; exact step_wsum_le _ _ _ _)
  refine ⟨N, fun n hn i me hme => ?_⟩
  by_contra hw
  simp only [Bool.not_eq_false] at hw
  obtain ⟨m, hm, me', hme', ⟨w, hpc⟩⟩ := F.leads (i := i) (fun me => hasWork me = true)
    (fun me => ∃ w, me.pc = .running w)
    (fun me => match me.pc with | .gotWork _ => 1 | _ => 0) N
    (fun n hn me hme hs hi hg => by
      unfold hasWork at hi
      cases hpc : me.pc with
      | gotWork w => exact .inr ⟨by simp [hasWork, stepWorker, hpc], by simp [stepWorker, hpc]⟩
      | gotWork2 w => exact .inl ⟨w, by simp [stepWorker, hpc]⟩
      | running w => exact absurd ⟨w, hpc⟩ hg
      | _ => simp [hpc] at hi)
    n hn me hme hw
  obtain ⟨m', hm', hs, he⟩ := F.turn (F.lt hme') m
  rw [hme'] at he
  have h1 := (run_returns F.hall (F.good m') he hpc).2
  have h2 := hN m' (by omega)
  have h3 := hN (m' + 1) (by omega)
  simp only [F.next, hs] at h3
  omega

/-- No worker runs or sends work any more. -/
structure Idle (S : Nat → PoolSt σ) (N : Nat) : Prop where
  noWork : ∀ n, N ≤ n → ∀ (i : Nat) (me : WorkerSt), (S n).workers[i]? = some me → hasWork me = false
  noSend : ∀ n, N ≤ n → ∀ (i : Nat) (me : WorkerSt), (S n).workers[i]? = some me → isSending me = false

theorem FairRun.idle (F : FairRun compile threads root S sched) : ∃ N, Idle S N := by
  obtain ⟨N, hN⟩ := F.no_work
  obtain ⟨M, hM, h⟩ := F.settle (fun me => isSending me = false)
    (fun me => match me.pc with | .sending ws => ws.length | _ => 0) N
    (fun n hn i me hme hs hg => by
      have hw := hN n hn i me hme
      unfold hasWork at hw
      unfold isSending at hg
      cases hpc : me.pc with
      | running w => simp [hpc] at hw
      | sending ws => simp [hpc] at hg
      | recv =>
        simp only [stepWorker, hpc]
        cases hq : (S n).queue with
        | nil => rfl
        | cons x q => cases x <;> rfl
      | quitLoad2 k =>
        simp only [stepWorker, hpc]
        split
        · rfl
        · split <;> rfl
      | emptyLoad =>
        simp only [stepWorker, hpc]
        split <;> rfl
      | sendQuit k => cases k <;> simp [stepWorker, hpc, isSending]
      | _ => simp [stepWorker, hpc, isSending])
    (fun n hn i me hme hs hg => by
      unfold isSending at hg
      cases hpc : me.pc with
      | sending ws =>
        cases ws with
        | nil => left; simp [stepWorker, hpc, isSending]
        | cons w ws => right; simp [stepWorker, hpc]
      | _ => simp [hpc] at hg)
  exact ⟨M, fun n hn => hN n (by omega), h⟩

/-- An idle worker that looks into the queue finds no work at its head. -/
theorem FairRun.recv_idle (F : FairRun compile threads root S sched) {N : Nat} (I : Idle S N) {n : Nat}
    (hn : N ≤ n) {i : Nat} {me : WorkerSt} (hme : (S n).workers[i]? = some me) (hs : sched n = i)
    (hpc : me.pc = .recv) : (S n).queue = [] ∨ ∃ q, (S n).queue = .quit :: q := by
  cases hq : (S n).queue with
  | nil => exact .inl rfl
  | cons x q =>
    cases x with
    | quit => exact .inr ⟨q, rfl⟩
    | work w =>
      have h1 := F.own hme hs
      have h2 := I.noWork (n + 1) (by omega) i _ h1
      simp [stepWorker, hpc, hq, hasWork] at h2

theorem FairRun.all_waiting (F : FairRun compile threads root S sched) {N : Nat} (I : Idle S N) :
    ∃ M, N ≤ M ∧ ∀ n, M ≤ n → (S n).numWaiting = threads := by
  obtain ⟨M, hM, h⟩ := F.settle (fun me => me.isWaiting = true)
    (fun me => match me.pc with | .recv => 1 | _ => 0) N
    (fun n hn i me hme hs hg => by
      have hw := I.noWork n hn i me hme
      unfold hasWork at hw
      cases hpc : me.pc with
      | gotWork w => simp [hpc] at hw
      | gotWork2 w => simp [hpc] at hw
      | running w => simp [hpc] at hw
      | sending ws => cases ws <;> simp [stepWorker, hpc, hg]
      | recv =>
        simp only [stepWorker, hpc]
        cases hq : (S n).queue with
        | nil => exact hg
        | cons x q => cases x <;> exact hg
      | quitLoad2 k =>
        simp only [stepWorker, hpc]
        split
        · exact hg
        · split <;> exact hg
      | emptyLoad =>
        simp only [stepWorker, hpc]
        split <;> exact hg
      | sendQuit k => cases k <;> simp [stepWorker, hpc, hg]
      | gotQuit => simp [stepWorker, hpc, setWaiting, hg]
      | empty => simp [stepWorker, hpc, setWaiting, hg]
      | gotQuit2 =>
        simp only [stepWorker, hpc, setQuitting]
        split
        · exact hg
        · split <;> exact hg
      | empty2 =>
        simp only [stepWorker, hpc, setQuitting]
        split
        · exact hg
        · split <;> exact hg
      | quitLoad => simp [stepWorker, hpc, hg]
      | exited => simp [stepWorker, hpc, hg]
      | panicked => simp [stepWorker, hpc, hg])
    (fun n hn i me hme hs hg => by
      have hw := I.noWork n hn i me hme
      have hsd := I.noSend n hn i me hme
      have hf := F.flags hme
      unfold hasWork at hw
      unfold isSending at hsd
      cases hpc : me.pc with
      | gotWork w => simp [hpc] at hw
      | gotWork2 w => simp [hpc] at hw
      | running w => simp [hpc] at hw
      | sending ws => simp [hpc] at hsd
      | recv =>
        right
        rcases F.recv_idle I hn hme hs hpc with hq | ⟨q, hq⟩ <;> simp [stepWorker, hpc, hq]
      | gotQuit => left; simp [stepWorker, hpc, setWaiting, hg]
      | empty => left; simp [stepWorker, hpc, setWaiting, hg]
      | panicked =>
        exfalso
        have h0 := (F.good n).nopanic
        have := countW_ge (f := isPanicked) hme
        unfold numPanicked at h0
        simp [h0, isPanicked, hpc, b2n] at this
      | _ => simp [flagsOk, hpc, hg] at hf)
  refine ⟨M, hM, fun n hn => ?_⟩
  have I' := (F.good n).inv
  rw [I'.waiting, ← I'.len, countW_full]
  intro w hw
  obtain ⟨i, hi⟩ := List.getElem?_of_mem hw
  exact h n hn i w hi

/-- Everybody waits, and no worker has read an older counter. -/
structure Waiting (threads : Nat) (S : Nat → PoolSt σ) (N : Nat) : Prop extends Idle S N where
  waiting : ∀ n, N ≤ n → (S n).numWaiting = threads
  fresh : ∀ n, N ≤ n → ∀ (i : Nat) (me : WorkerSt), (S n).workers[i]? = some me → ∀ k, me.pc = .quitLoad2 k → threads ≤ k

theorem FairRun.all_fresh (F : FairRun compile threads root S sched) : ∃ N, Waiting threads S N := by
  obtain ⟨N0, I⟩ := F.idle
  obtain ⟨N, hN0, hN⟩ := F.all_waiting I
  have key : ∀ n, N ≤ n → ∀ me : WorkerSt, ∀ k,
      (stepWorker compile threads (S n) me).2.pc = .quitLoad2 k → me.pc = .quitLoad ∧ k = threads := by
    intro n hn me k h
    cases hpc : me.pc with
    | quitLoad =>
      simp only [stepWorker, hpc, PC.quitLoad2.injEq] at h
      exact ⟨rfl, by rw [← h]; exact hN n hn⟩
    | recv =>
      simp only [stepWorker, hpc] at h
      cases hq : (S n).queue with
      | nil => simp [hq] at h
      | cons x q => cases x <;> simp [hq] at h
    | quitLoad2 k =>
      simp only [stepWorker, hpc] at h
      split at h
      · simp at h
      · split at h <;> simp at h
    | emptyLoad =>
      simp only [stepWorker, hpc] at h
      split at h <;> simp at h
    | sendQuit k => cases k <;> simp [stepWorker, hpc] at h
    | sending ws => cases ws <;> simp [stepWorker, hpc] at h
    | running w =>
      simp only [stepWorker, hpc, runWork] at h
      split at h <;> simp [hpc] at h
    | _ => simp [stepWorker, hpc] at h
  obtain ⟨M, hM, h⟩ := F.settle (fun me => ∀ k, me.pc = .quitLoad2 k → threads ≤ k) (fun _ => 0) N
    (fun n hn i me hme hs hg k hk => by have := (key n hn me k hk).2; omega)
    (fun n hn i me hme hs hg => .inl fun k hk => by have := (key n hn me k hk).2; omega)
  exact ⟨M, ⟨fun n hn => I.noWork n (by omega), fun n hn => I.noSend n (by omega)⟩,
    fun n hn => hN n (by omega), h⟩

/-! ### Everybody quits -/

/-- The worker has received `Quit`. -/
def inQuit (w : WorkerSt) : Bool :=
  match w.pc with
  | .gotQuit | .gotQuit2 | .quitLoad | .quitLoad2 _ | .exited => true
  | _ => false

theorem FairRun.inQuit_step (F : FairRun compile threads root S sched) {N : Nat} (W : Waiting threads S N)
    {n : Nat} (hn : N ≤ n) {i : Nat} {me : WorkerSt} (hme : (S n).workers[i]? = some me)
    (h : inQuit me = true) : inQuit (stepWorker compile threads (S n) me).2 = true := by
  have _ := F
  unfold inQuit at h
  cases hpc : me.pc with
  | quitLoad2 k =>
    have := W.fresh n hn i me hme k hpc
    simp only [stepWorker, hpc]
    rw [if_neg (by omega)]
    split <;> rfl
  | gotQuit => simp [stepWorker, hpc, inQuit]
  | gotQuit2 => simp [stepWorker, hpc, inQuit]
  | quitLoad => simp [stepWorker, hpc, inQuit]
  | exited => simp [stepWorker, hpc, inQuit]
  | _ => simp [hpc] at h

theorem FairRun.count_step (F : FairRun compile threads root S sched) {N : Nat} (W : Waiting threads S N)
    {n : Nat} (hn : N ≤ n) :
    countW inQuit (S n).workers ≤ countW inQuit (S (n + 1)).workers ∧
    ∀ me, (S n).workers[sched n]? = some me → inQuit me = false →
      inQuit (stepWorker compile threads (S n) me).2 = true →
      countW inQuit (S n).workers < countW inQuit (S (n + 1)).workers := by
  rw [F.next]
  rcases step_cases compile threads (S n) (sched n) with e | ⟨me, hme, e⟩
  · refine ⟨by rw [e]; exact Nat.le_refl _, fun me hme h1 h2 => ?_⟩
    have h3 := solo_workers compile threads hme
    have := countW_set (f := inQuit) hme (stepWorker compile threads (S n) me).2
    rw [← h3, h1, h2] at this
    simp [b2n] at this
    omega
  · have h3 := solo_workers compile threads hme
    have h4 := countW_set (f := inQuit) hme (stepWorker compile threads (S n) me).2
    rw [← h3] at h4
    refine ⟨?_, fun me' hme' h1 h2 => ?_⟩
    · cases hq : inQuit me with
      | false => simp [hq, b2n] at h4; omega
      | true =>
        rw [hq, F.inQuit_step W hn hme hq] at h4
        omega
    · rw [hme] at hme'
      injection hme' with hme'
      subst hme'
      rw [h1, h2] at h4
      simp [b2n] at h4
      omega

theorem FairRun.all_inQuit (F : FairRun compile threads root S sched) :
    ∃ N, Waiting threads S N ∧ ∀ n, N ≤ n → ∀ (i : Nat) (me : WorkerSt), (S n).workers[i]? = some me → inQuit me = true := by
  obtain ⟨N0, W0⟩ := F.all_fresh
  obtain ⟨d, hd⟩ := eventually_const_of_antitone
    (fun d => threads - countW inQuit (S (N0 + d)).workers)
    (fun d => by
      have := (F.count_step W0 (n := N0 + d) (by omega)).1
      simp only [← Nat.add_assoc]
      omega)
  have hle : ∀ n, countW inQuit (S n).workers ≤ threads := by
    intro n
    rw [← (F.good n).inv.len]
    exact countW_le _ _
  obtain ⟨N, hN⟩ : ∃ N, N = N0 + d := ⟨_, rfl⟩
  have hconst : ∀ n, N ≤ n → countW inQuit (S n).workers = countW inQuit (S N).workers := by
    intro n hn
    obtain ⟨k, rfl⟩ := Nat.exists_eq_add_of_le hn
    have h1 := hd (d + k) (by omega)
    have h2 := hle (N + k)
    have h3 := hle N
    simp only [← Nat.add_assoc, ← hN] at h1
    omega
  have W : Waiting threads S N :=
    ⟨⟨fun n hn => W0.noWork n (by omega), fun n hn => W0.noSend n (by omega)⟩,
      fun n hn => W0.waiting n (by omega), fun n hn => W0.fresh n (by omega)⟩
  -- a worker outside does not get inside any more
  have hout : ∀ n, N ≤ n → ∀ me, (S n).workers[sched n]? = some me → inQuit me = false →
      inQuit (stepWorker compile threads (S n) me).2 = false := by
    intro n hn me hme h
    by_contra hc
    simp only [Bool.not_eq_false] at hc
    have h1 := (F.count_step W hn).2 me hme h hc
    have h2 := hconst n hn
    have h3 := hconst (n + 1) (by omega)
    omega
  have hrecv : ∀ n, N ≤ n → ∀ me, (S n).workers[sched n]? = some me → me.pc = .recv → (S n).queue = [] := by
    intro n hn me hme hpc
    rcases F.recv_idle W.toIdle hn hme rfl hpc with h | ⟨q, h⟩
    · exact h
    · have := hout n hn me hme (by simp [inQuit, hpc])
      simp [stepWorker, hpc, h, inQuit] at this
  have hgrow : ∀ n, N ≤ n → (S n).queue ≠ [] → (S (n + 1)).queue ≠ [] := by
    intro n hn hq
    rw [F.next]
    rcases step_cases compile threads (S n) (sched n) with e | ⟨me, hme, _⟩
    · rw [e]; exact hq
    · rw [solo_queue compile threads hme]
      cases hpc : me.pc with
      | recv => exact absurd (hrecv n hn me hme hpc) hq
      | gotWork w =>
        have := W.noWork n hn _ me hme
        simp [hasWork, hpc] at this
      | gotWork2 w =>
        have := W.noWork n hn _ me hme
        simp [hasWork, hpc] at this
      | running w =>
        have := W.noWork n hn _ me hme
        simp [hasWork, hpc] at this
      | sending ws =>
        have := W.noSend n hn _ me hme
        simp [isSending, hpc] at this
      | quitLoad2 k =>
        simp only [stepWorker, hpc]
        split
        · exact hq
        · split <;> exact hq
      | emptyLoad =>
        simp only [stepWorker, hpc]
        split <;> exact hq
      | sendQuit k => cases k <;> simp [stepWorker, hpc, hq]
      | empty => rw [(sw_empty compile threads _ hpc).2]; exact hq
      | empty2 => rw [(sw_empty2 compile threads _ hpc).2]; exact hq
      | gotQuit =>
        simp only [stepWorker, hpc, setWaiting]
        split
        · exact hq
        · split <;> exact hq
      | gotQuit2 =>
        simp only [stepWorker, hpc, setQuitting]
        split
        · exact hq
        · split <;> exact hq
      | quitLoad => simp [stepWorker, hpc, hq]
      | exited => simp [stepWorker, hpc, hq]
      | panicked => simp [stepWorker, hpc, hq]
  have hgrow' : ∀ n m, N ≤ n → n ≤ m → (S n).queue ≠ [] → (S m).queue ≠ [] := by
    intro n m hn hm hq
    induction hm with
    | refl => exact hq
    | @step m hm ih => exact hgrow m (by have : n ≤ m := hm; omega) ih
  have hpan : ∀ (n i : Nat) (me : WorkerSt), (S n).workers[i]? = some me → me.pc ≠ .panicked := by
    intro n i me hme hpc
    have h0 := (F.good n).nopanic
    have := countW_ge (f := isPanicked) hme
    unfold numPanicked at h0
    simp [h0, isPanicked, hpc, b2n] at this
  refine ⟨N, W, fun n hn i me hme => ?_⟩
  by_contra hq
  simp only [Bool.not_eq_true] at hq
  have hi := F.lt hme
  -- it sends a `Quit`
  obtain ⟨m, hm, me1, hme1, hq1, k, hk⟩ := F.leads (i := i) (fun me => inQuit me = false)
    (fun me => inQuit me = false ∧ ∃ k, me.pc = .sendQuit (k + 1))
    (fun me => match me.pc with
      | .sendQuit 0 => 4 | .recv => 3 | .empty => 2 | .empty2 => 1 | _ => 0) N
    (fun n hn me hme hs hinv hg => by
      subst hs
      have ho := hout n hn me hme hinv
      cases hpc : me.pc with
      | recv => exact .inr ⟨ho, by simp [stepWorker, hpc, hrecv n hn me hme hpc]⟩
      | gotWork w =>
        have := W.noWork n hn _ me hme
        simp [hasWork, hpc] at this
      | gotWork2 w =>
        have := W.noWork n hn _ me hme
        simp [hasWork, hpc] at this
      | running w =>
        have := W.noWork n hn _ me hme
        simp [hasWork, hpc] at this
      | sending ws =>
        have := W.noSend n hn _ me hme
        simp [isSending, hpc] at this
      | panicked => exact absurd hpc (hpan n _ me hme)
      | empty => exact .inr ⟨ho, by simp [stepWorker, hpc]⟩
      | empty2 => exact .inr ⟨ho, by simp [stepWorker, hpc]⟩
      | emptyLoad =>
        refine .inl ⟨ho, threads - 1, ?_⟩
        have := W.waiting n hn
        simp only [stepWorker, hpc, this, if_true]
        congr 1
        omega
      | sendQuit k =>
        cases k with
        | zero => exact .inr ⟨ho, by simp [stepWorker, hpc]⟩
        | succ k => exact absurd ⟨hinv, k, hpc⟩ hg
      | _ => simp [inQuit, hpc] at hinv)
    n hn me hme hq
  obtain ⟨m1, hm1, hs1, he1⟩ := F.turn hi m
  rw [hme1] at he1
  have hq2 : (S (m1 + 1)).queue ≠ [] := by
    rw [F.next, hs1, solo_queue compile threads he1]
    simp [stepWorker, hk]
  have ho1 : inQuit (stepWorker compile threads (S m1) me1).2 = false :=
    hout m1 (by omega) me1 (by rw [hs1]; exact he1) hq1
  have hk1 : (stepWorker compile threads (S m1) me1).2.pc = .sendQuit k := by simp [stepWorker, hk]
  -- then it looks into the queue again
  obtain ⟨m2, hm2, me2, hme2, hpc2⟩ := F.leads (i := i) (fun me => ∃ k, me.pc = .sendQuit k)
    (fun me => me.pc = .recv) (fun me => match me.pc with | .sendQuit k => k | _ => 0) N
    (fun n hn me hme hs hinv hg => by
      obtain ⟨k, hk⟩ := hinv
      cases k with
      | zero => exact .inl (by simp [stepWorker, hk])
      | succ k => exact .inr ⟨⟨k, by simp [stepWorker, hk]⟩, by simp [stepWorker, hk]⟩)
    (m1 + 1) (by omega) _ (F.own he1 hs1) ⟨k, hk1⟩
  obtain ⟨m3, hm3, hs3, he3⟩ := F.turn hi m2
  rw [hme2] at he3
  exact hgrow' (m1 + 1) m3 (by omega) (by omega) hq2
    (hrecv m3 (by omega) me2 (by rw [hs3]; exact he3) hpc2)

theorem FairRun.all_exit (F : FairRun compile threads root S sched) :
    ∃ N, ∀ n, N ≤ n → (S n).finished = true := by
  obtain ⟨N, W, hQ⟩ := F.all_inQuit
  obtain ⟨M, hM, h⟩ := F.settle (fun me => me.isQuitting = true)
    (fun me => match me.pc with | .gotQuit => 1 | _ => 0) N
    (fun n hn i me hme hs hg => by
      have hi := hQ n hn i me hme
      unfold inQuit at hi
      cases hpc : me.pc with
      | quitLoad2 k =>
        simp only [stepWorker, hpc]
        split
        · exact hg
        · split <;> exact hg
      | gotQuit =>
        simp only [stepWorker, hpc, setWaiting]
        split
        · exact hg
        · split <;> exact hg
      | gotQuit2 => simp [stepWorker, hpc, setQuitting, hg]
      | quitLoad => simp [stepWorker, hpc, hg]
      | exited => simp [stepWorker, hpc, hg]
      | _ => simp [hpc] at hi)
    (fun n hn i me hme hs hg => by
      have hi := hQ n hn i me hme
      have hf := F.flags hme
      unfold inQuit at hi
      cases hpc : me.pc with
      | gotQuit => right; simp [stepWorker, hpc]
      | gotQuit2 => left; simp [stepWorker, hpc, setQuitting, hg]
      | quitLoad => simp [flagsOk, hpc, hg] at hf
      | quitLoad2 k => simp [flagsOk, hpc, hg] at hf
      | exited => simp [flagsOk, hpc, hg] at hf
      | _ => simp [hpc] at hi)
  have hnq : ∀ n, M ≤ n → (S n).numQuitting = threads := by
    intro n hn
    have I' := (F.good n).inv
    rw [I'.quitting, ← I'.len, countW_full]
    intro w hw
    obtain ⟨i, hi⟩ := List.getElem?_of_mem hw
    exact h n hn i w hi
  obtain ⟨K, hK, hex⟩ := F.settle (fun me => me.pc = .exited)
    (fun me => match me.pc with | .gotQuit => 3 | .gotQuit2 => 2 | .quitLoad => 1 | _ => 0) M
    (fun n hn i me hme hs hg => by simp [stepWorker, hg])
    (fun n hn i me hme hs hg => by
      have hi := hQ n (by omega) i me hme
      unfold inQuit at hi
      cases hpc : me.pc with
      | gotQuit => right; simp [stepWorker, hpc]
      | gotQuit2 => right; simp [stepWorker, hpc]
      | quitLoad => right; simp [stepWorker, hpc]
      | quitLoad2 k =>
        left
        have := W.fresh n (by omega) i me hme k hpc
        simp only [stepWorker, hpc]
        rw [if_neg (by omega), if_pos (hnq n hn)]
      | exited => exact absurd hpc hg
      | _ => simp [hpc] at hi)
  refine ⟨K, fun n hn => ?_⟩
  unfold PoolSt.finished
  rw [List.all_eq_true]
  intro w hw
  obtain ⟨i, hi⟩ := List.getElem?_of_mem hw
  rw [hex n hn i w hi]

end

end Qlc
