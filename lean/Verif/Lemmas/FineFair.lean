import Verif.Lemmas.FinePool
import Verif.Props.Fair
import Verif.Spec.FineFair
import Mathlib.Data.Nat.Find
/-
Under a fair scheduler the pool with single file operations finishes: its control is that of a pool whose
compiler takes the results from a list, and a worker that makes a system call lets that pool wait.
-/
set_option autoImplicit false

namespace Qlc
open Spec

/-- The pool with another world. -/
def erase {σ τ : Type} (s : PoolSt σ) (t : τ) : PoolSt τ :=
  ⟨t, s.log, s.queue, s.numWaiting, s.numQuitting, s.workers⟩

theorem erase_elsewhere {σ τ : Type} {threads : Nat} {s : PoolSt σ} {i : Nat} {me : WorkerSt}
    (hme : s.workers[i]? = some me) (hr : ∀ p, me.pc ≠ .running (.graphQl p)) (t : τ)
    (c : Compiler τ) (c' : Compiler σ) :
    (erase s t).step c threads i = erase (s.step c' threads i) t := by
  rw [step_of c' threads s i me hme, step_of c threads (erase s t) i me hme]
  obtain ⟨pc, iw, iq, ms, gs⟩ := me
  cases pc with
  | running w =>
    cases w with
    | graphQl p => exact absurd rfl (hr p)
    | dirEntry e =>
      cases e with
      | dir p es =>
        simp only [stepWorker, runWork, Work.run]
        cases runEntries es <;> simp [erase]
      | badDir p err => simp [stepWorker, runWork, Work.run, erase]
      | bad err => simp [stepWorker, runWork, Work.run, erase]
      | file p => simp [stepWorker, runWork, Work.run, erase]
      | other p => simp [stepWorker, runWork, Work.run, erase]
  | recv =>
    simp only [stepWorker, erase]
    cases hq : s.queue with
    | nil => simp [hq]
    | cons m q => cases m <;> simp
  | gotWork w => cases iw <;> simp [stepWorker, setWaiting, erase]
  | gotWork2 w => cases iq <;> simp [stepWorker, setQuitting, erase]
  | sending ws => cases ws <;> simp [stepWorker, erase]
  | gotQuit => cases iw <;> simp [stepWorker, setWaiting, erase]
  | gotQuit2 => cases iq <;> simp [stepWorker, setQuitting, erase]
  | quitLoad => simp [stepWorker, erase]
  | quitLoad2 n =>
    by_cases h1 : n < threads
    · simp [stepWorker, erase, h1]
    · by_cases h2 : s.numQuitting = threads <;> simp [stepWorker, erase, h1, h2]
  | empty => cases iw <;> simp [stepWorker, setWaiting, erase]
  | empty2 => cases iq <;> simp [stepWorker, setQuitting, erase]
  | emptyLoad => by_cases h2 : s.numWaiting = threads <;> simp [stepWorker, erase, h2]
  | sendQuit n => cases n <;> simp [stepWorker, erase]
  | exited => simp [stepWorker, erase]
  | panicked => simp [stepWorker, erase]

theorem erase_returns {σ τ : Type} {threads : Nat} {s : PoolSt σ} {i : Nat} {me : WorkerSt} {p : Path}
    (hme : s.workers[i]? = some me) (hr : me.pc = .running (.graphQl p)) (t t' : τ) {gs : List String}
    {ms : List Msg} (c : Compiler τ) (hc : c t p = (.done gs ms, t')) :
    (erase s t).step c threads i = erase (s.step (fun w _ => (.done gs ms, w)) threads i) t' := by
  rw [step_of _ threads s i me hme, step_of c threads (erase s t) i me hme]
  obtain ⟨pc, iw, iq, ms, gs⟩ := me
  simp only at hr
  subst hr
  simp [stepWorker, runWork, Work.run, hc, erase]

section Run
variable {compile : Path → Ops FileOutcome} {threads : Nat} {G : Nat → FinePool} {sched : Nat → Nat × Nat}

/-- What is fixed about the run. -/
structure FineRun (compile : Path → Ops FileOutcome) (threads : Nat) (G : Nat → FinePool)
    (sched : Nat → Nat × Nat) : Prop where
  next : ∀ n, G (n + 1) = (G n).step compile threads (sched n)
  fair : Fair threads (fun n => (sched n).1)
  sizes : Progressing (fun n => (sched n).2)
  returns : ∀ n i p f, Running (G n).pool i p → (G n).flights i = some f →
    ∀ m out, f.step (G n).pool.world m = .inr out → ∃ gs ms, out = .done gs ms

/-- The result with which a worker returns from a compile in step `n`, if it does. -/
def resultAt (G : Nat → FinePool) (sched : Nat → Nat × Nat) (n : Nat) : Option (List String × List Msg) :=
  match (G n).pool.workers[(sched n).1]? with
  | none => none
  | some me =>
    match me.pc with
    | .running (.graphQl _) =>
      match (G n).flights (sched n).1 with
      | none => none
      | some f =>
        match f.step (G n).pool.world (sched n).2 with
        | .inr (.done gs ms) => some (gs, ms)
        | _ => none
    | _ => none

/-- In step `n` a worker starts a compile or makes a system call. -/
def Waits (G : Nat → FinePool) (sched : Nat → Nat × Nat) (n : Nat) : Prop :=
  (∃ p, Running (G n).pool (sched n).1 p) ∧ resultAt G sched n = none

theorem running_of {σ : Type} {s : PoolSt σ} {i : Nat} {me : WorkerSt} (hme : s.workers[i]? = some me)
    (h : ¬ ∃ p, Running s i p) : ∀ p, me.pc ≠ .running (.graphQl p) :=
  fun p e => h ⟨p, me, hme, e⟩

/-- A system call or the start of a compile. -/
theorem FineRun.wait (R : FineRun compile threads G sched) {n : Nat} (h : Waits G sched n) :
    ∃ W fl, G (n + 1) = ⟨{ (G n).pool with world := W }, fl⟩ ∧
      (∀ j, j ≠ (sched n).1 → fl j = (G n).flights j) ∧
      ((G n).flights (sched n).1 = none ∧
          (∃ p, Running (G n).pool (sched n).1 p ∧ fl (sched n).1 = some (.ops (compile p))) ∨
        ∃ f f', (G n).flights (sched n).1 = some f ∧ fl (sched n).1 = some f' ∧
          f.step (G n).pool.world (sched n).2 = .inl (f', W)) := by
  obtain ⟨⟨p, me, hme, hpc⟩, hres⟩ := h
  rw [R.next]
  unfold FinePool.step
  rw [hme]
  simp only [hpc]
  unfold resultAt at hres
  rw [hme] at hres
  simp only [hpc] at hres
  cases hf : (G n).flights (sched n).1 with
  | none =>
    refine ⟨(G n).pool.world, _, rfl, fun j hj => by simp [hj], .inl ⟨rfl, p, ⟨me, hme, hpc⟩, by simp⟩⟩
  | some f =>
    rw [hf] at hres
    simp only at hres ⊢
    cases hs : f.step (G n).pool.world (sched n).2 with
    | inl x =>
      obtain ⟨f', W⟩ := x
      refine ⟨W, _, rfl, fun j hj => by simp [FinePool.setFlight, hj], .inr ⟨f, f', rfl, ?_, hs⟩⟩
      simp [FinePool.setFlight]
    | inr out =>
      obtain ⟨gs, ms, rfl⟩ := R.returns n _ p f ⟨me, hme, hpc⟩ hf _ _ hs
      rw [hs] at hres
      simp at hres

/-- A worker returns from a compile. -/
theorem FineRun.result (R : FineRun compile threads G sched) {n : Nat} {gs : List String} {ms : List Msg}
    (h : resultAt G sched n = some (gs, ms)) :
    (∃ p, Running (G n).pool (sched n).1 p) ∧
    (G (n + 1)).pool = (G n).pool.step (fun w _ => (.done gs ms, w)) threads (sched n).1 ∧
    ∀ j, j ≠ (sched n).1 → (G (n + 1)).flights j = (G n).flights j := by
  unfold resultAt at h
  rw [R.next]
  unfold FinePool.step
  cases hme : (G n).pool.workers[(sched n).1]? with
  | none => rw [hme] at h; simp at h
  | some me =>
    rw [hme] at h
    simp only at h ⊢
    split at h
    · rename_i p hpc
      simp only [hpc]
      split at h
      · simp at h
      · rename_i f hf
        rw [hf]
        simp only
        split at h
        · rename_i gs' ms' hs
          rw [hs]
          simp only [Option.some.injEq, Prod.mk.injEq] at h
          obtain ⟨rfl, rfl⟩ := h
          exact ⟨⟨p, me, hme, hpc⟩, rfl, fun j hj => by simp [FinePool.setFlight, hj]⟩
        · simp at h
    · simp at h

/-- Any other step. -/
theorem FineRun.plain (R : FineRun compile threads G sched) {n : Nat}
    (h : ¬ ∃ p, Running (G n).pool (sched n).1 p) :
    (G (n + 1)).pool = (G n).pool.step (fun w _ => (.diverge, w)) threads (sched n).1 ∧
    (G (n + 1)).flights = (G n).flights ∧ resultAt G sched n = none := by
  rw [R.next]
  unfold FinePool.step resultAt
  cases hme : (G n).pool.workers[(sched n).1]? with
  | none =>
    refine ⟨?_, rfl, rfl⟩
    show (G n).pool = _
    unfold PoolSt.step
    rw [hme]
  | some me =>
    have hr := running_of hme h
    simp only
    cases hpc : me.pc with
    | running wk =>
      cases wk with
      | graphQl p => exact absurd hpc (hr p)
      | dirEntry e => simp
    | _ => simp

theorem FineRun.cases (R : FineRun compile threads G sched) (n : Nat) :
    Waits G sched n ∨ (∃ gs ms, resultAt G sched n = some (gs, ms)) ∨
      ¬ ∃ p, Running (G n).pool (sched n).1 p := by
  by_cases h : ∃ p, Running (G n).pool (sched n).1 p
  · cases hres : resultAt G sched n with
    | none => exact .inl ⟨h, hres⟩
    | some x => exact .inr (.inl ⟨x.1, x.2, rfl⟩)
  · exact .inr (.inr h)

/-- A step of another worker. -/
theorem FineRun.other (R : FineRun compile threads G sched) {n i : Nat} (h : (sched n).1 ≠ i) :
    (G (n + 1)).pool.workers[i]? = (G n).pool.workers[i]? ∧ (G (n + 1)).flights i = (G n).flights i := by
  rcases R.cases n with hw | ⟨gs, ms, hres⟩ | hp
  · obtain ⟨W, fl, e, h2, _⟩ := R.wait hw
    rw [e]
    exact ⟨rfl, h2 i (fun e => h e.symm)⟩
  · obtain ⟨_, e, h2⟩ := R.result hres
    rw [e]
    exact ⟨step_others _ _ _ (fun e => h e.symm), h2 i (fun e => h e.symm)⟩
  · obtain ⟨e, h2, _⟩ := R.plain hp
    rw [e, h2]
    exact ⟨step_others _ _ _ (fun e => h e.symm), rfl⟩

theorem FineRun.others (R : FineRun compile threads G sched) {i n : Nat} : ∀ d : Nat,
    (∀ k, n ≤ k → k < n + d → (sched k).1 ≠ i) →
    (G (n + d)).pool.workers[i]? = (G n).pool.workers[i]? ∧ (G (n + d)).flights i = (G n).flights i
  | 0, _ => ⟨rfl, rfl⟩
  | d + 1, h => by
    obtain ⟨h1, h2⟩ := R.others d (fun k a b => h k a (by omega))
    obtain ⟨h3, h4⟩ := R.other (h (n + d) (by omega) (by omega))
    exact ⟨h3.trans h1, h4.trans h2⟩

/-- The next turn of a worker; until then nothing about it changes. -/
theorem FineRun.turn (R : FineRun compile threads G sched) {i : Nat} (hi : i < threads) (n : Nat) :
    ∃ m, n ≤ m ∧ (sched m).1 = i ∧ (G m).pool.workers[i]? = (G n).pool.workers[i]? ∧
      (G m).flights i = (G n).flights i := by
  obtain ⟨m₀, h1, h2⟩ := R.fair i hi n
  have hex : ∃ d, (sched (n + d)).1 = i := ⟨m₀ - n, by rw [Nat.add_sub_cancel' h1]; exact h2⟩
  obtain ⟨d, hd, hmin⟩ : ∃ d, (sched (n + d)).1 = i ∧ ∀ k, k < d → (sched (n + k)).1 ≠ i := by
    classical
    exact ⟨Nat.find hex, Nat.find_spec hex, fun k hk => Nat.find_min hex hk⟩
  obtain ⟨h3, h4⟩ := R.others (i := i) (n := n) d (fun k a b => by
    have := hmin (k - n) (by omega)
    rwa [Nat.add_sub_cancel' a] at this)
  exact ⟨n + d, by omega, hd, h3, h4⟩

/-- A worker gets on from here: it will not wait forever. -/
def GetsOn (G : Nat → FinePool) (sched : Nat → Nat × Nat) (i : Nat) (f : Flight FileOutcome) : Prop :=
  ∀ n p, Running (G n).pool i p → (G n).flights i = some f →
    ∃ m, n ≤ m ∧ (sched m).1 = i ∧ ¬ Waits G sched m

/-- One turn: either the worker does not wait, or its compile is a system call further. -/
theorem FineRun.getsOn (R : FineRun compile threads G sched) {i : Nat} (hi : i < threads)
    {f : Flight FileOutcome}
    (h : ∀ W s f' W', 0 < s → f.step W s = .inl (f', W') → GetsOn G sched i f') : GetsOn G sched i f := by
  intro n p hp hf
  obtain ⟨m, h1, h2, h3, h4⟩ := R.turn hi n
  by_cases hw : Waits G sched m
  · have hp' : Running (G m).pool i p := by
      unfold Running at hp ⊢
      rwa [h3]
    obtain ⟨W, fl, e, _, hcase⟩ := R.wait hw
    rw [h2, h4, hf] at hcase
    rcases hcase with ⟨h5, _⟩ | ⟨g, f', e1, e2, hs⟩
    · simp at h5
    · cases e1
      have hp'' : Running (G (m + 1)).pool i p := by
        rw [e]; exact hp'
      have hf'' : (G (m + 1)).flights i = some f' := by
        rw [e]; exact e2
      obtain ⟨m', k1, k2, k3⟩ := h _ _ f' W (R.sizes m) hs (m + 1) p hp'' hf''
      exact ⟨m', by omega, k2, k3⟩
  · exact ⟨m, h1, h2, hw⟩

theorem FineRun.writing (R : FineRun compile threads G sched) {i : Nat} (hi : i < threads) {p : Path}
    {text : String} {next : Ops FileOutcome} (hnext : GetsOn G sched i (.ops next)) :
    ∀ (d n : Nat), byteLength text - n ≤ d → GetsOn G sched i (.writing p text n next)
  | d, n, hd => by
    refine R.getsOn hi ?_
    intro W s f' W' hs hstep
    simp only [Flight.step] at hstep
    split at hstep
    · cases hstep
      exact hnext
    · rename_i hlt
      cases hstep
      cases d with
      | zero => omega
      | succ d => exact R.writing hi hnext d (n + s) (by omega)

theorem FineRun.ops (R : FineRun compile threads G sched) {i : Nat} (hi : i < threads) :
    ∀ o : Ops FileOutcome, GetsOn G sched i (.ops o) := by
  intro o
  induction o with
  | ret a =>
    refine R.getsOn hi ?_
    intro W s f' W' _ hstep
    simp [Flight.step] at hstep
  | read p k ih =>
    refine R.getsOn hi ?_
    intro W s f' W' _ hstep
    simp only [Flight.step] at hstep
    cases hstep
    exact ih _
  | write p c k ih =>
    refine R.getsOn hi ?_
    intro W s f' W' _ hstep
    simp only [Flight.step] at hstep
    split at hstep
    · cases hstep; exact ih _
    · cases hstep; exact R.writing hi (ih _) _ _ (Nat.le_refl _)
    · cases hstep; exact R.writing hi (ih _) _ _ (Nat.le_refl _)

/-- Every worker does something else than waiting for the file system again and again. -/
theorem FineRun.active (R : FineRun compile threads G sched) {i : Nat} (hi : i < threads) (n : Nat) :
    ∃ m, n ≤ m ∧ (sched m).1 = i ∧ ¬ Waits G sched m := by
  obtain ⟨m, h1, h2, _, _⟩ := R.turn hi n
  by_cases hw : Waits G sched m
  · obtain ⟨W, fl, e, _, hcase⟩ := R.wait hw
    obtain ⟨p, hp⟩ := hw.1
    rw [h2] at hp hcase
    have hp' : Running (G (m + 1)).pool i p := by rw [e]; exact hp
    rcases hcase with ⟨_, q, _, hq⟩ | ⟨f, f', _, hf', _⟩
    · obtain ⟨m', k1, k2, k3⟩ := R.ops hi _ (m + 1) p hp' (by rw [e]; exact hq)
      exact ⟨m', by omega, k2, k3⟩
    · cases f' with
      | ops o =>
        obtain ⟨m', k1, k2, k3⟩ := R.ops hi o (m + 1) p hp' (by rw [e]; exact hf')
        exact ⟨m', by omega, k2, k3⟩
      | writing q t k next =>
        obtain ⟨m', k1, k2, k3⟩ := R.writing hi (R.ops hi next) _ k (Nat.le_refl _) (m + 1) p hp'
          (by rw [e]; exact hf')
        exact ⟨m', by omega, k2, k3⟩
  · exact ⟨m, h1, h2, hw⟩

/-! ### The pool whose results come from a list -/

/-- How many compiles returned in the first `n` steps. -/
def returned (G : Nat → FinePool) (sched : Nat → Nat × Nat) : Nat → Nat
  | 0 => 0
  | n + 1 => returned G sched n + if (resultAt G sched n).isSome then 1 else 0

theorem returned_mono (n d : Nat) : returned G sched n ≤ returned G sched (n + d) := by
  induction d with
  | zero => exact Nat.le_refl _
  | succ d ih =>
    rw [← Nat.add_assoc, returned]
    omega

open Classical in
/-- The result of the `r`-th compile that returned. -/
noncomputable def nthResult (G : Nat → FinePool) (sched : Nat → Nat × Nat) (r : Nat) :
    List String × List Msg :=
  if h : ∃ n, returned G sched n = r ∧ (resultAt G sched n).isSome = true then
    (resultAt G sched (choose h)).getD ([], [])
  else ([], [])

theorem nthResult_eq {n : Nat} {x : List String × List Msg} (h : resultAt G sched n = some x) :
    nthResult G sched (returned G sched n) = x := by
  classical
  unfold nthResult
  have hex : ∃ m, returned G sched m = returned G sched n ∧ (resultAt G sched m).isSome = true :=
    ⟨n, rfl, by rw [h]; rfl⟩
  rw [dif_pos hex]
  have hspec := Classical.choose_spec hex
  have heq : Classical.choose hex = n := by
    generalize Classical.choose hex = m at hspec
    obtain ⟨h1, h2⟩ := hspec
    by_contra hne
    rcases Nat.lt_or_gt_of_ne hne with hlt | hlt
    · have := returned_mono (G := G) (sched := sched) (m + 1) (n - (m + 1))
      rw [Nat.add_sub_cancel' hlt, returned, h2] at this
      simp only [if_true] at this
      omega
    · have := returned_mono (G := G) (sched := sched) (n + 1) (m - (n + 1))
      rw [Nat.add_sub_cancel' hlt, returned, h] at this
      simp only [Option.isSome_some, if_true] at this
      omega
  rw [heq, h]
  rfl

/-- A compiler that takes its results from the run. -/
noncomputable def listedCompiler (G : Nat → FinePool) (sched : Nat → Nat × Nat) : Compiler Nat :=
  fun r _ => (.done (nthResult G sched r).1 (nthResult G sched r).2, r + 1)

open Classical in
/-- Waiting for the file system is a turn of nobody. -/
noncomputable def coarseSched (threads : Nat) (G : Nat → FinePool) (sched : Nat → Nat × Nat) (n : Nat) : Nat :=
  if Waits G sched n then threads else (sched n).1

theorem FineRun.coarse_fair (R : FineRun compile threads G sched) :
    Fair threads (coarseSched threads G sched) := by
  intro i hi n
  obtain ⟨m, h1, h2, h3⟩ := R.active hi n
  exact ⟨m, h1, by unfold coarseSched; rw [if_neg h3]; exact h2⟩

theorem FineRun.coarse_state (R : FineRun compile threads G sched) {root : Entry} {w : World}
    (h0 : G 0 = FinePool.init w threads root) (n : Nat) :
    stateAt (listedCompiler G sched) threads (PoolSt.init 0 threads root) (coarseSched threads G sched) n =
      erase (G n).pool (returned G sched n) := by
  have FR := fairRun_init (listedCompiler G sched) 0 threads root
    (fun r p _ => ⟨_, _, _, rfl⟩) (coarseSched threads G sched) R.coarse_fair
  induction n with
  | zero => rw [h0]; rfl
  | succ n ih =>
    have hlen : (G n).pool.workers.length = threads := by
      have := (FR.good n).inv.len
      rw [ih] at this
      exact this
    rw [stateAt, ih]
    rcases R.cases n with hw | ⟨gs, ms, hres⟩ | hp
    · obtain ⟨W, fl, e, _, _⟩ := R.wait hw
      have hs : coarseSched threads G sched n = threads := by unfold coarseSched; rw [if_pos hw]
      rw [hs, e, returned, hw.2]
      unfold PoolSt.step
      have hnone : (erase (G n).pool (returned G sched n)).workers[threads]? = none := by
        rw [List.getElem?_eq_none_iff]
        show (G n).pool.workers.length ≤ threads
        omega
      rw [hnone]
      rfl
    · obtain ⟨⟨p, hme⟩, e, _⟩ := R.result hres
      obtain ⟨me, hme, hpc⟩ := hme
      have hs : coarseSched threads G sched n = (sched n).1 := by
        unfold coarseSched
        rw [if_neg]
        rintro ⟨_, hn⟩
        rw [hres] at hn
        simp at hn
      rw [hs, e, returned, hres]
      simp only [Option.isSome_some, if_true]
      refine erase_returns hme hpc _ _ (listedCompiler G sched) ?_
      unfold listedCompiler
      rw [nthResult_eq hres]
    · obtain ⟨e, _, hnone⟩ := R.plain hp
      have hs : coarseSched threads G sched n = (sched n).1 := by
        unfold coarseSched
        rw [if_neg]
        rintro ⟨h, _⟩
        exact hp h
      rw [hs, e, returned, hnone]
      cases hme : (G n).pool.workers[(sched n).1]? with
      | none =>
        have h1 : (erase (G n).pool (returned G sched n)).workers[(sched n).1]? = none := hme
        unfold PoolSt.step
        rw [h1, hme]
        rfl
      | some me => exact erase_elsewhere hme (running_of hme hp) _ _ _

/-- All workers exit. -/
theorem FineRun.finishes (R : FineRun compile threads G sched) {root : Entry} {w : World}
    (h0 : G 0 = FinePool.init w threads root) : ∃ N, ∀ n, N ≤ n → (G n).pool.finished = true := by
  obtain ⟨N, hN⟩ := C71_fair_schedules_finish (listedCompiler G sched) 0 threads root
    (fun r p _ => ⟨_, _, _, rfl⟩) (coarseSched threads G sched) R.coarse_fair
  refine ⟨N, fun n hn => ?_⟩
  have := hN n hn
  rw [R.coarse_state h0] at this
  exact this

end Run

/-! ### Finishing a program of file operations that nobody disturbs -/

theorem steps_append {α : Type} : ∀ (l l' : List Nat) (W : World) (f : Flight α),
    Flight.steps W (l ++ l') f = match Flight.steps W l f with
      | (.inl f', W') => Flight.steps W' l' f'
      | (.inr a, W') => (.inr a, W')
  | [], _, _, _ => rfl
  | m :: l, l', W, f => by
    rw [List.cons_append, Flight.steps, Flight.steps]
    cases f.step W m with
    | inl x => exact steps_append l l' x.2 x.1
    | inr a => rfl

/-- With partial writes that write something, a program returns after finitely many system calls. -/
def Returns {α : Type} (f : Flight α) : Prop :=
  ∀ (W : World) (sizes : Nat → Nat), Progressing sizes →
    ∃ k a W', Flight.steps W ((List.range k).map sizes) f = (.inr a, W')

theorem returns_step {α : Type} {f : Flight α}
    (h : ∀ W s f' W', 0 < s → f.step W s = .inl (f', W') → Returns f') : Returns f := by
  intro W sizes hs
  cases hstep : f.step W (sizes 0) with
  | inr a =>
    refine ⟨1, a, W, ?_⟩
    simp [List.range_succ, Flight.steps, hstep]
  | inl x =>
    obtain ⟨f', W'⟩ := x
    obtain ⟨k, a, W'', hk⟩ := h W _ f' W' (hs 0) hstep W' (fun n => sizes (n + 1)) (fun n => hs (n + 1))
    refine ⟨k + 1, a, W'', ?_⟩
    rw [List.range_succ_eq_map, List.map_cons, List.map_map, Flight.steps, hstep]
    exact hk

theorem returns_writing {α : Type} {p : Path} {text : String} {next : Ops α} (hnext : Returns (.ops next)) :
    ∀ (d n : Nat), byteLength text - n ≤ d → Returns (.writing p text n next)
  | d, n, hd => by
    refine returns_step ?_
    intro W s f' W' hs hstep
    simp only [Flight.step] at hstep
    split at hstep
    · cases hstep
      exact hnext
    · rename_i hlt
      cases hstep
      cases d with
      | zero => omega
      | succ d => exact returns_writing hnext d (n + s) (by omega)

theorem returns_ops {α : Type} : ∀ o : Ops α, Returns (.ops o) := by
  intro o
  induction o with
  | ret a =>
    refine returns_step ?_
    intro W s f' W' _ hstep
    simp [Flight.step] at hstep
  | read p k ih =>
    refine returns_step ?_
    intro W s f' W' _ hstep
    simp only [Flight.step] at hstep
    cases hstep
    exact ih _
  | write p c k ih =>
    refine returns_step ?_
    intro W s f' W' _ hstep
    simp only [Flight.step] at hstep
    split at hstep
    · cases hstep; exact ih _
    · cases hstep; exact returns_writing (ih _) _ _ (Nat.le_refl _)
    · cases hstep; exact returns_writing (ih _) _ _ (Nat.le_refl _)

end Qlc
