import Verif.Lemmas.Steps
/-
The pool with interleaved file operations does what the pool with whole compiles does.
-/
set_option autoImplicit false

namespace Qlc
open Spec

/-- Worker `i` is compiling `p`. -/
def Running {σ : Type} (s : PoolSt σ) (i : Nat) (p : Path) : Prop :=
  ∃ me : WorkerSt, s.workers[i]? = some me ∧ me.pc = .running (.graphQl p)

theorem Running.unique {σ : Type} {s : PoolSt σ} {i : Nat} {p q : Path} (h : Running s i p)
    (h' : Running s i q) : p = q := by
  obtain ⟨me, h1, h2⟩ := h
  obtain ⟨me', h1', h2'⟩ := h'
  rw [h1] at h1'
  cases h1'
  rw [h2] at h2'
  injection h2' with h2'
  injection h2'

theorem running_pending {σ : Type} {s : PoolSt σ} {i : Nat} {p : Path} (h : Running s i p) :
    ∃ rest, (pending s).Perm (.graphQl p :: rest) := by
  obtain ⟨me, h1, h2⟩ := h
  obtain ⟨rest, h3, _⟩ := pending_of h1
  refine ⟨rest, ?_⟩
  have : heldWork me = [.graphQl p] := by unfold heldWork; rw [h2]
  rw [this] at h3
  exact h3

theorem held_disjoint {l : List WorkerSt} (hn : (l.flatMap (fun w => (heldWork w).flatMap workFiles)).Nodup)
    {i j : Nat} {a b : WorkerSt} (hi : l[i]? = some a) (hj : l[j]? = some b) (hij : i ≠ j) {p : Path}
    (ha : p ∈ (heldWork a).flatMap workFiles) : p ∉ (heldWork b).flatMap workFiles := by
  induction l generalizing i j with
  | nil => simp at hi
  | cons x l ih =>
    rw [List.flatMap_cons, List.nodup_append] at hn
    obtain ⟨_, h2, h3⟩ := hn
    cases i with
    | zero =>
      cases j with
      | zero => exact absurd rfl hij
      | succ j =>
        simp only [List.getElem?_cons_zero, Option.some.injEq, List.getElem?_cons_succ] at hi hj
        subst hi
        intro hb
        exact h3 p ha p (List.mem_flatMap.2 ⟨b, List.mem_of_getElem? hj, hb⟩) rfl
    | succ i =>
      cases j with
      | zero =>
        simp only [List.getElem?_cons_zero, Option.some.injEq, List.getElem?_cons_succ] at hi hj
        subst hj
        intro hb
        exact h3 p hb p (List.mem_flatMap.2 ⟨a, List.mem_of_getElem? hi, ha⟩) rfl
      | succ j =>
        simp only [List.getElem?_cons_succ] at hi hj
        exact ih h2 hi hj (fun e => hij (by rw [e]))

/-- No file is in two workers' hands. -/
theorem running_once {σ : Type} {s : PoolSt σ} (hn : ((pending s).flatMap workFiles).Nodup) {i j : Nat}
    {p : Path} (hi : Running s i p) (hj : Running s j p) : i = j := by
  obtain ⟨a, a1, a2⟩ := hi
  obtain ⟨b, b1, b2⟩ := hj
  by_contra hij
  have hn' : (s.workers.flatMap (fun w => (heldWork w).flatMap workFiles)).Nodup := by
    unfold pending at hn
    rw [List.flatMap_append, List.nodup_append] at hn
    have := hn.2.1
    rw [List.flatMap_assoc] at this
    exact this
  refine held_disjoint hn' a1 b1 hij (p := p) ?_ ?_
  · simp [heldWork, a2, workFiles]
  · simp [heldWork, b2, workFiles]

/-- A step of a worker that is not compiling does not look at the file system or the compiler. -/
theorem step_elsewhere {threads : Nat} {s : PoolSt World} {i : Nat} {me : WorkerSt}
    (hme : s.workers[i]? = some me) (hr : ∀ p, me.pc ≠ .running (.graphQl p)) (W : World)
    (c c' : Compiler World) :
    ({ s with world := W }).step c threads i = { s.step c' threads i with world := W } ∧
    (s.step c' threads i).world = s.world := by
  rw [step_of c' threads s i me hme, step_of c threads { s with world := W } i me hme]
  obtain ⟨pc, iw, iq, ms, gs⟩ := me
  cases pc with
  | running w =>
    cases w with
    | graphQl p => exact absurd rfl (hr p)
    | dirEntry e =>
      cases e with
      | dir p es =>
        simp only [stepWorker, runWork, Work.run]
        cases runEntries es <;> simp
      | badDir p err => simp [stepWorker, runWork, Work.run]
      | bad err => simp [stepWorker, runWork, Work.run]
      | file p => simp [stepWorker, runWork, Work.run]
      | other p => simp [stepWorker, runWork, Work.run]
  | recv =>
    simp only [stepWorker]
    cases hq : s.queue with
    | nil => simp [hq]
    | cons m q => cases m <;> simp
  | gotWork w => cases iw <;> simp [stepWorker, setWaiting]
  | gotWork2 w => cases iq <;> simp [stepWorker, setQuitting]
  | sending ws => cases ws <;> simp [stepWorker]
  | gotQuit => cases iw <;> simp [stepWorker, setWaiting]
  | gotQuit2 => cases iq <;> simp [stepWorker, setQuitting]
  | quitLoad => simp [stepWorker]
  | quitLoad2 n =>
    simp only [stepWorker]
    split
    · simp
    · split <;> simp
  | empty => cases iw <;> simp [stepWorker, setWaiting]
  | empty2 => cases iq <;> simp [stepWorker, setQuitting]
  | emptyLoad =>
    simp only [stepWorker]
    split <;> simp
  | sendQuit n => cases n <;> simp [stepWorker]
  | exited => simp [stepWorker]
  | panicked => simp [stepWorker]

/-- A step of worker `i` leaves the other workers alone. -/
theorem step_others {σ : Type} (c : Compiler σ) (threads : Nat) (s : PoolSt σ) {i j : Nat} (h : j ≠ i) :
    (s.step c threads i).workers[j]? = s.workers[j]? := by
  rcases step_cases c threads s i with e | ⟨me, _, e⟩
  · rw [e]
  · rw [e]
    simp [List.getElem?_set, h.symm]

theorem step_others_running {σ : Type} (c : Compiler σ) (threads : Nat) (s : PoolSt σ) {i j : Nat}
    (h : j ≠ i) (p : Path) : Running (s.step c threads i) j p ↔ Running s j p := by
  unfold Running
  rw [step_others c threads s h]

/-- A worker returning from a compile with a given outcome. -/
theorem step_returns {threads : Nat} {s : PoolSt World} {i : Nat} {me : WorkerSt} {p : Path}
    (hme : s.workers[i]? = some me) (hr : me.pc = .running (.graphQl p)) (W W' : World)
    (out : FileOutcome) (hout : out ≠ .diverge) (c : Compiler World) (hc : c s.world p = (out, W')) :
    ({ s with world := W }).step (fun w _ => (out, w)) threads i =
      { s.step c threads i with world := W } ∧
    (s.step c threads i).world = W' ∧ (∀ q, ¬ Running (s.step c threads i) i q) ∧
    (s.step c threads i).log = (match out with | .done _ _ => s.log ++ [p] | _ => s.log) := by
  have hlt : i < s.workers.length := by
    rw [List.getElem?_eq_some_iff] at hme
    exact hme.1
  rw [step_of c threads s i me hme, step_of _ threads { s with world := W } i me hme]
  obtain ⟨pc, iw, iq, ms, gs⟩ := me
  simp only at hr
  subst hr
  cases out with
  | diverge => exact absurd rfl hout
  | done gs' ms' =>
    simp only [stepWorker, runWork, Work.run, hc, Running]
    refine ⟨trivial, trivial, ?_, trivial⟩
    rintro q ⟨me, h1, h2⟩
    rw [List.getElem?_set_self hlt] at h1
    cases h1
    simp at h2
  | panic =>
    simp only [stepWorker, runWork, Work.run, hc, Running]
    refine ⟨trivial, trivial, ?_, trivial⟩
    rintro q ⟨me, h1, h2⟩
    rw [List.getElem?_set_self hlt] at h1
    cases h1
    simp at h2

/-! ### The simulation -/

section Sim
variable (ω : Path → Hash) (fuel : Nat) (ext : Ext) (cfg : CompileConfig) (schema : Schema) (w : World)
  (root : Entry) (threads : Nat)

/-- The program compiling `p`. -/
abbrev progOf (p : Path) : Ops FileOutcome := compileOps (ω p) fuel ext cfg schema p

/-- The fine-grained pool `F` and the coarse one `C` agree on everything but the outputs of files that
are being compiled. -/
structure Sim (F : FinePool) (C : PoolSt World) : Prop where
  pool : F.pool = { C with world := F.pool.world }
  resolve : F.pool.world.resolve = w.resolve
  writeErr : F.pool.world.writeErr = w.writeErr
  flying : ∀ i f, F.flights i = some f → ∃ p, Running C i p ∧
    OnTrack w (outputPath p) (progOf ω fuel ext cfg schema p)
      (F.pool.world.disk (w.resolve (outputPath p))) f
  disk : ∀ id, (∀ i f p, F.flights i = some f → Running C i p → id ≠ w.resolve (outputPath p)) →
    F.pool.world.disk id = C.world.disk id

variable {w root}

/-- What is known of reachable coarse states. -/
structure Known (C : PoolSt World) : Prop where
  written : Written ω fuel ext cfg schema (w := w) (root := root) C.world C.log
  found : ∀ i p, Running C i p → FoundIn root p
  fresh : ∀ i p, Running C i p → p ∉ C.log
  once : ∀ i j p, Running C i p → Running C j p → i = j

theorem known_of_reached (hr : NoOutputRead w cfg root) (hd : OutputsDistinct w root)
    (hn : (filesOf root).Nodup) {sched : List Nat} {C : PoolSt World}
    (h : ReachedBy (poolCompile ω fuel ext cfg schema) w threads root sched C) :
    Known ω fuel ext cfg schema (w := w) (root := root) C := by
  obtain ⟨cons, W⟩ := reached_written ω fuel ext cfg schema hr hd h
  obtain ⟨lost, _, _, hperm⟩ := id cons
  have hn' := hperm.nodup_iff.2 hn
  rw [List.append_assoc, List.nodup_append, List.nodup_append] at hn'
  refine ⟨W, ?_, ?_, fun i j p hi hj => running_once hn'.2.1.1 hi hj⟩
  · intro i p hp
    obtain ⟨rest, hp⟩ := running_pending hp
    exact (mem_filesOf root p).1 (pending_files cons hp)
  · intro i p hp hl
    obtain ⟨rest, hp⟩ := running_pending hp
    refine hn'.2.2 p hl p ?_ rfl
    refine List.mem_append_left _ ((hp.flatMap_right _).mem_iff.2 ?_)
    simp [workFiles]

/-- One fine-grained step is no step or one step of the coarse pool. -/
theorem sim_step (hr : NoOutputRead w cfg root) (hd : OutputsDistinct w root)
    (hn : (filesOf root).Nodup) {sched : List Nat} {C : PoolSt World}
    (h : ReachedBy (poolCompile ω fuel ext cfg schema) w threads root sched C) {F : FinePool}
    (S : Sim ω fuel ext cfg schema w F C) (im : Nat × Nat) :
    ∃ sched' C', ReachedBy (poolCompile ω fuel ext cfg schema) w threads root sched' C' ∧
      Sim ω fuel ext cfg schema w (F.step (progOf ω fuel ext cfg schema) threads im) C' := by
  obtain ⟨i, m⟩ := im
  have K := known_of_reached ω fuel ext cfg schema threads hr hd hn h
  have hnext : ReachedBy (poolCompile ω fuel ext cfg schema) w threads root (sched ++ [i])
      (C.step (poolCompile ω fuel ext cfg schema) threads i) := by
    unfold ReachedBy at h ⊢
    rw [run_append, ← h]
    rfl
  have hworkers : F.pool.workers = C.workers := by rw [S.pool]
  -- the outputs of two files in flight are different
  have houts : ∀ i j p q, Running C i p → Running C j q → i ≠ j →
      w.resolve (outputPath p) ≠ w.resolve (outputPath q) := by
    intro i j p q hi hj hij e
    have := hd p q (K.found i p hi) (K.found j q hj) e
    subst this
    exact hij (K.once i j p hi hj)
  unfold FinePool.step
  have hw' : F.pool.workers[(i, m).1]? = C.workers[i]? := by rw [hworkers]
  rw [hw']
  cases hme : C.workers[i]? with
  | none => exact ⟨sched, C, h, S⟩
  | some me =>
    simp only
    by_cases hrun : ∃ p, me.pc = .running (.graphQl p)
    · obtain ⟨p, hpc⟩ := hrun
      have hRun : Running C i p := ⟨me, hme, hpc⟩
      have hfound := K.found i p hRun
      have hread : ∀ q, Reads w cfg p q → F.pool.world.read q = w.read q := by
        intro q hq
        unfold World.read
        rw [S.resolve, S.disk _ ?_]
        · exact K.written.stable.others _ (hr p q hfound hq)
        · intro j f p' _ hj e
          exact hr p q hfound hq ⟨p', K.found j p' hj, e⟩
      simp only [hpc]
      cases hfl : F.flights i with
      | none =>
        -- the compile starts
        refine ⟨sched, C, h, S.pool, S.resolve, S.writeErr, ?_, ?_⟩
        · intro j f hj
          simp only [FinePool.setFlight] at hj
          by_cases hji : j = i
          · subst hji
            simp only [if_true, Option.some.injEq] at hj
            subst hj
            refine ⟨p, hRun, .before _ .refl ?_⟩
            change F.pool.world.disk _ = _
            rw [S.disk, K.written.untouched p hfound (K.fresh j p hRun)]
            intro j' f' p' hj' hR'
            exact houts j j' p p' hRun hR' (fun e => by subst e; rw [hfl] at hj'; cases hj')
          · simp only [hji, if_false] at hj
            exact S.flying j f hj
        · intro id hid
          apply S.disk
          intro j f q hj hq
          refine hid j f q ?_ hq
          simp only [FinePool.setFlight]
          have : j ≠ i := fun e => by subst e; rw [hfl] at hj; cases hj
          simp [this, hj]
      | some f =>
        simp only
        obtain ⟨p', hR', T⟩ := S.flying i f hfl
        obtain rfl := hRun.unique hR'
        rcases onTrack_step (compileOps_well (ω p) fuel ext cfg schema w p) S.resolve S.writeErr hread T m
          with ⟨f', W', e, r1, r2, r3, T'⟩ | ⟨a, e, ha, hdisk⟩
        · -- a system call
          rw [e]
          refine ⟨sched, C, h, ?_, r1, r2, ?_, ?_⟩
          · show ({ F.pool with world := W' } : PoolSt World) = { C with world := W' }
            exact congrArg (fun P : PoolSt World => { P with world := W' }) S.pool
          · intro j g hj
            simp only [FinePool.setFlight] at hj ⊢
            by_cases hji : j = i
            · subst hji
              simp only [if_true, Option.some.injEq] at hj
              subst hj
              exact ⟨p, hRun, T'⟩
            · simp only [hji, if_false] at hj
              obtain ⟨q, hq, Tq⟩ := S.flying j g hj
              refine ⟨q, hq, ?_⟩
              rw [r3 _ (houts j i q p hq hRun hji)]
              exact Tq
          · intro id hid
            have hidp : id ≠ w.resolve (outputPath p) :=
              hid i f' p (by simp [FinePool.setFlight]) hRun
            show W'.disk id = C.world.disk id
            rw [r3 id hidp]
            apply S.disk
            intro j g q hj hq
            by_cases hji : j = i
            · subst hji
              rw [← hRun.unique hq]
              exact hidp
            · exact hid j g q (by simp [FinePool.setFlight, hji, hj]) hq
        · -- the compile returns
          rw [e]
          by_cases hdiv : a = .diverge
          · subst hdiv
            exact ⟨sched, C, h, S⟩
          have hpair : ∃ W', poolCompile ω fuel ext cfg schema C.world p = (a, W') := by
            refine ⟨(poolCompile ω fuel ext cfg schema C.world p).2, ?_⟩
            rw [← ha, compileOps_run]
            have hgc := generateFile_congr cfg w C.world (ω p) fuel ext schema p
              (fun q hq => K.written.stable.read cfg w root hr hfound hq)
            rw [← poolCompile_outcome ω fuel ext cfg schema p w C.world hgc K.written.stable.resolve
              K.written.stable.writeErr]
          obtain ⟨W', hc⟩ := hpair
          obtain ⟨q1, q2, q3, q4⟩ := step_returns (threads := threads) hme hpc F.pool.world W' a hdiv
            (poolCompile ω fuel ext cfg schema) hc
          have K' := known_of_reached ω fuel ext cfg schema threads hr hd hn hnext
          have hstep : F.pool.step (fun w _ => (a, w)) threads i =
              { C.step (poolCompile ω fuel ext cfg schema) threads i with world := F.pool.world } := by
            rw [← q1, ← S.pool]
          have goal : Sim ω fuel ext cfg schema w
              { F.setFlight i none with pool := F.pool.step (fun w _ => (a, w)) threads i }
              (C.step (poolCompile ω fuel ext cfg schema) threads i) := by
            refine ⟨?_, ?_, ?_, ?_, ?_⟩
            · show F.pool.step (fun w _ => (a, w)) threads i = _
              rw [hstep]
            · show (F.pool.step (fun w _ => (a, w)) threads i).world.resolve = _
              rw [hstep]; exact S.resolve
            · show (F.pool.step (fun w _ => (a, w)) threads i).world.writeErr = _
              rw [hstep]; exact S.writeErr
            · intro j g hj
              simp only [FinePool.setFlight] at hj
              by_cases hji : j = i
              · simp [hji] at hj
              · simp only [hji, if_false] at hj
                obtain ⟨q, hq, Tq⟩ := S.flying j g hj
                refine ⟨q, (step_others_running _ threads C hji q).2 hq, ?_⟩
                show OnTrack w (outputPath q) _
                  ((F.pool.step (fun w _ => (a, w)) threads i).world.disk _) g
                rw [hstep]
                exact Tq
            · intro id hid
              show (F.pool.step (fun w _ => (a, w)) threads i).world.disk id = _
              rw [hstep]
              show F.pool.world.disk id = _
              by_cases hidp : id = w.resolve (outputPath p)
              · subst hidp
                rw [hdisk, compileOps_run]
                cases a with
                | diverge => exact absurd rfl hdiv
                | done gs ms =>
                  exact (K'.written.written p (by rw [q4]; simp)).symm
                | panic =>
                  have hw : poolCompile ω fuel ext cfg schema w p =
                      (.panic, (poolCompile ω fuel ext cfg schema w p).2) := by
                    rw [← ha, compileOps_run]
                  rw [poolCompile_panic ω fuel ext cfg schema hw, q2,
                    poolCompile_panic ω fuel ext cfg schema hc]
                  exact (K.written.untouched p hfound (K.fresh i p hRun)).symm
              · rw [q2]
                have hW : W'.disk id = C.world.disk id := by
                  have := poolCompile_world ω fuel ext cfg schema p C.world
                  rw [hc] at this
                  simp only at this
                  rw [this]
                  split
                  · exact (write_world C.world _ _).2.2 id (by rw [K.written.stable.resolve]; exact hidp)
                  · rfl
                rw [hW]
                apply S.disk
                intro j g q hj hq
                by_cases hji : j = i
                · subst hji
                  rw [← hRun.unique hq]
                  exact hidp
                · exact hid j g q (by simp [FinePool.setFlight, hji, hj])
                    ((step_others_running _ threads C hji q).2 hq)
          refine ⟨_, _, hnext, ?_⟩
          cases a with
          | diverge => exact absurd rfl hdiv
          | done gs ms => exact goal
          | panic => exact goal
    · have hnr : ∀ p, me.pc ≠ .running (.graphQl p) := fun p e => hrun ⟨p, e⟩
      obtain ⟨q1, q2⟩ := step_elsewhere (threads := threads) hme hnr F.pool.world
        (fun w _ => (.diverge, w)) (poolCompile ω fuel ext cfg schema)
      have hstep : F.pool.step (fun w _ => (.diverge, w)) threads i =
          { C.step (poolCompile ω fuel ext cfg schema) threads i with world := F.pool.world } := by
        rw [← q1, ← S.pool]
      have hni : ∀ f, F.flights i ≠ some f := by
        intro f hf
        obtain ⟨p, ⟨me', h1, h2⟩, _⟩ := S.flying i f hf
        rw [hme] at h1
        cases h1
        exact hnr p h2
      have goal : Sim ω fuel ext cfg schema w
          { F with pool := F.pool.step (fun w _ => (.diverge, w)) threads i }
          (C.step (poolCompile ω fuel ext cfg schema) threads i) := by
        refine ⟨?_, ?_, ?_, ?_, ?_⟩
        · show F.pool.step (fun w _ => (.diverge, w)) threads i = _
          rw [hstep]
        · show (F.pool.step (fun w _ => (.diverge, w)) threads i).world.resolve = _
          rw [hstep]; exact S.resolve
        · show (F.pool.step (fun w _ => (.diverge, w)) threads i).world.writeErr = _
          rw [hstep]; exact S.writeErr
        · intro j g hj
          have hji : j ≠ i := fun e => by subst e; exact hni g hj
          obtain ⟨q, hq, Tq⟩ := S.flying j g hj
          refine ⟨q, (step_others_running _ threads C hji q).2 hq, ?_⟩
          show OnTrack w (outputPath q) _
            ((F.pool.step (fun w _ => (.diverge, w)) threads i).world.disk _) g
          rw [hstep]
          exact Tq
        · intro id hid
          show (F.pool.step (fun w _ => (.diverge, w)) threads i).world.disk id = _
          rw [hstep, q2]
          apply S.disk
          intro j g q hj hq
          have hji : j ≠ i := fun e => by subst e; exact hni g hj
          exact hid j g q hj ((step_others_running _ threads C hji q).2 hq)
      refine ⟨_, _, hnext, ?_⟩
      cases hpc : me.pc with
      | running wk =>
        cases wk with
        | graphQl p => exact absurd hpc (hnr p)
        | dirEntry e => exact goal
      | _ => exact goal

theorem sim_init : Sim ω fuel ext cfg schema w (FinePool.init w threads root)
    (PoolSt.init w threads root) :=
  ⟨rfl, rfl, rfl, fun i f h => by simp [FinePool.init] at h, fun _ _ => rfl⟩

/-- Every fine-grained run is simulated by a coarse one. -/
theorem sim_run (hr : NoOutputRead w cfg root) (hd : OutputsDistinct w root)
    (hn : (filesOf root).Nodup) (sched : List (Nat × Nat)) :
    ∃ sched' C, ReachedBy (poolCompile ω fuel ext cfg schema) w threads root sched' C ∧
      Sim ω fuel ext cfg schema w
        ((FinePool.init w threads root).run (progOf ω fuel ext cfg schema) threads sched) C := by
  have key : ∀ (sched : List (Nat × Nat)) (F : FinePool) (sched0 : List Nat) (C : PoolSt World),
      ReachedBy (poolCompile ω fuel ext cfg schema) w threads root sched0 C →
      Sim ω fuel ext cfg schema w F C →
      ∃ sched' C', ReachedBy (poolCompile ω fuel ext cfg schema) w threads root sched' C' ∧
        Sim ω fuel ext cfg schema w (F.run (progOf ω fuel ext cfg schema) threads sched) C' := by
    intro sched
    induction sched with
    | nil => intro F s0 C h S; exact ⟨s0, C, h, S⟩
    | cons im sched ih =>
      intro F s0 C h S
      obtain ⟨s1, C1, h1, S1⟩ := sim_step ω fuel ext cfg schema threads hr hd hn h S im
      exact ih _ s1 C1 h1 S1
  exact key sched _ [] _ rfl (sim_init ω fuel ext cfg schema threads)

end Sim

end Qlc
