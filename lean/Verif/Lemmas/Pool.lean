import Verif.Spec.Pool
import Verif.Lemmas.Basic
import Mathlib.Data.List.Perm.Basic
import Mathlib.Tactic.Tauto
/-
Lemmas about the worker pool.
-/
set_option autoImplicit false

namespace Qlc
open Spec

variable {σ : Type}

theorem perm_of_getElem? {α : Type} {l : List α} {i : Nat} {a : α} (h : l[i]? = some a) :
    l.Perm (a :: l.eraseIdx i) := by
  induction l generalizing i with
  | nil => simp at h
  | cons x l ih =>
    cases i with
    | zero => simp at h; subst h; simp
    | succ i =>
      simp only [List.getElem?_cons_succ] at h
      rw [List.eraseIdx_cons_succ]
      exact ((ih h).cons x).trans (List.Perm.swap _ _ _)

theorem perm_set {α : Type} {l : List α} {i : Nat} {a : α} (h : l[i]? = some a) (b : α) :
    (l.set i b).Perm (b :: l.eraseIdx i) := by
  induction l generalizing i with
  | nil => simp at h
  | cons x l ih =>
    cases i with
    | zero => simp
    | succ i =>
      simp only [List.getElem?_cons_succ] at h
      rw [List.set_cons_succ, List.eraseIdx_cons_succ]
      exact ((ih h).cons x).trans (List.Perm.swap _ _ _)

/-- What a step of the pool is: nothing, or a step of an existing worker. -/
theorem step_cases (compile : Compiler σ) (threads : Nat) (s : PoolSt σ) (i : Nat) :
    s.step compile threads i = s ∨
    ∃ me, s.workers[i]? = some me ∧ s.step compile threads i =
      { (stepWorker compile threads s me).1 with
        workers := s.workers.set i (stepWorker compile threads s me).2 } := by
  unfold PoolSt.step
  cases h : s.workers[i]? with
  | none => exact .inl rfl
  | some me => exact .inr ⟨me, rfl, rfl⟩

theorem step_of (compile : Compiler σ) (threads : Nat) (s : PoolSt σ) (i : Nat) (me : WorkerSt)
    (h : s.workers[i]? = some me) : s.step compile threads i =
      { (stepWorker compile threads s me).1 with
        workers := s.workers.set i (stepWorker compile threads s me).2 } := by
  unfold PoolSt.step
  rw [h]

theorem run_nil (compile : Compiler σ) (threads : Nat) (s : PoolSt σ) :
    s.run compile threads [] = s := rfl

theorem run_cons (compile : Compiler σ) (threads : Nat) (s : PoolSt σ) (i : Nat) (sched : List Nat) :
    s.run compile threads (i :: sched) = (s.step compile threads i).run compile threads sched := rfl

theorem run_append (compile : Compiler σ) (threads : Nat) (s : PoolSt σ) (a b : List Nat) :
    s.run compile threads (a ++ b) = (s.run compile threads a).run compile threads b := by
  unfold PoolSt.run
  rw [List.foldl_append]

/-- An invariant of the steps is an invariant of the runs. -/
theorem run_invariant (compile : Compiler σ) (threads : Nat) (P : PoolSt σ → Prop)
    (hstep : ∀ s i, P s → P (s.step compile threads i)) (sched : List Nat) :
    ∀ s, P s → P (s.run compile threads sched) := by
  induction sched with
  | nil => intro s h; exact h
  | cons i sched ih => intro s h; rw [run_cons]; exact ih _ (hstep s i h)

/-! ### Counters and flags -/

/-- 1 if true. -/
def b2n (b : Bool) : Nat := if b then 1 else 0

/-- Number of workers satisfying a test. -/
def countW (f : WorkerSt → Bool) (l : List WorkerSt) : Nat := (l.map (fun w => b2n (f w))).sum

theorem countW_perm {f : WorkerSt → Bool} {l l' : List WorkerSt} (h : l.Perm l') :
    countW f l = countW f l' := (h.map _).sum_nat

theorem countW_le (f : WorkerSt → Bool) (l : List WorkerSt) : countW f l ≤ l.length := by
  induction l with
  | nil => simp [countW]
  | cons a l ih =>
    simp only [countW, List.map_cons, List.sum_cons, List.length_cons] at ih ⊢
    have : b2n (f a) ≤ 1 := by unfold b2n; split <;> omega
    omega

theorem countW_eq_filter (f : WorkerSt → Bool) (l : List WorkerSt) :
    countW f l = (l.filter f).length := by
  induction l with
  | nil => rfl
  | cons a l ih =>
    simp only [countW, List.map_cons, List.sum_cons, List.filter_cons] at ih ⊢
    rw [ih]
    cases h : f a <;> simp [b2n] <;> omega

theorem countW_full (f : WorkerSt → Bool) (l : List WorkerSt) :
    countW f l = l.length ↔ ∀ w ∈ l, f w = true := by
  rw [countW_eq_filter, List.length_filter_eq_length_iff]

theorem countW_set {f : WorkerSt → Bool} {l : List WorkerSt} {i : Nat} {a : WorkerSt}
    (h : l[i]? = some a) (b : WorkerSt) :
    countW f (l.set i b) + b2n (f a) = countW f l + b2n (f b) := by
  rw [countW_perm (perm_set h b), countW_perm (perm_of_getElem? h)]
  simp only [countW, List.map_cons, List.sum_cons]
  omega

/-- The flags a worker has at each place in the program. -/
def flagsOk (w : WorkerSt) : Prop :=
  match w.pc with
  | .gotWork2 _ => w.isWaiting = false
  | .running _ | .sending _ | .panicked => w.isWaiting = false ∧ w.isQuitting = false
  | .gotQuit2 | .empty2 => w.isWaiting = true
  | .quitLoad | .quitLoad2 _ | .exited => w.isWaiting = true ∧ w.isQuitting = true
  | .emptyLoad | .sendQuit _ => w.isWaiting = true ∧ w.isQuitting = false
  | _ => True

/-- Counters count the flags; flags fit the program counters. -/
structure PoolInv (threads : Nat) (s : PoolSt σ) : Prop where
  len : s.workers.length = threads
  waiting : s.numWaiting = countW WorkerSt.isWaiting s.workers
  quitting : s.numQuitting = countW WorkerSt.isQuitting s.workers
  flags : ∀ w ∈ s.workers, flagsOk w

theorem mem_set_cases {α : Type} {l : List α} {i : Nat} {b x : α} (h : x ∈ l.set i b) :
    x = b ∨ x ∈ l := by
  rcases List.mem_or_eq_of_mem_set h with h | h
  · exact .inr h
  · exact .inl h

/-- One worker step keeps counters and flags in step. -/
theorem stepWorker_inv (compile : Compiler σ) (threads : Nat) (s : PoolSt σ) (me : WorkerSt)
    (hf : flagsOk me) (hw : b2n me.isWaiting ≤ s.numWaiting)
    (hq : b2n me.isQuitting ≤ s.numQuitting) :
    (stepWorker compile threads s me).1.workers = s.workers ∧
    (stepWorker compile threads s me).1.numWaiting + b2n me.isWaiting =
      s.numWaiting + b2n (stepWorker compile threads s me).2.isWaiting ∧
    (stepWorker compile threads s me).1.numQuitting + b2n me.isQuitting =
      s.numQuitting + b2n (stepWorker compile threads s me).2.isQuitting ∧
    flagsOk (stepWorker compile threads s me).2 := by
  obtain ⟨pc, iw, iq, ms, gs⟩ := me
  unfold stepWorker
  cases pc with
  | recv =>
    simp only
    cases hqq : s.queue with
    | nil => simp [flagsOk]
    | cons m q => cases m <;> simp [flagsOk]
  | gotWork w =>
    cases iw <;> simp [setWaiting, flagsOk, b2n] at hw ⊢ <;> omega
  | gotWork2 w =>
    cases iq <;> simp [setQuitting, flagsOk, b2n] at hq hf ⊢ <;> simp_all <;> omega
  | running w =>
    simp only [flagsOk] at hf
    simp only [runWork]
    rcases hr : w.run compile s.world with ⟨r, w'⟩
    cases r <;> simp [flagsOk, hf, b2n]
  | sending ws =>
    cases ws with
    | nil => simp [flagsOk]
    | cons w ws => simp only [flagsOk] at hf; simp [flagsOk, hf]
  | gotQuit => cases iw <;> simp [setWaiting, flagsOk, b2n]
  | gotQuit2 =>
    simp only [flagsOk] at hf
    cases iq <;> simp [setQuitting, flagsOk, b2n, hf]
  | quitLoad => simp only [flagsOk] at hf; simp [flagsOk, hf]
  | quitLoad2 n =>
    simp only [flagsOk] at hf
    simp only
    split
    · simp [flagsOk]
    · split <;> simp [flagsOk, hf]
  | empty => cases iw <;> simp [setWaiting, flagsOk, b2n]
  | empty2 =>
    simp only [flagsOk] at hf
    cases iq <;> simp [setQuitting, flagsOk, b2n, hf] at hq ⊢ <;> omega
  | emptyLoad =>
    simp only [flagsOk] at hf
    simp only
    split <;> simp [flagsOk, hf]
  | sendQuit n =>
    simp only [flagsOk] at hf
    cases n <;> simp [flagsOk, hf]
  | exited => simp only [flagsOk] at hf; simp [flagsOk, hf]
  | panicked => simp only [flagsOk] at hf; simp [flagsOk, hf]

theorem countW_ge {f : WorkerSt → Bool} {l : List WorkerSt} {i : Nat} {a : WorkerSt}
    (h : l[i]? = some a) : b2n (f a) ≤ countW f l := by
  rw [countW_perm (perm_of_getElem? h)]
  simp only [countW, List.map_cons, List.sum_cons]
  omega

theorem step_inv (compile : Compiler σ) (threads : Nat) (s : PoolSt σ) (i : Nat)
    (I : PoolInv threads s) : PoolInv threads (s.step compile threads i) := by
  rcases step_cases compile threads s i with h | ⟨me, hme, h⟩
  · rw [h]; exact I
  · obtain ⟨h1, h2, h3, h4⟩ := stepWorker_inv compile threads s me
      (I.flags me (List.mem_of_getElem? hme)) (by rw [I.waiting]; exact countW_ge hme)
      (by rw [I.quitting]; exact countW_ge hme)
    rw [h]
    refine ⟨by simp [I.len], ?_, ?_, ?_⟩
    · simp only
      have := countW_set (f := WorkerSt.isWaiting) hme (stepWorker compile threads s me).2
      have := I.waiting
      omega
    · simp only
      have := countW_set (f := WorkerSt.isQuitting) hme (stepWorker compile threads s me).2
      have := I.quitting
      omega
    · intro w hw
      rcases mem_set_cases hw with rfl | hw
      · exact h4
      · exact I.flags w hw

theorem init_inv (world : σ) (threads : Nat) (root : Entry) :
    PoolInv threads (PoolSt.init world threads root) := by
  refine ⟨by simp [PoolSt.init], ?_, ?_, ?_⟩
  · simp [PoolSt.init, countW, WorkerSt.init, b2n]
  · simp [PoolSt.init, countW, WorkerSt.init, b2n]
  · intro w hw
    simp only [PoolSt.init, List.mem_replicate] at hw
    rw [hw.2]
    simp [WorkerSt.init, flagsOk]

theorem reached_inv {compile : Compiler σ} {world : σ} {threads : Nat} {root : Entry}
    {sched : List Nat} {s : PoolSt σ} (h : ReachedBy compile world threads root sched s) :
    PoolInv threads s := by
  rw [h]
  exact run_invariant compile threads _ (fun s i => step_inv compile threads s i) sched _
    (init_inv world threads root)

/-! ### Work is neither lost nor duplicated -/

/-- All messages the workers hold. -/
def allMessages (s : PoolSt σ) : List Msg := s.workers.flatMap WorkerSt.messages

/-- All globals the workers hold. -/
def allGlobals (s : PoolSt σ) : List String := s.workers.flatMap WorkerSt.globals

/-- Number of panicked workers. -/
def numPanicked (s : PoolSt σ) : Nat := countW isPanicked s.workers

/-- What one step does to the pending work and to the results. -/
inductive StepEffect (compile : Compiler σ) (s s' : PoolSt σ) : Prop where
  /-- Only bookkeeping. -/
  | quiet (hp : (pending s').Perm (pending s)) (hw : s'.world = s.world) (hl : s'.log = s.log)
      (hm : (allMessages s').Perm (allMessages s))
      (hg : ∀ g, g ∈ allGlobals s' ↔ g ∈ allGlobals s)
      (hn : numPanicked s' = numPanicked s)
  /-- A directory was listed. -/
  | listed (p : Path) (es : List Entry) (ws : List Work) (rest : List Work)
      (hp : (pending s).Perm (.dirEntry (.dir p es) :: rest)) (hr : runEntries es = .ok ws)
      (hp' : (pending s').Perm (ws ++ rest)) (hw : s'.world = s.world) (hl : s'.log = s.log)
      (hm : (allMessages s').Perm (allMessages s))
      (hg : ∀ g, g ∈ allGlobals s' ↔ g ∈ allGlobals s)
      (hn : numPanicked s' = numPanicked s)
  /-- A directory could not be listed. -/
  | unlisted (e : Entry) (err : String) (p : Path) (rest : List Work)
      (hp : (pending s).Perm (.dirEntry e :: rest))
      (hr : ((Work.dirEntry e).run compile s.world).1 = .dirIoError err p)
      (hp' : (pending s').Perm rest) (hw : s'.world = s.world) (hl : s'.log = s.log)
      (hm : (allMessages s').Perm (allMessages s ++ [.ioError "read" err p]))
      (hg : ∀ g, g ∈ allGlobals s' ↔ g ∈ allGlobals s)
      (hn : numPanicked s' = numPanicked s)
  /-- A file was compiled. -/
  | compiled (p : Path) (gs : List String) (ms : List Msg) (rest : List Work)
      (hp : (pending s).Perm (.graphQl p :: rest))
      (hr : compile s.world p = (.done gs ms, s'.world))
      (hp' : (pending s').Perm rest) (hl : s'.log = s.log ++ [p])
      (hm : (allMessages s').Perm (allMessages s ++ ms))
      (hg : ∀ g, g ∈ allGlobals s' ↔ g ∈ allGlobals s ∨ g ∈ gs)
      (hn : numPanicked s' = numPanicked s)
  /-- The compile of a file panicked. -/
  | panicked (p : Path) (rest : List Work)
      (hp : (pending s).Perm (.graphQl p :: rest))
      (hr : compile s.world p = (.panic, s'.world))
      (hp' : (pending s').Perm rest) (hl : s'.log = s.log)
      (hm : (allMessages s').Perm (allMessages s))
      (hg : ∀ g, g ∈ allGlobals s' ↔ g ∈ allGlobals s)
      (hn : numPanicked s' = numPanicked s + 1)

theorem flatMap_set_perm {α : Type} (f : WorkerSt → List α) {l : List WorkerSt} {i : Nat}
    {a : WorkerSt} (h : l[i]? = some a) :
    ∃ R, (l.flatMap f).Perm (f a ++ R) ∧ ∀ b, ((l.set i b).flatMap f).Perm (f b ++ R) := by
  refine ⟨(l.eraseIdx i).flatMap f, ?_, fun b => ?_⟩
  · have := (perm_of_getElem? h).flatMap_right f
    simpa using this
  · have := (perm_set h b).flatMap_right f
    simpa using this

theorem setInsert_mem_iff (s : List String) (x y : String) :
    y ∈ setInsert s x ↔ y ∈ s ∨ y = x := by
  unfold setInsert
  by_cases h : x ∈ s
  · simp only [h, if_true]
    constructor
    · exact .inl
    · rintro (h' | rfl)
      · exact h'
      · exact h
  · simp [h]

theorem setExtend_mem_iff (new : List String) : ∀ (s : List String) (y : String),
    y ∈ setExtend s new ↔ y ∈ s ∨ y ∈ new := by
  unfold setExtend
  induction new with
  | nil => simp
  | cons x new ih =>
    intro s y
    rw [List.foldl_cons, ih, setInsert_mem_iff]
    simp only [List.mem_cons]
    tauto

/-- What a bookkeeping step is for the worker and the queue. -/
theorem quiet_of (compile : Compiler σ) {s : PoolSt σ} {i : Nat} {me : WorkerSt}
    (hme : s.workers[i]? = some me) (s1 : PoolSt σ) (me' : WorkerSt)
    (hw : s1.world = s.world) (hl : s1.log = s.log)
    (hms : me'.messages = me.messages) (hgs : me'.globals = me.globals)
    (hpan : isPanicked me' = isPanicked me)
    (hq : (s1.queue.flatMap queuedWork ++ heldWork me').Perm
      (s.queue.flatMap queuedWork ++ heldWork me)) :
    StepEffect compile s { s1 with workers := s.workers.set i me' } := by
  refine .quiet ?_ hw hl ?_ ?_ ?_
  · obtain ⟨R, h1, h2⟩ := flatMap_set_perm heldWork hme
    unfold pending
    refine ((List.Perm.append_left _ (h2 me')).trans ?_).trans (List.Perm.append_left _ h1.symm)
    rw [← List.append_assoc, ← List.append_assoc]
    exact hq.append_right R
  · obtain ⟨R, h1, h2⟩ := flatMap_set_perm WorkerSt.messages hme
    unfold allMessages
    refine (h2 me').trans ?_
    rw [hms]
    exact h1.symm
  · obtain ⟨R, h1, h2⟩ := flatMap_set_perm WorkerSt.globals hme
    intro g
    unfold allGlobals
    rw [(h2 me').mem_iff, h1.mem_iff, hgs]
  · have := countW_set (f := isPanicked) hme me'
    unfold numPanicked
    simp only
    rw [hpan] at this
    omega

/-- Pending work around a worker that holds `w`. -/
theorem pending_of {s : PoolSt σ} {i : Nat} {me : WorkerSt} (hme : s.workers[i]? = some me) :
    ∃ rest, (pending s).Perm (heldWork me ++ rest) ∧
      ∀ (s1 : PoolSt σ) (me' : WorkerSt), s1.workers = s.workers.set i me' → s1.queue = s.queue →
        (pending s1).Perm (heldWork me' ++ rest) := by
  obtain ⟨R, h1, h2⟩ := flatMap_set_perm heldWork hme
  refine ⟨s.queue.flatMap queuedWork ++ R, ?_, ?_⟩
  · unfold pending
    refine (List.Perm.append_left _ h1).trans ?_
    rw [← List.append_assoc, ← List.append_assoc]
    exact List.perm_append_comm.append_right R
  · intro s1 me' hws hq
    unfold pending
    rw [hq, hws]
    refine (List.Perm.append_left _ (h2 me')).trans ?_
    rw [← List.append_assoc, ← List.append_assoc]
    exact List.perm_append_comm.append_right R

theorem messages_of {s : PoolSt σ} {i : Nat} {me : WorkerSt} (hme : s.workers[i]? = some me)
    {s1 : PoolSt σ} {me' : WorkerSt} (ms : List Msg) (hws : s1.workers = s.workers.set i me')
    (h : me'.messages = me.messages ++ ms) :
    (allMessages s1).Perm (allMessages s ++ ms) := by
  obtain ⟨R, h1, h2⟩ := flatMap_set_perm WorkerSt.messages hme
  unfold allMessages
  rw [hws]
  refine (h2 me').trans ?_
  rw [h]
  refine List.Perm.trans ?_ (h1.symm.append_right ms)
  rw [List.append_assoc, List.append_assoc]
  exact List.perm_append_comm.append_left _

theorem globals_of {s : PoolSt σ} {i : Nat} {me : WorkerSt} (hme : s.workers[i]? = some me)
    {s1 : PoolSt σ} {me' : WorkerSt} (gs : List String) (hws : s1.workers = s.workers.set i me')
    (h : ∀ g, g ∈ me'.globals ↔ g ∈ me.globals ∨ g ∈ gs) (g : String) :
    g ∈ allGlobals s1 ↔ g ∈ allGlobals s ∨ g ∈ gs := by
  obtain ⟨R, h1, h2⟩ := flatMap_set_perm WorkerSt.globals hme
  unfold allGlobals
  rw [hws, (h2 me').mem_iff, h1.mem_iff, List.mem_append, List.mem_append, h]
  tauto

theorem messages_same {s : PoolSt σ} {i : Nat} {me : WorkerSt} (hme : s.workers[i]? = some me)
    {s1 : PoolSt σ} {me' : WorkerSt} (hws : s1.workers = s.workers.set i me')
    (h : me'.messages = me.messages) : (allMessages s1).Perm (allMessages s) := by
  have := messages_of hme [] hws (by rw [h, List.append_nil])
  rwa [List.append_nil] at this

theorem globals_same {s : PoolSt σ} {i : Nat} {me : WorkerSt} (hme : s.workers[i]? = some me)
    {s1 : PoolSt σ} {me' : WorkerSt} (hws : s1.workers = s.workers.set i me')
    (h : me'.globals = me.globals) (g : String) : g ∈ allGlobals s1 ↔ g ∈ allGlobals s := by
  have := globals_of hme [] hws (by simp [h]) g
  simpa using this

theorem panicked_of {s : PoolSt σ} {i : Nat} {me : WorkerSt} (hme : s.workers[i]? = some me)
    {s1 : PoolSt σ} {me' : WorkerSt} (hws : s1.workers = s.workers.set i me')
    (h : isPanicked me = false) :
    numPanicked s1 = numPanicked s + b2n (isPanicked me') := by
  have := countW_set (f := isPanicked) hme me'
  unfold numPanicked
  rw [hws]
  rw [h] at this
  simp [b2n] at this ⊢
  omega

theorem step_effect (compile : Compiler σ) (threads : Nat) (s : PoolSt σ) (i : Nat) :
    StepEffect compile s (s.step compile threads i) := by
  rcases step_cases compile threads s i with h | ⟨me, hme, h⟩
  · rw [h]
    exact .quiet (.refl _) rfl rfl (.refl _) (fun _ => Iff.rfl) rfl
  · rw [h]
    cases me with
    | mk pc iw iq ms gs =>
    unfold stepWorker
    cases pc with
    | recv =>
      simp only
      cases hqq : s.queue with
      | nil =>
        exact quiet_of compile hme _ _ rfl rfl rfl rfl rfl (by simp [heldWork, hqq])
      | cons m q =>
        cases m with
        | work w =>
          refine quiet_of compile hme _ _ rfl rfl rfl rfl rfl ?_
          rw [hqq]
          simp only [heldWork, List.flatMap_cons, queuedWork, List.append_nil]
          exact List.perm_append_comm
        | quit =>
          refine quiet_of compile hme _ _ rfl rfl rfl rfl rfl ?_
          rw [hqq]
          simp only [heldWork, List.flatMap_cons, queuedWork, List.append_nil, List.nil_append]
          exact .refl _
    | gotWork w =>
      cases iw <;> exact quiet_of compile hme _ _ rfl rfl rfl rfl rfl (.refl _)
    | gotWork2 w =>
      cases iq <;> exact quiet_of compile hme _ _ rfl rfl rfl rfl rfl (.refl _)
    | running w =>
      obtain ⟨rest, hp1, hp2⟩ := pending_of hme
      simp only [runWork]
      cases w with
      | graphQl p =>
        rcases hc : compile s.world p with ⟨r, w'⟩
        cases r with
        | done gs' ms' =>
          simp only [Work.run, hc]
          refine .compiled p gs' ms' rest hp1 ?_ (List.Perm.trans (hp2 _ _ rfl rfl) (.refl _)) rfl (messages_of hme ms' rfl rfl)
            (globals_of hme gs' rfl (fun g => setExtend_mem_iff gs' gs g)) (Eq.trans (panicked_of hme rfl rfl) rfl)
          simpa using hc
        | panic =>
          simp only [Work.run, hc]
          refine .panicked p rest hp1 ?_ (List.Perm.trans (hp2 _ _ rfl rfl) (.refl _)) rfl (messages_same hme rfl rfl)
            (globals_same hme rfl rfl) (Eq.trans (panicked_of hme rfl rfl) rfl)
          simpa using hc
        | diverge =>
          simp only [Work.run, hc]
          exact quiet_of compile hme _ _ rfl rfl rfl rfl rfl (.refl _)
      | dirEntry e =>
        have hbad : ∀ err p, ((Work.dirEntry e).run compile s.world) = (.dirIoError err p, s.world) →
            StepEffect compile s { s with
              workers := s.workers.set i ⟨.recv, iw, iq, ms ++ [.ioError "read" err p], gs⟩ } := by
          intro err p hrun
          exact .unlisted e err p rest hp1 (by rw [hrun]) (List.Perm.trans (hp2 _ _ rfl rfl) (.refl _)) rfl rfl
            (messages_of hme _ rfl rfl) (globals_same hme rfl rfl) (Eq.trans (panicked_of hme rfl rfl) rfl)
        cases e with
        | dir p es =>
          cases hr : runEntries es with
          | ok ws =>
            simp only [Work.run, hr]
            exact .listed p es ws rest hp1 hr (List.Perm.trans (hp2 _ _ rfl rfl) (.refl _)) rfl rfl (messages_same hme rfl rfl)
              (globals_same hme rfl rfl) (Eq.trans (panicked_of hme rfl rfl) rfl)
          | error err =>
            simp only [Work.run, hr]
            exact hbad err p (by simp [Work.run, hr])
        | badDir p err => exact hbad err p rfl
        | bad err => exact hbad err _ rfl
        | file p => exact hbad _ p rfl
        | other p => exact hbad _ p rfl
    | sending ws =>
      cases ws with
      | nil => exact quiet_of compile hme _ _ rfl rfl rfl rfl rfl (.refl _)
      | cons w ws =>
        refine quiet_of compile hme _ _ rfl rfl rfl rfl rfl ?_
        simp only [heldWork, List.flatMap_append, List.flatMap_cons, List.flatMap_nil, queuedWork,
          List.append_assoc, List.cons_append, List.nil_append]
        exact .refl _
    | gotQuit =>
      cases iw <;> exact quiet_of compile hme _ _ rfl rfl rfl rfl rfl (.refl _)
    | gotQuit2 =>
      cases iq <;> exact quiet_of compile hme _ _ rfl rfl rfl rfl rfl (.refl _)
    | quitLoad => exact quiet_of compile hme _ _ rfl rfl rfl rfl rfl (.refl _)
    | quitLoad2 n =>
      simp only
      split
      · exact quiet_of compile hme _ _ rfl rfl rfl rfl rfl (.refl _)
      · split <;> exact quiet_of compile hme _ _ rfl rfl rfl rfl rfl (.refl _)
    | empty =>
      cases iw <;> exact quiet_of compile hme _ _ rfl rfl rfl rfl rfl (.refl _)
    | empty2 =>
      cases iq <;> exact quiet_of compile hme _ _ rfl rfl rfl rfl rfl (.refl _)
    | emptyLoad =>
      simp only
      split <;> exact quiet_of compile hme _ _ rfl rfl rfl rfl rfl (.refl _)
    | sendQuit n =>
      cases n with
      | zero => exact quiet_of compile hme _ _ rfl rfl rfl rfl rfl (.refl _)
      | succ n =>
        refine quiet_of compile hme _ _ rfl rfl rfl rfl rfl ?_
        simp only [heldWork, List.flatMap_append, List.flatMap_cons, List.flatMap_nil, queuedWork,
          List.append_nil]
        exact .refl _
    | exited => exact quiet_of compile hme _ _ rfl rfl rfl rfl rfl (.refl _)
    | panicked => exact quiet_of compile hme _ _ rfl rfl rfl rfl rfl (.refl _)

/-! ### Directory listings -/

theorem listable_iff (es : List Entry) : listable es = true ↔ ∀ e, Entry.bad e ∉ es := by
  induction es with
  | nil => simp [listable]
  | cons x es ih =>
    cases x with
    | bad e =>
      simp only [listable, Bool.false_eq_true, false_iff]
      intro h
      exact h e (List.mem_cons_self ..)
    | file p => simp only [listable, ih]; simp
    | other p => simp only [listable, ih]; simp
    | dir p es' => simp only [listable, ih]; simp
    | badDir p e => simp only [listable, ih]; simp

theorem firstBad_none_iff (es : List Entry) : firstBad es = none ↔ listable es = true := by
  induction es with
  | nil => simp [listable, firstBad]
  | cons x es ih => cases x <;> simp [listable, firstBad, ih]

/-- The read errors of the directories a piece of work leads to. -/
def workErrors : Work → List Msg
  | .graphQl _ => []
  | .dirEntry e => dirErrors e

theorem runEntries_spec (es : List Entry) :
    (∀ ws, runEntries es = .ok ws → listable es = true ∧ ws.flatMap workFiles = filesOfList es ∧
      ws.flatMap workErrors = dirErrorsList es) ∧
    (∀ err, runEntries es = .error err → firstBad es = some err) := by
  induction es with
  | nil =>
    refine ⟨?_, by simp [runEntries]⟩
    intro ws h
    simp only [runEntries, Except.ok.injEq] at h
    subst h
    simp [listable, filesOfList, dirErrorsList]
  | cons x es ih =>
    obtain ⟨ih1, ih2⟩ := ih
    cases x with
    | bad e => simp [runEntries, firstBad]
    | other p =>
      simp only [runEntries, listable, firstBad, dirErrorsList]
      refine ⟨fun ws h => ?_, ih2⟩
      obtain ⟨a, b, c⟩ := ih1 ws h
      exact ⟨a, by simp [filesOfList, filesOf, b], c⟩
    | file p =>
      simp only [runEntries, listable, firstBad, dirErrorsList]
      cases hr : runEntries es with
      | error e =>
        refine ⟨by simp, ?_⟩
        intro err h
        simp only [Except.error.injEq] at h
        subst h
        exact ih2 _ hr
      | ok ws =>
        refine ⟨?_, by simp⟩
        intro ws' h
        simp only [Except.ok.injEq] at h
        obtain ⟨a, b, c⟩ := ih1 ws hr
        subst h
        by_cases hp : p.extension = some "graphql"
        · simp [hp, filesOfList, workFiles, workErrors, a, b, c]
        · simp [hp, filesOfList, a, b, c]
    | dir p es' =>
      simp only [runEntries, listable, firstBad]
      cases hr : runEntries es with
      | error e =>
        refine ⟨by simp, ?_⟩
        intro err h
        simp only [Except.error.injEq] at h
        subst h
        exact ih2 _ hr
      | ok ws =>
        refine ⟨?_, by simp⟩
        intro ws' h
        simp only [Except.ok.injEq] at h
        obtain ⟨a, b, c⟩ := ih1 ws hr
        subst h
        simp [filesOfList, workFiles, workErrors, dirErrorsList, a, b, c]
    | badDir p e =>
      simp only [runEntries, listable, firstBad]
      cases hr : runEntries es with
      | error e =>
        refine ⟨by simp, ?_⟩
        intro err h
        simp only [Except.error.injEq] at h
        subst h
        exact ih2 _ hr
      | ok ws =>
        refine ⟨?_, by simp⟩
        intro ws' h
        simp only [Except.ok.injEq] at h
        obtain ⟨a, b, c⟩ := ih1 ws hr
        subst h
        simp [filesOfList, workFiles, workErrors, dirErrorsList, a, b, c]

theorem filesOf_dir_ok {p : Path} {es : List Entry} {ws : List Work} (h : runEntries es = .ok ws) :
    filesOf (.dir p es) = ws.flatMap workFiles ∧ dirErrors (.dir p es) = ws.flatMap workErrors := by
  obtain ⟨a, b, c⟩ := (runEntries_spec es).1 ws h
  have := (firstBad_none_iff es).2 a
  constructor
  · rw [filesOf, if_pos a, b]
  · rw [dirErrors, this, c]

theorem unlisted_spec (compile : Compiler σ) (w : σ) (e : Entry) (err : String) (p : Path)
    (h : ((Work.dirEntry e).run compile w).1 = .dirIoError err p) :
    filesOf e = [] ∧ dirErrors e = [.ioError "read" err p] := by
  cases e with
  | dir q es =>
    simp only [Work.run] at h
    cases hr : runEntries es with
    | ok ws => simp [hr] at h
    | error e =>
      simp only [hr, WorkResult.dirIoError.injEq] at h
      obtain ⟨rfl, rfl⟩ := h
      have h1 := (runEntries_spec es).2 _ hr
      have h2 : listable es = false := by
        cases hl : listable es with
        | false => rfl
        | true => rw [(firstBad_none_iff es).2 hl] at h1; simp at h1
      constructor
      · rw [filesOf, h2]; rfl
      · rw [dirErrors, h1]
  | badDir q e => simp only [Work.run, WorkResult.dirIoError.injEq] at h; simp [filesOf, dirErrors, h]
  | bad e => simp only [Work.run, WorkResult.dirIoError.injEq] at h; simp [filesOf, dirErrors, h]
  | file q => simp only [Work.run, WorkResult.dirIoError.injEq] at h; simp [filesOf, dirErrors, h]
  | other q => simp only [Work.run, WorkResult.dirIoError.injEq] at h; simp [filesOf, dirErrors, h]

mutual
theorem mem_filesOf (e : Entry) (p : Path) : p ∈ filesOf e ↔ FoundIn e p := by
  cases e with
  | dir d es =>
    rw [filesOf]
    cases hl : listable es with
    | false =>
      simp only [Bool.false_eq_true, if_false, List.not_mem_nil, false_iff]
      intro h
      have : ∀ e, Entry.bad e ∉ es := by cases h <;> assumption
      rw [(listable_iff es).2 this] at hl
      simp at hl
    | true =>
      simp only [if_true]
      rw [mem_filesOfList es p]
      have hb := (listable_iff es).1 hl
      constructor
      · rintro (⟨h1, h2⟩ | ⟨sub, h1, h2⟩)
        · exact .file hb h1 h2
        · exact .sub hb h1 h2
      · intro h
        cases h with
        | file _ h1 h2 => exact .inl ⟨h1, h2⟩
        | sub _ h1 h2 => exact .inr ⟨_, h1, h2⟩
  | badDir d e => simp only [filesOf, List.not_mem_nil, false_iff]; intro h; cases h
  | bad e => simp only [filesOf, List.not_mem_nil, false_iff]; intro h; cases h
  | file q => simp only [filesOf, List.not_mem_nil, false_iff]; intro h; cases h
  | other q => simp only [filesOf, List.not_mem_nil, false_iff]; intro h; cases h
theorem mem_filesOfList (es : List Entry) (p : Path) : p ∈ filesOfList es ↔
    (Entry.file p ∈ es ∧ p.extension = some "graphql") ∨ ∃ sub ∈ es, FoundIn sub p := by
  cases es with
  | nil => simp [filesOfList]
  | cons x es =>
    have ih := mem_filesOfList es p
    cases x with
    | file q =>
      have hno : ¬ FoundIn (.file q) p := by intro h; cases h
      simp only [filesOfList, List.mem_append, ih, List.mem_cons, exists_eq_or_imp, Entry.file.injEq]
      by_cases hq : q.extension = some "graphql"
      · simp only [hq, if_true, List.mem_singleton]
        constructor
        · rintro (rfl | ⟨h1, h2⟩ | h)
          · exact .inl ⟨.inl rfl, hq⟩
          · exact .inl ⟨.inr h1, h2⟩
          · exact .inr (.inr h)
        · rintro (⟨rfl | h1, h2⟩ | h | h)
          · exact .inl rfl
          · exact .inr (.inl ⟨h1, h2⟩)
          · exact absurd h hno
          · exact .inr (.inr h)
      · simp only [hq, if_false, List.not_mem_nil, false_or]
        constructor
        · rintro (⟨h1, h2⟩ | h)
          · exact .inl ⟨.inr h1, h2⟩
          · exact .inr (.inr h)
        · rintro (⟨rfl | h1, h2⟩ | h | h)
          · exact absurd h2 hq
          · exact .inl ⟨h1, h2⟩
          · exact absurd h hno
          · exact .inr h
    | dir q es' =>
      have ih' := mem_filesOf (.dir q es') p
      simp only [filesOfList, List.mem_append, ih, ih', List.mem_cons, exists_eq_or_imp, reduceCtorEq,
        false_or]
      tauto
    | badDir q e =>
      have ih' := mem_filesOf (.badDir q e) p
      simp only [filesOfList, List.mem_append, ih, ih', List.mem_cons, exists_eq_or_imp, reduceCtorEq,
        false_or]
      tauto
    | bad e =>
      have ih' := mem_filesOf (.bad e) p
      simp only [filesOfList, List.mem_append, ih, ih', List.mem_cons, exists_eq_or_imp, reduceCtorEq,
        false_or]
      tauto
    | other q =>
      have ih' := mem_filesOf (.other q) p
      simp only [filesOfList, List.mem_append, ih, ih', List.mem_cons, exists_eq_or_imp, reduceCtorEq,
        false_or]
      tauto
end

/-! ### The owed files -/

/-- Compiled, owed and lost files together are the files of the tree. -/
def Conserved (compile : Compiler σ) (root : Entry) (s : PoolSt σ) : Prop :=
  ∃ lost : List Path, lost.length = numPanicked s ∧
    (∀ p ∈ lost, ∃ w, (compile w p).1 = .panic) ∧
    (s.log ++ (pending s).flatMap workFiles ++ lost).Perm (filesOf root)

theorem perm_shuffle {α : Type} (L A B R : List α) : (L ++ (A ++ B) ++ R).Perm (L ++ A ++ B ++ R) := by
  rw [List.append_assoc L A B]

theorem step_conserved (compile : Compiler σ) (threads : Nat) (root : Entry) (s : PoolSt σ) (i : Nat)
    (I : Conserved compile root s) : Conserved compile root (s.step compile threads i) := by
  obtain ⟨lost, hlen, hpan, hperm⟩ := I
  cases step_effect compile threads s i with
  | quiet hp hw hl hm hg hn =>
    refine ⟨lost, by rw [hn, hlen], hpan, ?_⟩
    rw [hl]
    exact (((hp.flatMap_right _).append_left _).append_right _).trans hperm
  | listed p es ws rest hp hr hp' hw hl hm hg hn =>
    refine ⟨lost, by rw [hn, hlen], hpan, ?_⟩
    rw [hl]
    have h1 : ((pending (s.step compile threads i)).flatMap workFiles).Perm
        ((pending s).flatMap workFiles) := by
      refine (hp'.flatMap_right _).trans (List.Perm.trans ?_ (hp.flatMap_right _).symm)
      rw [List.flatMap_append, List.flatMap_cons]
      simp only [workFiles]
      rw [(filesOf_dir_ok hr).1]
    exact ((h1.append_left _).append_right _).trans hperm
  | unlisted e err p rest hp hr hp' hw hl hm hg hn =>
    refine ⟨lost, by rw [hn, hlen], hpan, ?_⟩
    rw [hl]
    have h1 : ((pending (s.step compile threads i)).flatMap workFiles).Perm
        ((pending s).flatMap workFiles) := by
      refine (hp'.flatMap_right _).trans (List.Perm.trans ?_ (hp.flatMap_right _).symm)
      rw [List.flatMap_cons]
      simp only [workFiles]
      rw [(unlisted_spec compile _ e err p hr).1, List.nil_append]
    exact ((h1.append_left _).append_right _).trans hperm
  | compiled p gs ms rest hp hr hp' hl hm hg hn =>
    refine ⟨lost, by rw [hn, hlen], hpan, ?_⟩
    rw [hl]
    refine List.Perm.trans ?_ hperm
    refine List.Perm.append_right _ ?_
    rw [List.append_assoc]
    refine List.Perm.append_left _ ?_
    refine ((hp'.flatMap_right _).append_left _).trans ?_
    refine List.Perm.trans ?_ (hp.flatMap_right _).symm
    rw [List.flatMap_cons]
    exact .refl _
  | panicked p rest hp hr hp' hl hm hg hn =>
    refine ⟨p :: lost, by rw [hn, List.length_cons, hlen], ?_, ?_⟩
    · intro q hq
      rcases List.mem_cons.1 hq with rfl | hq
      · exact ⟨s.world, by rw [hr]⟩
      · exact hpan q hq
    rw [hl]
    refine List.Perm.trans ?_ hperm
    rw [List.append_assoc, List.append_assoc]
    refine List.Perm.append_left _ ?_
    refine ((hp'.flatMap_right _).append_right _).trans ?_
    refine List.Perm.trans ?_ ((hp.flatMap_right _).append_right _).symm
    rw [List.flatMap_cons]
    simp only [workFiles, List.cons_append, List.nil_append]
    exact List.perm_middle

theorem flatMap_replicate_init {α : Type} (f : WorkerSt → List α) (h : f WorkerSt.init = [])
    (n : Nat) : (List.replicate n WorkerSt.init).flatMap f = [] := by
  induction n with
  | zero => rfl
  | succ n ih => rw [List.replicate_succ, List.flatMap_cons, h, ih]; rfl

theorem init_pending (world : σ) (threads : Nat) (root : Entry) :
    pending (PoolSt.init world threads root) = [.dirEntry root] := by
  simp [pending, PoolSt.init, queuedWork, flatMap_replicate_init heldWork rfl]

theorem init_conserved (compile : Compiler σ) (world : σ) (threads : Nat) (root : Entry) :
    Conserved compile root (PoolSt.init world threads root) := by
  refine ⟨[], ?_, by simp, ?_⟩
  · simp [numPanicked, PoolSt.init, countW, WorkerSt.init, isPanicked, b2n]
  · rw [init_pending]
    simp [PoolSt.init, workFiles]

theorem reached_conserved {compile : Compiler σ} {world : σ} {threads : Nat} {root : Entry}
    {sched : List Nat} {s : PoolSt σ} (h : ReachedBy compile world threads root sched s) :
    Conserved compile root s := by
  rw [h]
  exact run_invariant compile threads _ (fun s i => step_conserved compile threads root s i) sched _
    (init_conserved compile world threads root)

end Qlc
