import Verif.Props.PoolLose
import Verif.Props.EndToEnd
import Verif.Props.Toolchain
/-
C51 for the whole program: what the program does with one thread on a project without a subdirectory, it can do with
several threads on the project with it.
-/
set_option autoImplicit false

namespace Qlc
open Spec

variable {σ : Type}

/-- As `reach_all_exited`, saying what is kept. -/
theorem reach_all_exited_keeping {compile : Compiler σ} {threads : Nat} (w : σ) (log : List Path) (q : List QMsg) :
    ∀ (r l : List WorkerSt), (∀ x ∈ r, x.pc = .quitLoad) →
    PoolReaches compile threads ⟨w, log, q, threads, threads, l ++ r⟩
      ⟨w, log, q, threads, threads, l ++ r.map (fun x => { x with pc := .exited })⟩
  | [], l, _ => PoolReaches.refl _
  | x :: r, l, h => by
    have hx := h x (List.mem_cons_self ..)
    obtain ⟨pc, b1, b2, ms, gs⟩ := x
    simp only at hx
    subst hx
    have h2 := reach_all_exited_keeping (compile := compile) (threads := threads) w log q r
      (l ++ [⟨.exited, b1, b2, ms, gs⟩]) (fun y hy => h y (List.mem_cons_of_mem _ hy))
    simp only [List.append_assoc, List.cons_append, List.nil_append] at h2
    refine PoolReaches.trans ?_ h2
    refine (reach_step (t := ⟨w, log, q, threads, threads, l ++ ⟨.quitLoad2 threads, b1, b2, ms, gs⟩ :: r⟩)
      l _ r rfl rfl).trans ?_
    refine reach_step l _ r rfl ?_
    simp [stepWorker]

/-- A worker that has come back with nothing to do. -/
def idler : WorkerSt := ⟨.recv, true, false, [], []⟩

/-- The end of the lossy run: worker 0 has done everything else, worker 1 has just taken the subdirectory. -/
theorem reach_lossy_end {compile : Compiler σ} (m : Nat) (w : σ) (log : List Path) (ms : List Msg) (gs : List String)
    (d' : Path) (es' : List Entry) (ws' : List Work) (hws' : runEntries es' = .ok ws') :
    PoolReaches compile (m + 2)
      ⟨w, log, [], m + 1, 0, ⟨.recv, false, false, ms, gs⟩ ::
        ⟨.gotWork (.dirEntry (.dir d' es')), true, false, [], []⟩ :: List.replicate m idler⟩
      ⟨w, log, ws'.map .work, m + 2, m + 2, ⟨.exited, true, true, ms, gs⟩ ::
        List.replicate (m + 1) ⟨.exited, true, true, [], []⟩⟩ := by
  let sub : Work := .dirEntry (.dir d' es')
  let R : List WorkerSt := ⟨.gotWork sub, true, false, [], []⟩ :: List.replicate m idler
  have r8 : PoolReaches compile (m + 2)
      ⟨w, log, [], m + 1, 0, ⟨.recv, false, false, ms, gs⟩ :: R⟩
      ⟨w, log, [], m + 2, 0, ⟨.sendQuit (m + 2), true, false, ms, gs⟩ :: R⟩ := by
    refine (reach_step (t := ⟨w, log, [], m + 1, 0, ⟨.empty, false, false, ms, gs⟩ :: R⟩) [] _ R rfl rfl).trans ?_
    refine (reach_step (t := ⟨w, log, [], m + 2, 0, ⟨.empty2, true, false, ms, gs⟩ :: R⟩) [] _ R rfl rfl).trans ?_
    refine (reach_step (t := ⟨w, log, [], m + 2, 0, ⟨.emptyLoad, true, false, ms, gs⟩ :: R⟩) [] _ R rfl rfl).trans ?_
    refine reach_step [] _ R rfl ?_
    simp [stepWorker]
  have r9 := reach_quits (compile := compile) (threads := m + 2) w log (m + 2) ms gs [] R (m + 2) []
  let W0 : WorkerSt := ⟨.recv, true, false, ms, gs⟩
  let Q : List QMsg := List.replicate (m + 2) .quit
  have r10 : PoolReaches compile (m + 2)
      ⟨w, log, Q, m + 2, 0, W0 :: R⟩
      ⟨w, log, Q, m + 1, 0, W0 :: ⟨.sending ws', false, false, [], []⟩ :: List.replicate m idler⟩ := by
    refine (reach_step (t := ⟨w, log, Q, m + 1, 0, W0 :: ⟨.gotWork2 sub, false, false, [], []⟩ :: List.replicate m idler⟩)
      [W0] _ _ rfl rfl).trans ?_
    refine (reach_step (t := ⟨w, log, Q, m + 1, 0, W0 :: ⟨.running sub, false, false, [], []⟩ :: List.replicate m idler⟩)
      [W0] _ _ rfl rfl).trans ?_
    refine reach_step [W0] ⟨.running sub, false, false, [], []⟩ (List.replicate m idler) rfl ?_
    simp [stepWorker, runWork, Work.run, hws', sub]
  have r11 := reach_sent (compile := compile) (threads := m + 2) w log (m + 1) false [] [] [W0] (List.replicate m idler)
    ws' Q
  have r12 := reach_quitting' (compile := compile) (threads := m + 2) w log
    (List.replicate (m + 1) .quit ++ ws'.map .work) (m + 1) 0 [] [] [W0] (List.replicate m idler)
  have r13 := reach_quitting (compile := compile) (threads := m + 2) w log
    (List.replicate m .quit ++ ws'.map .work) (m + 2) 1 ms gs []
    (⟨.quitLoad, true, true, [], []⟩ :: List.replicate m idler)
  have r14 := reach_all_quitting (compile := compile) (threads := m + 2) w log (ws'.map .work) (m + 2) m 2
    [⟨.quitLoad, true, true, ms, gs⟩, ⟨.quitLoad, true, true, [], []⟩]
  rw [show 2 + m = m + 2 by omega] at r14
  have r15 := reach_all_exited_keeping (compile := compile) (threads := m + 2) w log (ws'.map .work)
    (⟨.quitLoad, true, true, ms, gs⟩ :: ⟨.quitLoad, true, true, [], []⟩ ::
      List.replicate m ⟨.quitLoad, true, true, [], []⟩) [] (by
      intro x hx
      rcases List.mem_cons.1 hx with rfl | hx
      · rfl
      · rcases List.mem_cons.1 hx with rfl | hx
        · rfl
        · rw [(List.mem_replicate.1 hx).2])
  have r12' : PoolReaches compile (m + 2)
      ⟨w, log, Q ++ ws'.map .work, m + 1, 0, [W0] ++ ⟨.recv, false, false, [], []⟩ :: List.replicate m idler⟩ _ := r12
  simp only [List.nil_append, List.map_cons, List.map_replicate] at r15
  rw [List.replicate_succ]
  exact r8.trans (r9.trans (r10.trans (r11.trans (r12'.trans (r13.trans (r14.trans r15))))))

/-- A pool with one worker that is at work. -/
def single (w : σ) (log : List Path) (q : List Work) (pc : PC) (ms : List Msg) (gs : List String) : PoolSt σ :=
  ⟨w, log, q.map .work, 0, 0, [⟨pc, false, false, ms, gs⟩]⟩

/-- A pool whose worker 0 is at work. -/
def several (m : Nat) (w : σ) (log : List Path) (q : List Work) (pc : PC) (ms : List Msg) (gs : List String)
    (r : List WorkerSt) : PoolSt σ :=
  ⟨w, log, q.map .work, m + 1, 0, ⟨pc, false, false, ms, gs⟩ :: r⟩

/-- The others, when worker 1 has taken a piece of work. -/
def othersTaken (m : Nat) (sub : Work) : List WorkerSt := ⟨.gotWork sub, true, false, [], []⟩ :: List.replicate m idler

/-- A worker between taking work and coming back for more. -/
inductive AtWork : PC → Prop where
  | recv : AtWork .recv
  | gotWork (x : Work) : AtWork (.gotWork x)
  | gotWork2 (x : Work) : AtWork (.gotWork2 x)
  | running (x : Work) : AtWork (.running x)
  | sending (ws : List Work) : AtWork (.sending ws)

/-- The single worker is at work, and the pool with several reaches the same point, with the subdirectory in the
channel or in the hands of worker 1. -/
structure Shadowed (compile : Compiler σ) (m : Nat) (start : PoolSt σ) (sub : Work) (t : PoolSt σ) : Prop where
  shadow : ∃ w log q pc ms gs, t = single w log q pc ms gs ∧ AtWork pc ∧
    ((∃ q1 q2, q = q1 ++ q2 ∧
        PoolReaches compile (m + 2) start (several m w log (q1 ++ sub :: q2) pc ms gs (List.replicate (m + 1) idler))) ∨
      PoolReaches compile (m + 2) start (several m w log q pc ms gs (othersTaken m sub)))

/-- The single worker has found the channel empty; the pool with several can finish with the same results. -/
structure Winding (compile : Compiler σ) (m : Nat) (start : PoolSt σ) (t : PoolSt σ) : Prop where
  finish : ∃ u, PoolReaches compile (m + 2) start u ∧ u.finished = true ∧ u.world = t.world ∧ u.log = t.log ∧
    u.aggregate = t.aggregate
  worker : ∃ me, t.workers = [me] ∧ (match me.pc with
    | .gotWork _ | .gotWork2 _ | .running _ | .sending _ => False
    | _ => True)
  quits : ∀ x ∈ t.queue, x = .quit

/-- The single worker has panicked. -/
def Broken (t : PoolSt σ) : Prop := ∃ me, t.workers = [me] ∧ me.pc = .panicked

theorem step_single {compile : Compiler σ} (t : PoolSt σ) (me : WorkerSt) (h : t.workers = [me]) (i : Nat) :
    t.step compile 1 i = t ∨ t.step compile 1 i =
      { (stepWorker compile 1 t me).1 with workers := [(stepWorker compile 1 t me).2] } := by
  unfold PoolSt.step
  rw [h]
  cases i with
  | zero => right; simp
  | succ i => left; simp

theorem broken_step {compile : Compiler σ} {t : PoolSt σ} (h : Broken t) (i : Nat) : Broken (t.step compile 1 i) := by
  obtain ⟨me, hw, hpc⟩ := h
  rcases step_single (compile := compile) t me hw i with e | e
  · rw [e]; exact ⟨me, hw, hpc⟩
  · rw [e]
    refine ⟨me, ?_, hpc⟩
    simp [stepWorker, hpc]

theorem setWaiting_same (b : Bool) (s : PoolSt σ) (me : WorkerSt) :
    (setWaiting b s me).1.world = s.world ∧ (setWaiting b s me).1.log = s.log ∧
    (setWaiting b s me).1.queue = s.queue ∧ (setWaiting b s me).2.messages = me.messages ∧
    (setWaiting b s me).2.globals = me.globals := by
  unfold setWaiting
  split
  · simp
  · split <;> simp

theorem setQuitting_same (b : Bool) (s : PoolSt σ) (me : WorkerSt) :
    (setQuitting b s me).1.world = s.world ∧ (setQuitting b s me).1.log = s.log ∧
    (setQuitting b s me).1.queue = s.queue ∧ (setQuitting b s me).2.messages = me.messages ∧
    (setQuitting b s me).2.globals = me.globals := by
  unfold setQuitting
  split
  · simp
  · split <;> simp

/-- What a step of a worker that is winding up keeps. -/
theorem winding_worker {compile : Compiler σ} (t : PoolSt σ) (me : WorkerSt)
    (hpc : match me.pc with
      | .gotWork _ | .gotWork2 _ | .running _ | .sending _ => False
      | _ => True) (hq : ∀ x ∈ t.queue, x = .quit) :
    (stepWorker compile 1 t me).1.world = t.world ∧ (stepWorker compile 1 t me).1.log = t.log ∧
    (stepWorker compile 1 t me).2.messages = me.messages ∧ (stepWorker compile 1 t me).2.globals = me.globals ∧
    (∀ x ∈ (stepWorker compile 1 t me).1.queue, x = .quit) ∧
    (match (stepWorker compile 1 t me).2.pc with
      | .gotWork _ | .gotWork2 _ | .running _ | .sending _ => False
      | _ => True) := by
  obtain ⟨a1, a2, a3, a4, a5⟩ := setWaiting_same true t me
  obtain ⟨b1, b2, b3, b4, b5⟩ := setQuitting_same true t me
  obtain ⟨c1, c2, c3, c4, c5⟩ := setQuitting_same false t me
  unfold stepWorker
  cases h : me.pc with
  | gotWork x => simp [h] at hpc
  | gotWork2 x => simp [h] at hpc
  | running x => simp [h] at hpc
  | sending x => simp [h] at hpc
  | recv =>
    cases hqq : t.queue with
    | nil => simp [hqq]
    | cons x q =>
      rw [hqq] at hq
      have := hq x (List.mem_cons_self ..)
      subst this
      simp only [and_true, true_and]
      exact fun y hy => hq y (List.mem_cons_of_mem _ hy)
  | gotQuit => simpa [a1, a2, a3, a4, a5] using hq
  | gotQuit2 => simpa [b1, b2, b3, b4, b5] using hq
  | quitLoad => simpa using hq
  | quitLoad2 n =>
    simp only
    split
    · simpa using hq
    · split <;> simpa using hq
  | empty => simpa [a1, a2, a3, a4, a5] using hq
  | empty2 => simpa [c1, c2, c3, c4, c5] using hq
  | emptyLoad =>
    simp only
    split <;> simpa using hq
  | sendQuit n =>
    cases n with
    | zero => simpa using hq
    | succ n =>
      simp only [List.mem_append, List.mem_singleton, and_true, true_and]
      rintro x (hx | hx)
      · exact hq x hx
      · exact hx
  | exited => simpa [h] using hq
  | panicked => simpa [h] using hq

theorem winding_step {compile : Compiler σ} {m : Nat} {start t : PoolSt σ} (h : Winding compile m start t) (i : Nat) :
    Winding compile m start (t.step compile 1 i) := by
  obtain ⟨⟨u, hu, hf, h1, h2, h3⟩, ⟨me, hw, hpc⟩, hq⟩ := h
  rcases step_single (compile := compile) t me hw i with e | e
  · rw [e]; exact ⟨⟨u, hu, hf, h1, h2, h3⟩, ⟨me, hw, hpc⟩, hq⟩
  · obtain ⟨k1, k2, k3, k4, k5, k6⟩ := winding_worker (compile := compile) t me hpc hq
    rw [e]
    refine ⟨⟨u, hu, hf, ?_, ?_, ?_⟩, ⟨_, rfl, k6⟩, k5⟩
    · rw [h1]; exact k1.symm
    · rw [h2]; exact k2.symm
    · rw [h3]
      unfold PoolSt.aggregate
      simp [hw, k3, k4]

/-- Running work depends on the file system and the record of compiled files only. -/
theorem runWork_cases (compile : Compiler σ) (s : PoolSt σ) (me : WorkerSt) (x : Work) :
    (∃ w' log' ms' gs' pc', (AtWork pc') ∧ ∀ s' : PoolSt σ, s'.world = s.world → s'.log = s.log →
      runWork compile s' { me with pc := .running x } x =
        ({ s' with world := w', log := log' }, { me with pc := pc', messages := ms', globals := gs' })) ∨
    (runWork compile s { me with pc := .running x } x).2.pc = .panicked := by
  unfold runWork
  cases hr : x.run compile s.world with
  | mk res w' =>
    cases res with
    | moreWork ws =>
      refine .inl ⟨w', s.log, me.messages, me.globals, .sending ws, .sending ws, fun s' h1 h2 => ?_⟩
      rw [h1, hr, ← h2]
    | compileResult gs ms =>
      refine .inl ⟨w', (match x with | .graphQl p => s.log ++ [p] | _ => s.log), me.messages ++ ms,
        setExtend me.globals gs, .recv, .recv, fun s' h1 h2 => ?_⟩
      rw [h1, hr, h2]
      cases x <;> rfl
    | dirIoError err path =>
      refine .inl ⟨w', s.log, me.messages ++ [.ioError "read" err path], me.globals, .recv, .recv,
        fun s' h1 h2 => ?_⟩
      rw [h1, hr, ← h2]
    | panic => exact .inr rfl
    | diverge =>
      refine .inl ⟨s.world, s.log, me.messages, me.globals, .running x, .running x, fun s' h1 h2 => ?_⟩
      rw [h1, hr, ← h2, ← h1]

/-- What one step of the single worker leads to. -/
def Next (compile : Compiler σ) (m : Nat) (start : PoolSt σ) (sub : Work) (t : PoolSt σ) : Prop :=
  Shadowed compile m start sub t ∨ Winding compile m start t ∨ Broken t

/-- A step that does not touch the channel. -/
theorem shadow_local {compile : Compiler σ} {m : Nat} {start : PoolSt σ} {sub : Work} {w : σ} {log : List Path}
    {q : List Work} {pc : PC} {ms : List Msg} {gs : List String}
    (hsh : (∃ q1 q2, q = q1 ++ q2 ∧
        PoolReaches compile (m + 2) start (several m w log (q1 ++ sub :: q2) pc ms gs (List.replicate (m + 1) idler))) ∨
      PoolReaches compile (m + 2) start (several m w log q pc ms gs (othersTaken m sub)))
    {w' : σ} {log' : List Path} {pc' : PC} {ms' : List Msg} {gs' : List String} (hpc' : AtWork pc')
    (hstep : ∀ threads (s : PoolSt σ), s.world = w → s.log = log →
      stepWorker compile threads s ⟨pc, false, false, ms, gs⟩ =
        ({ s with world := w', log := log' }, ⟨pc', false, false, ms', gs'⟩)) :
    Shadowed compile m start sub
      { (stepWorker compile 1 (single w log q pc ms gs) ⟨pc, false, false, ms, gs⟩).1 with
        workers := [(stepWorker compile 1 (single w log q pc ms gs) ⟨pc, false, false, ms, gs⟩).2] } := by
  refine ⟨⟨w', log', q, pc', ms', gs', ?_, hpc', ?_⟩⟩
  · rw [hstep 1 _ rfl rfl]; rfl
  · have go : ∀ (qq : List Work) (r : List WorkerSt),
        PoolReaches compile (m + 2) (several m w log qq pc ms gs r) (several m w' log' qq pc' ms' gs' r) := by
      intro qq r
      refine reach_step [] ⟨pc, false, false, ms, gs⟩ r rfl ?_
      rw [hstep (m + 2) _ rfl rfl]
      rfl
    rcases hsh with ⟨q1, q2, e, h⟩ | h
    · exact .inl ⟨q1, q2, e, h.trans (go _ _)⟩
    · exact .inr (h.trans (go _ _))

/-- Worker 1 takes the subdirectory. -/
theorem reach_taken {compile : Compiler σ} (m : Nat) (sub : Work) (w : σ) (log : List Path) (q : List Work) (pc : PC)
    (ms : List Msg) (gs : List String) :
    PoolReaches compile (m + 2) (several m w log (sub :: q) pc ms gs (List.replicate (m + 1) idler))
      (several m w log q pc ms gs (othersTaken m sub)) :=
  reach_step [⟨pc, false, false, ms, gs⟩] idler (List.replicate m idler) rfl rfl

theorem shadowed_step {compile : Compiler σ} {m : Nat} {start t : PoolSt σ} {d' : Path} {es' : List Entry}
    {ws' : List Work} (hws' : runEntries es' = .ok ws')
    (h : Shadowed compile m start (.dirEntry (.dir d' es')) t) (i : Nat) :
    Next compile m start (.dirEntry (.dir d' es')) (t.step compile 1 i) := by
  obtain ⟨w, log, q, pc, ms, gs, rfl, hpc, hsh⟩ := h.shadow
  rcases step_single (compile := compile) (single w log q pc ms gs) _ rfl i with e | e
  · rw [e]; exact .inl h
  rw [e]
  clear e h
  cases hpc with
  | gotWork x => exact .inl (shadow_local (w' := w) (log' := log) (ms' := ms) (gs' := gs) hsh (.gotWork2 x)
      (fun _ s h1 h2 => by rw [← h1, ← h2]; rfl))
  | gotWork2 x => exact .inl (shadow_local (w' := w) (log' := log) (ms' := ms) (gs' := gs) hsh (.running x)
      (fun _ s h1 h2 => by rw [← h1, ← h2]; rfl))
  | running x =>
    rcases runWork_cases compile (single w log q (.running x) ms gs) ⟨.running x, false, false, ms, gs⟩ x with
      ⟨w', log', ms', gs', pc', hpc', hr⟩ | hp
    · exact .inl (shadow_local hsh hpc' (fun _ s h1 h2 => hr s h1 h2))
    · exact .inr (.inr ⟨_, rfl, hp⟩)
  | sending ws =>
    cases ws with
    | nil => exact .inl (shadow_local (w' := w) (log' := log) (ms' := ms) (gs' := gs) hsh .recv
      (fun _ s h1 h2 => by rw [← h1, ← h2]; rfl))
    | cons x ws =>
      refine .inl ⟨⟨w, log, q ++ [x], .sending ws, ms, gs, ?_, .sending ws, ?_⟩⟩
      · simp [single, stepWorker]
      · have go : ∀ (qq : List Work) (r : List WorkerSt),
            PoolReaches compile (m + 2) (several m w log qq (.sending (x :: ws)) ms gs r)
              (several m w log (qq ++ [x]) (.sending ws) ms gs r) := by
          intro qq r
          refine reach_step [] ⟨.sending (x :: ws), false, false, ms, gs⟩ r rfl ?_
          simp [several, stepWorker]
        rcases hsh with ⟨q1, q2, rfl, h⟩ | h
        · refine .inl ⟨q1, q2 ++ [x], by simp, h.trans ?_⟩
          have := go (q1 ++ Work.dirEntry (.dir d' es') :: q2) (List.replicate (m + 1) idler)
          simpa using this
        · exact .inr (h.trans (go _ _))
  | recv =>
    -- the subdirectory is taken if it is the next
    have hsh' : (∃ x q1 q2, q = x :: q1 ++ q2 ∧ PoolReaches compile (m + 2) start
          (several m w log (x :: q1 ++ Work.dirEntry (.dir d' es') :: q2) .recv ms gs (List.replicate (m + 1) idler))) ∨
        PoolReaches compile (m + 2) start
          (several m w log q .recv ms gs (othersTaken m (.dirEntry (.dir d' es')))) := by
      rcases hsh with ⟨q1, q2, rfl, h⟩ | h
      · cases q1 with
        | nil => exact .inr (h.trans (reach_taken m _ w log q2 .recv ms gs))
        | cons x q1 => exact .inl ⟨x, q1, q2, rfl, h⟩
      · exact .inr h
    cases q with
    | nil =>
      rcases hsh' with ⟨x, q1, q2, h0, _⟩ | h
      · simp at h0
      · refine .inr (.inl ⟨⟨_, h.trans (reach_lossy_end m w log ms gs d' es' ws' hws'), ?_, rfl, rfl, ?_⟩,
          ⟨_, rfl, trivial⟩, ?_⟩)
        · simp [PoolSt.finished]
        · have e : ∀ (n : Nat) (acc : List String), (List.replicate n (⟨.exited, true, true, [], []⟩ : WorkerSt)).foldl
              (fun acc w => setExtend acc w.globals) acc = acc := by
            intro n
            induction n with
            | zero => intro acc; rfl
            | succ n ih => intro acc; rw [List.replicate_succ, List.foldl_cons]; exact ih acc
          have e2 : ∀ n : Nat, (List.replicate n (⟨.exited, true, true, [], []⟩ : WorkerSt)).flatMap
              WorkerSt.messages = [] := by
            intro n
            rw [List.flatMap_eq_nil_iff]
            intro x hx
            rw [(List.mem_replicate.1 hx).2]
          unfold PoolSt.aggregate
          simp only [List.flatMap_cons, List.foldl_cons, e, e2, List.flatMap_nil, List.foldl_nil]
          rfl
        · intro x hx
          simp [single, stepWorker] at hx
    | cons x q =>
      refine .inl ⟨⟨w, log, q, .gotWork x, ms, gs, rfl, .gotWork x, ?_⟩⟩
      have go : ∀ (qq : List Work) (r : List WorkerSt),
          PoolReaches compile (m + 2) (several m w log (x :: qq) .recv ms gs r)
            (several m w log qq (.gotWork x) ms gs r) :=
        fun qq r => reach_step [] ⟨.recv, false, false, ms, gs⟩ r rfl rfl
      rcases hsh' with ⟨y, q1, q2, h0, h⟩ | h
      · simp only [List.cons_append, List.cons.injEq] at h0
        obtain ⟨rfl, rfl⟩ := h0
        exact .inl ⟨q1, q2, rfl, h.trans (go _ _)⟩
      · exact .inr (h.trans (go _ _))

theorem next_step {compile : Compiler σ} {m : Nat} {start t : PoolSt σ} {d' : Path} {es' : List Entry}
    {ws' : List Work} (hws' : runEntries es' = .ok ws')
    (h : Next compile m start (.dirEntry (.dir d' es')) t) (i : Nat) :
    Next compile m start (.dirEntry (.dir d' es')) (t.step compile 1 i) := by
  rcases h with h | h | h
  · exact shadowed_step hws' h i
  · exact .inr (.inl (winding_step h i))
  · exact .inr (.inr (broken_step h i))

/-- Listing with one more subdirectory. -/
theorem runEntries_insert (d' : Path) (es' : List Entry) : ∀ (a b : List Entry) (ws : List Work),
    runEntries (a ++ b) = .ok ws → ∃ wa wb, ws = wa ++ wb ∧
      runEntries (a ++ .dir d' es' :: b) = .ok (wa ++ .dirEntry (.dir d' es') :: wb)
  | [], b, ws, h => ⟨[], ws, rfl, by
      rw [List.nil_append] at h
      simp [runEntries, h]⟩
  | e :: a, b, ws, h => by
    have ih := runEntries_insert d' es' a b
    simp only [List.cons_append] at h ⊢
    cases e with
    | bad err => simp [runEntries] at h
    | other p =>
      simp only [runEntries] at h ⊢
      exact ih ws h
    | file p =>
      simp only [runEntries] at h ⊢
      cases hr : runEntries (a ++ b) with
      | error err => simp [hr] at h
      | ok ws0 =>
        obtain ⟨wa, wb, h1, h2⟩ := ih ws0 hr
        rw [hr] at h
        simp only [Except.ok.injEq] at h
        rw [h2]
        subst h
        subst h1
        by_cases hx : p.extension = some "graphql"
        · exact ⟨.graphQl p :: wa, wb, by simp [hx], by simp [hx]⟩
        · exact ⟨wa, wb, by simp [hx], by simp [hx]⟩
    | dir p es =>
      simp only [runEntries] at h ⊢
      cases hr : runEntries (a ++ b) with
      | error err => simp [hr] at h
      | ok ws0 =>
        obtain ⟨wa, wb, h1, h2⟩ := ih ws0 hr
        rw [hr] at h
        simp only [Except.ok.injEq] at h
        rw [h2]
        subst h
        subst h1
        exact ⟨.dirEntry (.dir p es) :: wa, wb, rfl, rfl⟩
    | badDir p err =>
      simp only [runEntries] at h ⊢
      cases hr : runEntries (a ++ b) with
      | error err => simp [hr] at h
      | ok ws0 =>
        obtain ⟨wa, wb, h1, h2⟩ := ih ws0 hr
        rw [hr] at h
        simp only [Except.ok.injEq] at h
        rw [h2]
        subst h
        subst h1
        exact ⟨.dirEntry (.badDir p err) :: wa, wb, rfl, rfl⟩

/-- The single worker is still busy with the root. -/
inductive AtRoot (compile : Compiler σ) (m : Nat) (start : PoolSt σ) (small big sub : Work) (world : σ) (wb : List Work) :
    PoolSt σ → Prop where
  | start : start = PoolSt.init world (m + 2) (match big with | .dirEntry e => e | .graphQl p => .file p) →
      AtRoot compile m start small big sub world wb (single world [] [small] .recv [] [])
  | busy (pc pc' : PC) : (pc = .gotWork small ∧ pc' = .gotWork big) ∨ (pc = .gotWork2 small ∧ pc' = .gotWork2 big) ∨
      (pc = .running small ∧ pc' = .running big) →
      PoolReaches compile (m + 2) start (several m world [] [] pc' [] [] (List.replicate (m + 1) idler)) →
      AtRoot compile m start small big sub world wb (single world [] [] pc [] [])
  | sending (x q : List Work) :
      PoolReaches compile (m + 2) start
        (several m world [] q (.sending (x ++ sub :: wb)) [] [] (List.replicate (m + 1) idler)) →
      AtRoot compile m start small big sub world wb (single world [] q (.sending (x ++ wb)) [] [])

theorem atRoot_step {compile : Compiler σ} {m : Nat} {world : σ} {d d' : Path} {a b es' : List Entry}
    {wa wb ws' : List Work} (hws' : runEntries es' = .ok ws') (hsmall : runEntries (a ++ b) = .ok (wa ++ wb))
    (hbig : runEntries (a ++ .dir d' es' :: b) = .ok (wa ++ .dirEntry (.dir d' es') :: wb)) {t : PoolSt σ}
    (h : AtRoot compile m (PoolSt.init world (m + 2) (.dir d (a ++ .dir d' es' :: b))) (.dirEntry (.dir d (a ++ b)))
      (.dirEntry (.dir d (a ++ .dir d' es' :: b))) (.dirEntry (.dir d' es')) world wb t) (i : Nat) :
    AtRoot compile m (PoolSt.init world (m + 2) (.dir d (a ++ .dir d' es' :: b))) (.dirEntry (.dir d (a ++ b)))
      (.dirEntry (.dir d (a ++ .dir d' es' :: b))) (.dirEntry (.dir d' es')) world wb (t.step compile 1 i) ∨
    Next compile m (PoolSt.init world (m + 2) (.dir d (a ++ .dir d' es' :: b))) (.dirEntry (.dir d' es'))
      (t.step compile 1 i) := by
  have hme : ∃ me, t.workers = [me] := by cases h <;> exact ⟨_, rfl⟩
  obtain ⟨me, hme⟩ := hme
  rcases step_single (compile := compile) t me hme i with e | e
  · rw [e]; exact .inl h
  cases h with
  | start hs =>
    rw [e]
    left
    cases hme
    refine .busy (.gotWork (.dirEntry (.dir d (a ++ b)))) (.gotWork (.dirEntry (.dir d (a ++ .dir d' es' :: b))))
      (.inl ⟨rfl, rfl⟩) ?_
    have r1 : PoolReaches compile (m + 2) (PoolSt.init world (m + 2) (.dir d (a ++ .dir d' es' :: b)))
        ⟨world, [], [], 0, 0, ⟨.gotWork (.dirEntry (.dir d (a ++ .dir d' es' :: b))), false, false, [], []⟩ ::
          List.replicate (m + 1) WorkerSt.init⟩ :=
      reach_step [] WorkerSt.init (List.replicate (m + 1) WorkerSt.init) rfl rfl
    have r2 := reach_all_idle (compile := compile) (threads := m + 2) world [] (m + 1) 0 (by omega)
      [⟨.gotWork (.dirEntry (.dir d (a ++ .dir d' es' :: b))), false, false, [], []⟩]
    rw [Nat.zero_add] at r2
    exact r1.trans r2
  | busy pc pc' hpc hr =>
    rw [e]
    cases hme
    left
    rcases hpc with ⟨rfl, rfl⟩ | ⟨rfl, rfl⟩ | ⟨rfl, rfl⟩
    · exact .busy _ _ (.inr (.inl ⟨rfl, rfl⟩)) (hr.trans (reach_step [] _ _ rfl rfl))
    · exact .busy _ _ (.inr (.inr ⟨rfl, rfl⟩)) (hr.trans (reach_step [] _ _ rfl rfl))
    · have e1 : ({ (stepWorker compile 1 (single world [] [] (.running (.dirEntry (.dir d (a ++ b)))) [] [])
            ⟨.running (.dirEntry (.dir d (a ++ b))), false, false, [], []⟩).1 with
          workers := [(stepWorker compile 1 (single world [] [] (.running (.dirEntry (.dir d (a ++ b)))) [] [])
            ⟨.running (.dirEntry (.dir d (a ++ b))), false, false, [], []⟩).2] } : PoolSt σ) =
          single world [] [] (.sending (wa ++ wb)) [] [] := by
        simp [stepWorker, runWork, Work.run, hsmall, single]
      rw [e1]
      refine .sending wa [] (hr.trans (reach_step [] _ _ rfl ?_))
      simp [stepWorker, runWork, Work.run, hbig, several]
  | sending x q hr =>
    cases x with
    | nil =>
      right
      refine next_step hws' (.inl ⟨⟨world, [], q, .sending wb, [], [], rfl, .sending wb, .inl ⟨q, [], by simp, ?_⟩⟩⟩) i
      refine hr.trans (reach_step [] _ _ rfl ?_)
      simp [stepWorker, several]
    | cons y x =>
      rw [e]
      cases hme
      left
      have e1 : ({ (stepWorker compile 1 (single world [] q (.sending (y :: x ++ wb)) [] [])
            ⟨.sending (y :: x ++ wb), false, false, [], []⟩).1 with
          workers := [(stepWorker compile 1 (single world [] q (.sending (y :: x ++ wb)) [] [])
            ⟨.sending (y :: x ++ wb), false, false, [], []⟩).2] } : PoolSt σ) =
          single world [] (q ++ [y]) (.sending (x ++ wb)) [] [] := by
        simp [stepWorker, single]
      rw [e1]
      refine .sending x (q ++ [y]) (hr.trans (reach_step [] _ _ rfl ?_))
      simp [stepWorker, several]

/-- **C51, a subdirectory can go missing.** Let a pool with one thread work through a project until its worker has
exited, and let the project have one more subdirectory, whatever is in it.  Then for every number of threads above one
there is an interleaving after which all workers have exited, with the same files compiled, the same file system, the same
messages and the same global types: as if the subdirectory were not there. -/
theorem C51_subdirectory_can_go_missing (compile : Compiler σ) (world : σ) (threads : Nat) (ht : 2 ≤ threads)
    (d d' : Path) (a b es' : List Entry) (hl : ∀ e, Entry.bad e ∉ a ++ b) (hl' : ∀ e, Entry.bad e ∉ es')
    (sched : List Nat) (s : PoolSt σ) (hs : ReachedBy compile world 1 (.dir d (a ++ b)) sched s)
    (hf : s.finished = true) :
    ∃ sched' s', ReachedBy compile world threads (.dir d (a ++ .dir d' es' :: b)) sched' s' ∧ s'.finished = true ∧
      s'.log = s.log ∧ s'.world = s.world ∧ s'.aggregate = s.aggregate := by
  obtain ⟨m, rfl⟩ : ∃ m, threads = m + 2 := ⟨threads - 2, by omega⟩
  have hlist : ∀ es : List Entry, (∀ e, Entry.bad e ∉ es) → ∃ ws, runEntries es = .ok ws := by
    intro es hl
    cases h : runEntries es with
    | ok ws => exact ⟨ws, rfl⟩
    | error err =>
      exfalso
      have := (runEntries_spec es).2 err h
      have h2 : listable es = true := (listable_iff es).2 hl
      rw [(firstBad_none_iff es).2 h2] at this
      cases this
  obtain ⟨ws', hws'⟩ := hlist es' hl'
  obtain ⟨ws, hws⟩ := hlist _ hl
  obtain ⟨wa, wb, rfl, hbig⟩ := runEntries_insert d' es' a b ws hws
  let start : PoolSt σ := PoolSt.init world (m + 2) (.dir d (a ++ .dir d' es' :: b))
  have key : ∀ (sched : List Nat) (t : PoolSt σ),
      (AtRoot compile m start (.dirEntry (.dir d (a ++ b))) (.dirEntry (.dir d (a ++ .dir d' es' :: b)))
        (.dirEntry (.dir d' es')) world wb t ∨ Next compile m start (.dirEntry (.dir d' es')) t) →
      (AtRoot compile m start (.dirEntry (.dir d (a ++ b))) (.dirEntry (.dir d (a ++ .dir d' es' :: b)))
        (.dirEntry (.dir d' es')) world wb (t.run compile 1 sched) ∨
        Next compile m start (.dirEntry (.dir d' es')) (t.run compile 1 sched)) := by
    intro sched
    induction sched with
    | nil => intro t h; exact h
    | cons i sched ih =>
      intro t h
      refine ih (t.step compile 1 i) ?_
      rcases h with h | h
      · exact atRoot_step hws' hws hbig h i
      · exact .inr (next_step hws' h i)
  have hend := key sched (PoolSt.init world 1 (.dir d (a ++ b))) (.inl (.start rfl))
  rw [← show s = (PoolSt.init world 1 (.dir d (a ++ b))).run compile 1 sched from hs] at hend
  have hpc : ∀ me, s.workers = [me] → me.pc = .exited := by
    intro me hme
    unfold PoolSt.finished at hf
    rw [hme] at hf
    simp only [List.all_cons, List.all_nil, Bool.and_true] at hf
    cases h : me.pc <;> simp [h] at hf ⊢
  rcases hend with h | h | h | h
  · exfalso
    cases h with
    | start => cases hpc _ rfl
    | busy pc pc' h1 =>
      have := hpc _ rfl
      simp only at this
      rcases h1 with ⟨rfl, _⟩ | ⟨rfl, _⟩ | ⟨rfl, _⟩ <;> cases this
    | sending => cases hpc _ rfl
  · exfalso
    obtain ⟨w, log, q, pc, ms, gs, rfl, hp, _⟩ := h.shadow
    have := hpc _ rfl
    simp only at this
    subst this
    cases hp
  · obtain ⟨u, ⟨sched', hu⟩, h1, h2, h3, h4⟩ := h.finish
    exact ⟨sched', u, hu, h1, h3, h2, h4⟩
  · exfalso
    obtain ⟨me, h1, h2⟩ := h
    rw [hpc me h1] at h2
    cases h2


section Program
variable {ω : Path → Hash} {ω' : Hash} {fuel : Nat} {ext : Ext} {schema : Schema} {w : World}

/-- **C51 for the program.** What the program prints, exits with and leaves on the disk when it works with one thread
through a project, it can also print, exit with and leave when it works with two or more threads through the project with
one more subdirectory, whatever is in that subdirectory. -/
theorem C51_program_without_a_subdirectory {paint : Paint} {cpus : Nat} {readConfig : Path → ConfigRead}
    {readSchema : Path → SchemaRead} {tree : Path → Entry} {args : CliArgs} {r : RuntimeConfig}
    (hcfg : RuntimeConfig.fromCli cpus readConfig args = .ok r) (h2 : 2 ≤ r.numberThreads)
    (hschema : parseSchema r.schemaPath (readSchema r.schemaPath) = .ok schema)
    (d d' : Path) (a b es' : List Entry) (htree : tree r.rootDir = .dir d (a ++ .dir d' es' :: b))
    (hl : ∀ e, Entry.bad e ∉ a ++ b) (hl' : ∀ e, Entry.bad e ∉ es') (s : PoolSt World) (ms : List Msg) (w' : World)
    (R : RunsTo ω ω' fuel ext (.ofRuntime r) schema r.rootDir (.dir d (a ++ b)) 1 w s ms w') :
    Runs ω ω' fuel ext paint cpus readConfig readSchema tree w args ⟨printExitInfo paint ms, w'⟩ := by
  obtain ⟨sched, hs⟩ := R.reached
  obtain ⟨sched', s', h1, hf, _, hw, ha⟩ := C51_subdirectory_can_go_missing _ w r.numberThreads h2 d d' a b es' hl hl'
    sched s hs R.finished
  refine .finished r schema sched' ms w' s' hcfg hschema ?_ hf ?_
  · rw [htree]
    exact h1
  · rw [hw, ha]
    exact R.globals

theorem foundIn_more {d : Path} {a b : List Entry} {x : Entry} {p : Path} (hx : ∀ e, x ≠ .bad e)
    (h : FoundIn (.dir d (a ++ b)) p) : FoundIn (.dir d (a ++ x :: b)) p := by
  have hb : (∀ e, Entry.bad e ∉ a ++ b) → ∀ e, Entry.bad e ∉ a ++ x :: b := by
    intro hl e he
    rcases List.mem_append.1 he with he | he
    · exact hl e (List.mem_append_left _ he)
    · rcases List.mem_cons.1 he with he | he
      · exact hx e he.symm
      · exact hl e (List.mem_append_right _ he)
  have hm : ∀ y, y ∈ a ++ b → y ∈ a ++ x :: b := by
    intro y hy
    rcases List.mem_append.1 hy with hy | hy
    · exact List.mem_append_left _ hy
    · exact List.mem_append_right _ (List.mem_cons_of_mem _ hy)
  cases h with
  | file hl hp he => exact .file (hb hl) (hm _ hp) he
  | sub hl hs h => exact .sub (hb hl) (hm _ hs) h

theorem namedAsRegistered_of_parse {p : Path} {read : SchemaRead} (h : parseSchema p read = .ok schema) :
    NamedAsRegistered schema := by
  cases read with
  | ioError e => cases h
  | serdeError e => cases h
  | parsed j =>
    simp only [parseSchema] at h
    generalize hj : Schema.ofJson j = x at h
    cases x with
    | error e => cases h
    | ok s =>
      cases h
      exact ofJson_namedAsRegistered hj

/-- **C51: status 0 without a subdirectory.** In a project whose outputs are not read and distinct, let all files outside
a subdirectory be compiled with one thread and status 0.  Then the program with two or more threads can exit with status 0
on the whole project and have written all these outputs, but none of those in the subdirectory. -/
theorem C51_success_without_a_subdirectory {paint : Paint} {cpus : Nat} {readConfig : Path → ConfigRead}
    {readSchema : Path → SchemaRead} {tree : Path → Entry} {args : CliArgs} {r : RuntimeConfig}
    (hcfg : RuntimeConfig.fromCli cpus readConfig args = .ok r) (h2 : 2 ≤ r.numberThreads)
    (hschema : parseSchema r.schemaPath (readSchema r.schemaPath) = .ok schema)
    (d d' : Path) (a b es' : List Entry) (htree : tree r.rootDir = .dir d (a ++ .dir d' es' :: b))
    (hl : ∀ e, Entry.bad e ∉ a ++ b) (hl' : ∀ e, Entry.bad e ∉ es')
    (hr : NoOutputRead w (.ofRuntime r) (tree r.rootDir)) (hd : OutputsDistinct w (tree r.rootDir))
    (hg : GlobalsApart w (.ofRuntime r) r.rootDir (tree r.rootDir)) (s : PoolSt World) (ms : List Msg) (w' : World)
    (R : RunsTo ω ω' fuel ext (.ofRuntime r) schema r.rootDir (.dir d (a ++ b)) 1 w s ms w')
    (h0 : (printExitInfo paint ms).code = 0) :
    ∃ f, Runs ω ω' fuel ext paint cpus readConfig readSchema tree w args f ∧ f.exit.code = 0 ∧
      (∀ p, FoundIn (.dir d (a ++ b)) p → ∃ contents doc st op ws c,
        Generates (ω p) fuel ext (.ofRuntime r) schema w p contents doc st op ws c ∧
        f.world.disk (w.resolve (outputPath p)) = .ok c.contents) ∧
      ∀ p, FoundIn (.dir d' es') p → ¬ FoundIn (.dir d (a ++ b)) p →
        f.world.disk (w.resolve (outputPath p)) = w.disk (w.resolve (outputPath p)) := by
  have hsmall : ∀ p, FoundIn (.dir d (a ++ b)) p → FoundIn (tree r.rootDir) p := by
    intro p hp
    rw [htree]
    exact foundIn_more (fun e he => by cases he) hp
  have hsub : ∀ p, FoundIn (.dir d' es') p → FoundIn (tree r.rootDir) p := by
    intro p hp
    rw [htree]
    refine .sub ?_ (List.mem_append_right _ (List.mem_cons_self ..)) hp
    intro e he
    rcases List.mem_append.1 he with he | he
    · exact hl e (List.mem_append_left _ he)
    · rcases List.mem_cons.1 he with he | he
      · cases he
      · exact hl e (List.mem_append_right _ he)
  have ho : ∀ id, IsOutput w (.dir d (a ++ b)) id → IsOutput w (tree r.rootDir) id :=
    fun id ⟨p, hp, e⟩ => ⟨p, hsmall p hp, e⟩
  have hr' : NoOutputRead w (.ofRuntime r) (.dir d (a ++ b)) :=
    fun p q hp hq h => hr p q (hsmall p hp) hq (ho _ h)
  have hd' : OutputsDistinct w (.dir d (a ++ b)) := fun p q hp hq e => hd p q (hsmall p hp) (hsmall q hq) e
  have hg' : GlobalsApart w (.ofRuntime r) r.rootDir (.dir d (a ++ b)) :=
    ⟨fun h => hg.1 (ho _ h), fun p q hp hq => hg.2 p q (hsmall p hp) hq⟩
  refine ⟨_, C51_program_without_a_subdirectory hcfg h2 hschema d d' a b es' htree hl hl' s ms w' R, h0, ?_, ?_⟩
  · exact (C74_success_means_generated hr' hd' hg' (namedAsRegistered_of_parse hschema) R paint h0).1
  · intro p hp hn
    refine (after_run hr' hd' hg' R).others _ ?_ ?_
    · rintro ⟨q, hq, e⟩
      exact hn ((hd p q (hsub p hp) (hsmall q hq) e) ▸ hq)
    · intro e
      exact hg.1 ⟨p, hsub p hp, e.symm⟩

end Program

namespace Demo

/-- A file in a subdirectory. -/
def subPath : Path := ⟨true, ["r", "sub", "q.graphql"]⟩

/-- The project: a file, and a subdirectory with a file. -/
def missTree : Entry := .dir ⟨true, ["r"]⟩ ([.file qPath] ++ .dir ⟨true, ["r", "sub"]⟩ [.file subPath] :: [])

/-- Its disk. -/
def missWorld : World where
  resolve := Path.display
  disk := fun id => if id = "/r/q.graphql" ∨ id = "/r/sub/q.graphql" then .ok "query Q" else .error "missing"
  writeErr := fun _ => none

/-- The arguments, with two threads. -/
def missArgs : CliArgs := { toolArgs with numThreads := some 2 }

/-- The runtime configuration. -/
def missRuntime : RuntimeConfig := RuntimeConfig.merge 16 missArgs {}

/-- The end of the work of one thread on the project without the subdirectory. -/
def missRun : PoolSt World :=
  (PoolSt.init missWorld 1 toolTree).run
    (poolCompile (fun _ => .inOrder) 9 toolExt toolCfg toolSchema) 1 fileSched

/-- The end of that run. -/
def missEnd : Option (List Msg × World) :=
  finishWork .reversed 9 toolCfg toolSchema missRun.world ⟨true, ["r"]⟩ missRun.aggregate

/-- The run ends with status 0. -/
def missOk : Bool :=
  missRun.finished && (pending missRun).isEmpty && match missEnd with
    | some (ms, _) => (printExitInfo .plain ms).code == 0
    | none => false

end Demo

theorem miss_cfg : CompileConfig.ofRuntime Demo.missRuntime = Demo.toolCfg := tool_cfg

theorem miss_found {p : Path} (h : FoundIn Demo.missTree p) : p = Demo.qPath ∨ p = Demo.subPath := by
  have := (mem_filesOf _ _).2 h
  have e : filesOf Demo.missTree = [Demo.qPath, Demo.subPath] := by decide +kernel
  rw [e] at this
  simpa using this

theorem miss_reads {p q : Path} (hp : p = Demo.qPath ∨ p = Demo.subPath)
    (h : Spec.Reads Demo.missWorld Demo.toolCfg p q) : q = p := by
  induction h with
  | self => rfl
  | imported _ hr hi ih =>
    subst ih
    rcases hp with rfl | rfl <;>
    · cases Except.ok.inj hr
      exact absurd hi tool_imports

/-- A project with two files, one of them in a subdirectory, and two threads: the program can exit with status 0 and leave
an output beside the first file and none in the subdirectory. -/
theorem C51_missing_demo : ∃ f,
    Runs (fun _ => .inOrder) .reversed 9 Demo.toolExt .plain 16 (fun p => (Demo.toolConfigs p).asConfig)
      (fun p => (Demo.toolSchemas p).asSchema) (fun _ => Demo.missTree) Demo.missWorld Demo.missArgs f ∧
    f.exit.code = 0 ∧ (∃ c, f.world.disk "/r/q.graphql.d.ts" = .ok c) ∧
    f.world.disk "/r/sub/q.graphql.d.ts" = .error "missing" := by
  have h : Demo.missOk = true := by decide +kernel
  unfold Demo.missOk at h
  simp only [Bool.and_eq_true] at h
  obtain ⟨⟨h1, h2⟩, h4⟩ := h
  split at h4
  case h_2 => simp at h4
  rename_i ms w' e
  simp only [beq_iff_eq] at h4
  have hout : ∀ {id}, IsOutput Demo.missWorld Demo.missTree id →
      id = "/r/q.graphql.d.ts" ∨ id = "/r/sub/q.graphql.d.ts" := by
    rintro id ⟨p, hp, rfl⟩
    rcases miss_found hp with rfl | rfl <;> decide +kernel
  have hr : NoOutputRead Demo.missWorld (.ofRuntime Demo.missRuntime) Demo.missTree := by
    rw [miss_cfg]
    intro p q hp hq ho
    have hp' := miss_found hp
    obtain rfl := miss_reads hp' hq
    have := hout ho
    revert this
    rcases hp' with rfl | rfl <;> decide +kernel
  have hd : OutputsDistinct Demo.missWorld Demo.missTree := by
    intro p q hp hq e
    revert e
    rcases miss_found hp with rfl | rfl <;> rcases miss_found hq with rfl | rfl <;> decide +kernel
  have hg : GlobalsApart Demo.missWorld (.ofRuntime Demo.missRuntime) Demo.missRuntime.rootDir Demo.missTree := by
    rw [miss_cfg]
    refine ⟨fun h => ?_, fun p q hp hq => ?_⟩
    · have := hout h
      revert this
      decide +kernel
    · have hp' := miss_found hp
      obtain rfl := miss_reads hp' hq
      rcases hp' with rfl | rfl <;> decide +kernel
  obtain ⟨f, r1, r2, r3, r4⟩ := C51_success_without_a_subdirectory (paint := .plain) (cpus := 16)
    (readConfig := fun p => (Demo.toolConfigs p).asConfig) (readSchema := fun p => (Demo.toolSchemas p).asSchema)
    (tree := fun _ => Demo.missTree) (args := Demo.missArgs) (r := Demo.missRuntime) (w := Demo.missWorld)
    (ω := fun _ => .inOrder) (ω' := .reversed) (fuel := 9) (ext := Demo.toolExt) (schema := Demo.toolSchema)
    rfl (by decide) tool_parse ⟨true, ["r"]⟩ ⟨true, ["r", "sub"]⟩ [.file Demo.qPath] [] [.file Demo.subPath] rfl
    (by simp) (by simp) hr hd hg Demo.missRun ms w'
    (by rw [miss_cfg]; exact ⟨⟨_, rfl⟩, h1, List.isEmpty_iff.1 h2, e⟩) h4
  refine ⟨f, r1, r2, ?_, ?_⟩
  · obtain ⟨_, _, _, _, _, c, _, hc⟩ := r3 Demo.qPath ((mem_filesOf _ _).1 (by decide +kernel))
    exact ⟨c.contents, hc⟩
  · refine r4 Demo.subPath ((mem_filesOf _ _).1 (by decide +kernel)) (fun h => ?_)
    have := (mem_filesOf _ _).2 h
    revert this
    decide +kernel

end Qlc
