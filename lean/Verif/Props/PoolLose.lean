import Verif.Props.PoolTop
/-
C51: the race can lose any subdirectory of any project.
-/
set_option autoImplicit false

namespace Qlc
open Spec

variable {σ : Type}

/-- Some schedule leads from `s` to `t`. -/
def PoolReaches (compile : Compiler σ) (threads : Nat) (s t : PoolSt σ) : Prop :=
  ∃ sched, t = s.run compile threads sched

theorem PoolReaches.refl {compile : Compiler σ} {threads : Nat} (s : PoolSt σ) : PoolReaches compile threads s s := ⟨[], rfl⟩

theorem PoolReaches.trans {compile : Compiler σ} {threads : Nat} {s t u : PoolSt σ} (h1 : PoolReaches compile threads s t)
    (h2 : PoolReaches compile threads t u) : PoolReaches compile threads s u := by
  obtain ⟨a, rfl⟩ := h1
  obtain ⟨b, rfl⟩ := h2
  exact ⟨a ++ b, by simp [PoolSt.run, List.foldl_append]⟩

/-- A step of the worker behind `l`. -/
theorem reach_step {compile : Compiler σ} {threads : Nat} {s t : PoolSt σ} (l : List WorkerSt) (x : WorkerSt)
    (r : List WorkerSt) (hs : s.workers = l ++ x :: r)
    (ht : t = { (stepWorker compile threads s x).1 with workers := l ++ (stepWorker compile threads s x).2 :: r }) :
    PoolReaches compile threads s t := by
  refine ⟨[l.length], ?_⟩
  show t = s.step compile threads l.length
  unfold PoolSt.step
  have h1 : s.workers[l.length]? = some x := by rw [hs]; simp
  rw [h1, ht]
  simp only
  rw [hs]
  simp

/-- A worker that finds the channel empty, while not everybody waits, comes back counted as waiting. -/
theorem reach_idle {compile : Compiler σ} {threads : Nat} (w : σ) (log : List Path) (k : Nat) (hk : k + 1 ≠ threads)
    (l r : List WorkerSt) :
    PoolReaches compile threads ⟨w, log, [], k, 0, l ++ ⟨.recv, false, false, [], []⟩ :: r⟩
      ⟨w, log, [], k + 1, 0, l ++ ⟨.recv, true, false, [], []⟩ :: r⟩ := by
  refine (reach_step (t := ⟨w, log, [], k, 0, l ++ ⟨.empty, false, false, [], []⟩ :: r⟩) l _ r rfl rfl).trans ?_
  refine (reach_step (t := ⟨w, log, [], k + 1, 0, l ++ ⟨.empty2, true, false, [], []⟩ :: r⟩) l _ r rfl rfl).trans ?_
  refine (reach_step (t := ⟨w, log, [], k + 1, 0, l ++ ⟨.emptyLoad, true, false, [], []⟩ :: r⟩) l _ r rfl rfl).trans ?_
  refine reach_step l _ r rfl ?_
  simp [stepWorker, hk]

/-- All the others do so. -/
theorem reach_all_idle {compile : Compiler σ} {threads : Nat} (w : σ) (log : List Path) :
    ∀ (n k : Nat), k + n + 1 ≤ threads → ∀ l : List WorkerSt,
    PoolReaches compile threads ⟨w, log, [], k, 0, l ++ List.replicate n WorkerSt.init⟩
      ⟨w, log, [], k + n, 0, l ++ List.replicate n ⟨.recv, true, false, [], []⟩⟩
  | 0, k, _, l => PoolReaches.refl _
  | n + 1, k, h, l => by
    have h1 := reach_idle (compile := compile) (threads := threads) w log k (by omega) l (List.replicate n WorkerSt.init)
    have h2 := reach_all_idle (compile := compile) (threads := threads) w log n (k + 1) (by omega)
      (l ++ [⟨.recv, true, false, [], []⟩])
    have e : k + 1 + n = k + (n + 1) := by omega
    simp only [List.append_assoc, List.cons_append, List.nil_append, e] at h2
    exact h1.trans h2

/-- Sending. -/
theorem reach_sent {compile : Compiler σ} {threads : Nat} (w : σ) (log : List Path) (k : Nat) (b : Bool)
    (ms : List Msg) (gs : List String) (l r : List WorkerSt) : ∀ (ws : List Work) (q : List QMsg),
    PoolReaches compile threads ⟨w, log, q, k, 0, l ++ ⟨.sending ws, b, false, ms, gs⟩ :: r⟩
      ⟨w, log, q ++ ws.map .work, k, 0, l ++ ⟨.recv, b, false, ms, gs⟩ :: r⟩
  | [], q => by
    refine reach_step l _ r rfl ?_
    simp [stepWorker]
  | x :: ws, q => by
    have h1 : PoolReaches compile threads ⟨w, log, q, k, 0, l ++ ⟨.sending (x :: ws), b, false, ms, gs⟩ :: r⟩
        ⟨w, log, q ++ [.work x], k, 0, l ++ ⟨.sending ws, b, false, ms, gs⟩ :: r⟩ := reach_step l _ r rfl rfl
    have h2 := reach_sent (compile := compile) (threads := threads) w log k b ms gs l r ws (q ++ [.work x])
    rw [List.append_assoc] at h2
    exact h1.trans h2

/-- The work that results from a piece of work. -/
def children : Work → List Work
  | .dirEntry (.dir _ es) => match runEntries es with
    | .ok ws => ws
    | .error _ => []
  | _ => []

theorem children_files (x : Work) : ∀ y ∈ children x, ∀ p ∈ workFiles y, p ∈ workFiles x := by
  intro y hy p hp
  unfold children at hy
  split at hy
  · rename_i d es
    split at hy
    · rename_i ws hr
      show p ∈ filesOf (.dir d es)
      rw [(filesOf_dir_ok hr).1]
      exact List.mem_flatMap.2 ⟨y, hy, hp⟩
    · simp at hy
  · simp at hy

theorem children_smaller (x : Work) : wsum (children x) < wsize x := by
  unfold children
  split
  · rename_i d es
    split
    · rename_i ws hr
      have := runEntries_size es ws hr
      simp only [wsize, esize]
      omega
    · simpa [wsum] using wsize_pos _
  · simpa [wsum] using wsize_pos _

/-- Running a piece of work whose files return. -/
theorem reach_run {compile : Compiler σ} {threads : Nat} (x : Work)
    (hx : ∀ w, ∀ p ∈ workFiles x, ∃ gs ms w', compile w p = (.done gs ms, w')) (w : σ) (log : List Path)
    (q : List QMsg) (k : Nat) (ms : List Msg) (gs : List String) (l r : List WorkerSt) :
    ∃ w' log' ms' gs', PoolReaches compile threads ⟨w, log, q, k, 0, l ++ ⟨.running x, false, false, ms, gs⟩ :: r⟩
      ⟨w', log', q ++ (children x).map .work, k, 0, l ++ ⟨.recv, false, false, ms', gs'⟩ :: r⟩ := by
  cases x with
  | graphQl p =>
    obtain ⟨g, m, w', h⟩ := hx w p (by simp [workFiles])
    refine ⟨w', log ++ [p], ms ++ m, setExtend gs g, reach_step l _ r rfl ?_⟩
    simp [stepWorker, runWork, Work.run, h, children]
  | dirEntry e =>
    cases e with
    | dir d es =>
      cases hr : runEntries es with
      | ok ws =>
        refine ⟨w, log, ms, gs, ?_⟩
        have h1 : PoolReaches compile threads
            ⟨w, log, q, k, 0, l ++ ⟨.running (.dirEntry (.dir d es)), false, false, ms, gs⟩ :: r⟩
            ⟨w, log, q, k, 0, l ++ ⟨.sending ws, false, false, ms, gs⟩ :: r⟩ := by
          refine reach_step l _ r rfl ?_
          simp [stepWorker, runWork, Work.run, hr]
        have h2 := reach_sent (compile := compile) (threads := threads) w log k false ms gs l r ws q
        have hc : children (.dirEntry (.dir d es)) = ws := by simp [children, hr]
        rw [hc]
        exact h1.trans h2
      | error err =>
        refine ⟨w, log, ms ++ [.ioError "read" err d], gs, reach_step l _ r rfl ?_⟩
        simp [stepWorker, runWork, Work.run, hr, children]
    | file p =>
      refine ⟨w, log, ms ++ [.ioError "read" "Not a directory" p], gs, reach_step l _ r rfl ?_⟩
      simp [stepWorker, runWork, Work.run, children]
    | badDir p err =>
      refine ⟨w, log, ms ++ [.ioError "read" err p], gs, reach_step l _ r rfl ?_⟩
      simp [stepWorker, runWork, Work.run, children]
    | bad err =>
      refine ⟨w, log, ms ++ [.ioError "read" err ⟨false, []⟩], gs, reach_step l _ r rfl ?_⟩
      simp [stepWorker, runWork, Work.run, children]
    | other p =>
      refine ⟨w, log, ms ++ [.ioError "read" "Not a directory" p], gs, reach_step l _ r rfl ?_⟩
      simp [stepWorker, runWork, Work.run, children]

/-- Taking a piece of work off the channel and running it. -/
theorem reach_work {compile : Compiler σ} {threads : Nat} (x : Work)
    (hx : ∀ w, ∀ p ∈ workFiles x, ∃ gs ms w', compile w p = (.done gs ms, w')) (w : σ) (log : List Path)
    (q : List QMsg) (k : Nat) (ms : List Msg) (gs : List String) (l r : List WorkerSt) :
    ∃ w' log' ms' gs', PoolReaches compile threads ⟨w, log, .work x :: q, k, 0, l ++ ⟨.recv, false, false, ms, gs⟩ :: r⟩
      ⟨w', log', q ++ (children x).map .work, k, 0, l ++ ⟨.recv, false, false, ms', gs'⟩ :: r⟩ := by
  obtain ⟨w', log', ms', gs', h⟩ := reach_run (compile := compile) (threads := threads) x hx w log q k ms gs l r
  refine ⟨w', log', ms', gs', ?_⟩
  refine (reach_step (t := ⟨w, log, q, k, 0, l ++ ⟨.gotWork x, false, false, ms, gs⟩ :: r⟩) l _ r rfl rfl).trans ?_
  refine (reach_step (t := ⟨w, log, q, k, 0, l ++ ⟨.gotWork2 x, false, false, ms, gs⟩ :: r⟩) l _ r rfl rfl).trans ?_
  exact (reach_step (t := ⟨w, log, q, k, 0, l ++ ⟨.running x, false, false, ms, gs⟩ :: r⟩) l _ r rfl rfl).trans h

/-- Work whose files return. -/
def WorkReturns (compile : Compiler σ) (x : Work) : Prop :=
  ∀ w, ∀ p ∈ workFiles x, ∃ gs ms w', compile w p = (.done gs ms, w')

theorem WorkReturns.children {compile : Compiler σ} {x : Work} (h : WorkReturns compile x) : ∀ y ∈ children x, WorkReturns compile y :=
  fun y hy w p hp => h w p (children_files x y hy p hp)

/-- One worker works until a given piece of work is the next. -/
theorem reach_front {compile : Compiler σ} {threads : Nat} (x : Work) (k : Nat) (l r : List WorkerSt) :
    ∀ (a b : List Work) (w : σ) (log : List Path) (ms : List Msg) (gs : List String),
    (∀ y ∈ a, WorkReturns compile y) → (∀ y ∈ b, WorkReturns compile y) →
    ∃ b' w' log' ms' gs', (∀ y ∈ b', WorkReturns compile y) ∧
      PoolReaches compile threads ⟨w, log, (a ++ x :: b).map .work, k, 0, l ++ ⟨.recv, false, false, ms, gs⟩ :: r⟩
        ⟨w', log', (x :: b').map .work, k, 0, l ++ ⟨.recv, false, false, ms', gs'⟩ :: r⟩
  | [], b, w, log, ms, gs, _, hb => ⟨b, w, log, ms, gs, hb, PoolReaches.refl _⟩
  | y :: a, b, w, log, ms, gs, ha, hb => by
    have hy := ha y (List.mem_cons_self ..)
    obtain ⟨w1, log1, ms1, gs1, h1⟩ := reach_work (compile := compile) (threads := threads) y hy w log
      ((a ++ x :: b).map .work) k ms gs l r
    obtain ⟨b', w', log', ms', gs', hb', h2⟩ := reach_front (compile := compile) (threads := threads) x k l r a
      (b ++ Qlc.children y) w1 log1 ms1 gs1 (fun z hz => ha z (List.mem_cons_of_mem _ hz))
      (fun z hz => by
        rcases List.mem_append.1 hz with hz | hz
        · exact hb z hz
        · exact hy.children z hz)
    refine ⟨b', w', log', ms', gs', hb', PoolReaches.trans ?_ h2⟩
    have e : (a ++ x :: (b ++ Qlc.children y)).map QMsg.work =
        (a ++ x :: b).map .work ++ (Qlc.children y).map .work := by simp
    rw [e]
    exact h1

/-- One worker works until the channel is empty. -/
theorem reach_drained {compile : Compiler σ} {threads : Nat} (k : Nat) (l r : List WorkerSt) :
    ∀ (n : Nat) (q : List Work) (w : σ) (log : List Path) (ms : List Msg) (gs : List String),
    wsum q ≤ n → (∀ y ∈ q, WorkReturns compile y) →
    ∃ w' log' ms' gs',
      PoolReaches compile threads ⟨w, log, q.map .work, k, 0, l ++ ⟨.recv, false, false, ms, gs⟩ :: r⟩
        ⟨w', log', [], k, 0, l ++ ⟨.recv, false, false, ms', gs'⟩ :: r⟩ := by
  intro n
  induction n with
  | zero =>
    intro q w log ms gs hn hq
    cases q with
    | nil => exact ⟨w, log, ms, gs, PoolReaches.refl _⟩
    | cons x q =>
      have := wsize_pos x
      simp only [wsum, List.map_cons, List.sum_cons] at hn
      omega
  | succ n ih =>
    intro q w log ms gs hn hq
    cases q with
    | nil => exact ⟨w, log, ms, gs, PoolReaches.refl _⟩
    | cons x q =>
      have hx := hq x (List.mem_cons_self ..)
      obtain ⟨w1, log1, ms1, gs1, h1⟩ := reach_work (compile := compile) (threads := threads) x hx w log
        (q.map .work) k ms gs l r
      have hsm := children_smaller x
      have hlt : wsum (q ++ children x) ≤ n := by
        simp only [wsum, List.map_cons, List.sum_cons, List.map_append, List.sum_append] at hn hsm ⊢
        omega
      obtain ⟨w', log', ms', gs', h2⟩ := ih (q ++ children x) w1 log1 ms1 gs1 hlt (fun z hz => by
        rcases List.mem_append.1 hz with hz | hz
        · exact hq z (List.mem_cons_of_mem _ hz)
        · exact hx.children z hz)
      refine ⟨w', log', ms', gs', PoolReaches.trans ?_ h2⟩
      rw [List.map_append]
      exact h1

/-- Sending the `Quit`s. -/
theorem reach_quits {compile : Compiler σ} {threads : Nat} (w : σ) (log : List Path) (k : Nat)
    (ms : List Msg) (gs : List String) (l r : List WorkerSt) : ∀ (n : Nat) (q : List QMsg),
    PoolReaches compile threads ⟨w, log, q, k, 0, l ++ ⟨.sendQuit n, true, false, ms, gs⟩ :: r⟩
      ⟨w, log, q ++ List.replicate n .quit, k, 0, l ++ ⟨.recv, true, false, ms, gs⟩ :: r⟩
  | 0, q => by
    refine reach_step l _ r rfl ?_
    simp [stepWorker]
  | n + 1, q => by
    have h1 : PoolReaches compile threads ⟨w, log, q, k, 0, l ++ ⟨.sendQuit (n + 1), true, false, ms, gs⟩ :: r⟩
        ⟨w, log, q ++ [.quit], k, 0, l ++ ⟨.sendQuit n, true, false, ms, gs⟩ :: r⟩ := reach_step l _ r rfl rfl
    have h2 := reach_quits (compile := compile) (threads := threads) w log k ms gs l r n (q ++ [.quit])
    rw [List.append_assoc] at h2
    exact h1.trans h2

/-- A worker takes a `Quit`; it was counted as waiting. -/
theorem reach_quitting {compile : Compiler σ} {threads : Nat} (w : σ) (log : List Path) (q : List QMsg) (k j : Nat)
    (ms : List Msg) (gs : List String) (l r : List WorkerSt) :
    PoolReaches compile threads ⟨w, log, .quit :: q, k, j, l ++ ⟨.recv, true, false, ms, gs⟩ :: r⟩
      ⟨w, log, q, k, j + 1, l ++ ⟨.quitLoad, true, true, ms, gs⟩ :: r⟩ := by
  refine (reach_step (t := ⟨w, log, q, k, j, l ++ ⟨.gotQuit, true, false, ms, gs⟩ :: r⟩) l _ r rfl rfl).trans ?_
  refine (reach_step (t := ⟨w, log, q, k, j, l ++ ⟨.gotQuit2, true, false, ms, gs⟩ :: r⟩) l _ r rfl rfl).trans ?_
  exact reach_step l _ r rfl rfl

/-- A worker that was not counted as waiting takes a `Quit`. -/
theorem reach_quitting' {compile : Compiler σ} {threads : Nat} (w : σ) (log : List Path) (q : List QMsg) (k j : Nat)
    (ms : List Msg) (gs : List String) (l r : List WorkerSt) :
    PoolReaches compile threads ⟨w, log, .quit :: q, k, j, l ++ ⟨.recv, false, false, ms, gs⟩ :: r⟩
      ⟨w, log, q, k + 1, j + 1, l ++ ⟨.quitLoad, true, true, ms, gs⟩ :: r⟩ := by
  refine (reach_step (t := ⟨w, log, q, k, j, l ++ ⟨.gotQuit, false, false, ms, gs⟩ :: r⟩) l _ r rfl rfl).trans ?_
  refine (reach_step (t := ⟨w, log, q, k + 1, j, l ++ ⟨.gotQuit2, true, false, ms, gs⟩ :: r⟩) l _ r rfl rfl).trans ?_
  exact reach_step l _ r rfl rfl

/-- All waiting workers take a `Quit`. -/
theorem reach_all_quitting {compile : Compiler σ} {threads : Nat} (w : σ) (log : List Path) (q : List QMsg) (k : Nat) :
    ∀ (n j : Nat) (l : List WorkerSt),
    PoolReaches compile threads
      ⟨w, log, List.replicate n .quit ++ q, k, j, l ++ List.replicate n ⟨.recv, true, false, [], []⟩⟩
      ⟨w, log, q, k, j + n, l ++ List.replicate n ⟨.quitLoad, true, true, [], []⟩⟩
  | 0, j, l => PoolReaches.refl _
  | n + 1, j, l => by
    have h1 := reach_quitting (compile := compile) (threads := threads) w log (List.replicate n .quit ++ q) k j [] []
      l (List.replicate n ⟨.recv, true, false, [], []⟩)
    have h2 := reach_all_quitting (compile := compile) (threads := threads) w log q k n (j + 1)
      (l ++ [⟨.quitLoad, true, true, [], []⟩])
    have e : j + 1 + n = j + (n + 1) := by omega
    simp only [List.append_assoc, List.cons_append, List.nil_append, e] at h2
    exact h1.trans h2

/-- When everybody waits and quits, everybody exits. -/
theorem reach_all_exited {compile : Compiler σ} {threads : Nat} (w : σ) (log : List Path) (q : List QMsg) :
    ∀ (r l : List WorkerSt), (∀ x ∈ r, x.pc = .quitLoad) →
    ∃ r', (∀ x ∈ r', x.pc = .exited) ∧ PoolReaches compile threads ⟨w, log, q, threads, threads, l ++ r⟩
      ⟨w, log, q, threads, threads, l ++ r'⟩
  | [], l, _ => ⟨[], by simp, PoolReaches.refl _⟩
  | x :: r, l, h => by
    have hx := h x (List.mem_cons_self ..)
    obtain ⟨pc, b1, b2, ms, gs⟩ := x
    simp only at hx
    subst hx
    obtain ⟨r', hr', h2⟩ := reach_all_exited (compile := compile) (threads := threads) w log q r
      (l ++ [⟨.exited, b1, b2, ms, gs⟩]) (fun y hy => h y (List.mem_cons_of_mem _ hy))
    refine ⟨⟨.exited, b1, b2, ms, gs⟩ :: r', ?_, ?_⟩
    · intro y hy
      rcases List.mem_cons.1 hy with rfl | hy
      · rfl
      · exact hr' y hy
    · simp only [List.append_assoc, List.cons_append, List.nil_append] at h2
      refine PoolReaches.trans ?_ h2
      refine (reach_step (t := ⟨w, log, q, threads, threads, l ++ ⟨.quitLoad2 threads, b1, b2, ms, gs⟩ :: r⟩)
        l _ r rfl rfl).trans ?_
      refine reach_step l _ r rfl ?_
      simp [stepWorker]

theorem dir_listed {d : Path} {sub : List Entry} : ∀ (es : List Entry) (ws : List Work), runEntries es = .ok ws →
    Entry.dir d sub ∈ es → Work.dirEntry (.dir d sub) ∈ ws
  | [], _, _, h => by simp at h
  | e :: es, ws, h, hm => by
    have ih := dir_listed (d := d) (sub := sub) es
    cases e with
    | bad err => simp [runEntries] at h
    | other q =>
      rcases List.mem_cons.1 hm with hm | hm
      · cases hm
      · exact ih ws h hm
    | file q =>
      simp only [runEntries] at h
      cases hr : runEntries es with
      | error err => simp [hr] at h
      | ok ws' =>
        rw [hr] at h
        simp only [Except.ok.injEq] at h
        rcases List.mem_cons.1 hm with hm | hm
        · cases hm
        · rw [← h]
          have := ih ws' hr hm
          split
          · exact List.mem_cons_of_mem _ this
          · exact this
    | dir d' sub' =>
      simp only [runEntries] at h
      cases hr : runEntries es with
      | error err => simp [hr] at h
      | ok ws' =>
        rw [hr] at h
        simp only [Except.ok.injEq] at h
        rw [← h]
        rcases List.mem_cons.1 hm with hm | hm
        · cases hm
          exact List.mem_cons_self ..
        · exact List.mem_cons_of_mem _ (ih ws' hr hm)
    | badDir d' err =>
      simp only [runEntries] at h
      cases hr : runEntries es with
      | error err => simp [hr] at h
      | ok ws' =>
        rw [hr] at h
        simp only [Except.ok.injEq] at h
        rw [← h]
        rcases List.mem_cons.1 hm with hm | hm
        · cases hm
        · exact List.mem_cons_of_mem _ (ih ws' hr hm)

/-- C51, the race can lose any subdirectory: if no compile of a file of the tree panics or hangs, then for
every number of threads above one and every subdirectory of the root with a `.graphql` file in or below it there
is an interleaving after which all workers have exited and exactly the files of that subdirectory were left
out. -/
theorem C51_any_subdirectory_can_be_lost (compile : Compiler σ) (world : σ) (threads : Nat) (ht : 2 ≤ threads)
    (d : Path) (es : List Entry)
    (hall : ∀ w p, FoundIn (.dir d es) p → ∃ gs ms w', compile w p = (.done gs ms, w'))
    (hl : ∀ e, Entry.bad e ∉ es) (d' : Path) (es' : List Entry) (hsub : Entry.dir d' es' ∈ es)
    (p : Path) (hp : FoundIn (.dir d' es') p) :
    ∃ sched s, ReachedBy compile world threads (.dir d es) sched s ∧ s.finished = true ∧
      (s.log ++ filesOf (.dir d' es')).Perm (filesOf (.dir d es)) := by
  have hroot : WorkReturns compile (.dirEntry (.dir d es)) := fun w q hq => hall w q ((mem_filesOf _ _).1 hq)
  obtain ⟨m, rfl⟩ : ∃ m, threads = m + 2 := ⟨threads - 2, by omega⟩
  -- the listings
  have hlist : ∀ es : List Entry, (∀ e, Entry.bad e ∉ es) → ∃ ws, runEntries es = .ok ws := by
    intro es hl
    cases h : runEntries es with
    | ok ws => exact ⟨ws, rfl⟩
    | error err =>
      exfalso
      have := (runEntries_spec es).2 err h
      have h2 : listable es = true := (listable_iff es).2 hl
      rw [(firstBad_none_iff es).2 h2] at this
      cases this
  obtain ⟨ws, hws⟩ := hlist es hl
  have hl' : ∀ e, Entry.bad e ∉ es' := by cases hp <;> assumption
  obtain ⟨ws', hws'⟩ := hlist es' hl'
  have hmem : Work.dirEntry (.dir d' es') ∈ ws := dir_listed es ws hws hsub
  obtain ⟨a, b, hab⟩ := List.append_of_mem hmem
  have hch : children (.dirEntry (.dir d es)) = ws := by simp [children, hws]
  have hret : ∀ y ∈ ws, WorkReturns compile y := by
    have := hroot.children
    rwa [hch] at this
  have hsubret := hret _ hmem
  let sub : Work := .dirEntry (.dir d' es')
  let root : Work := .dirEntry (.dir d es)
  let I : WorkerSt := ⟨.recv, true, false, [], []⟩
  -- worker 0 takes the root, the others find nothing
  have r1 : PoolReaches compile (m + 2) (PoolSt.init world (m + 2) (.dir d es))
      ⟨world, [], [], 0, 0, ⟨.gotWork root, false, false, [], []⟩ :: List.replicate (m + 1) WorkerSt.init⟩ :=
    reach_step [] WorkerSt.init (List.replicate (m + 1) WorkerSt.init) rfl rfl
  have r2 := reach_all_idle (compile := compile) (threads := m + 2) world [] (m + 1) 0 (by omega)
    [⟨.gotWork root, false, false, [], []⟩]
  -- worker 0 lists the root
  have r3 : PoolReaches compile (m + 2)
      ⟨world, [], [], m + 1, 0, ⟨.gotWork root, false, false, [], []⟩ :: List.replicate (m + 1) I⟩
      ⟨world, [], [], m + 1, 0, ⟨.running root, false, false, [], []⟩ :: List.replicate (m + 1) I⟩ :=
    (reach_step (t := ⟨world, [], [], m + 1, 0, ⟨.gotWork2 root, false, false, [], []⟩ :: List.replicate (m + 1) I⟩)
      [] _ _ rfl rfl).trans (reach_step [] _ _ rfl rfl)
  obtain ⟨w4, log4, ms4, gs4, r4⟩ := reach_run (compile := compile) (threads := m + 2) root hroot world [] [] (m + 1)
    [] [] [] (List.replicate (m + 1) I)
  rw [show children root = ws from hch, hab, List.nil_append] at r4
  -- worker 0 works until the subdirectory is next
  obtain ⟨b', w5, log5, ms5, gs5, hb', r5⟩ := reach_front (compile := compile) (threads := m + 2) sub (m + 1) []
    (List.replicate (m + 1) I) a b w4 log4 ms4 gs4
    (fun y hy => hret y (by rw [hab]; exact List.mem_append_left _ hy))
    (fun y hy => hret y (by rw [hab]; exact List.mem_append_right _ (List.mem_cons_of_mem _ hy)))
  -- worker 1 takes it
  have r6 : PoolReaches compile (m + 2)
      ⟨w5, log5, (sub :: b').map .work, m + 1, 0, ⟨.recv, false, false, ms5, gs5⟩ :: List.replicate (m + 1) I⟩
      ⟨w5, log5, b'.map .work, m + 1, 0, ⟨.recv, false, false, ms5, gs5⟩ :: ⟨.gotWork sub, true, false, [], []⟩ ::
        List.replicate m I⟩ :=
    reach_step [⟨.recv, false, false, ms5, gs5⟩] I (List.replicate m I) rfl rfl
  -- worker 0 does the rest
  obtain ⟨w7, log7, ms7, gs7, r7⟩ := reach_drained (compile := compile) (threads := m + 2) (m + 1) []
    (⟨.gotWork sub, true, false, [], []⟩ :: List.replicate m I) (wsum b') b' w5 log5 ms5 gs5 (Nat.le_refl _) hb'
  -- worker 0 finds everybody waiting
  let R : List WorkerSt := ⟨.gotWork sub, true, false, [], []⟩ :: List.replicate m I
  have r8 : PoolReaches compile (m + 2)
      ⟨w7, log7, [], m + 1, 0, ⟨.recv, false, false, ms7, gs7⟩ :: R⟩
      ⟨w7, log7, [], m + 2, 0, ⟨.sendQuit (m + 2), true, false, ms7, gs7⟩ :: R⟩ := by
    refine (reach_step (t := ⟨w7, log7, [], m + 1, 0, ⟨.empty, false, false, ms7, gs7⟩ :: R⟩) [] _ R rfl rfl).trans ?_
    refine (reach_step (t := ⟨w7, log7, [], m + 2, 0, ⟨.empty2, true, false, ms7, gs7⟩ :: R⟩) [] _ R rfl rfl).trans ?_
    refine (reach_step (t := ⟨w7, log7, [], m + 2, 0, ⟨.emptyLoad, true, false, ms7, gs7⟩ :: R⟩) [] _ R rfl rfl).trans ?_
    refine reach_step [] _ R rfl ?_
    simp [stepWorker]
  have r9 := reach_quits (compile := compile) (threads := m + 2) w7 log7 (m + 2) ms7 gs7 [] R (m + 2) []
  -- worker 1 lists the subdirectory
  let W0 : WorkerSt := ⟨.recv, true, false, ms7, gs7⟩
  let Q : List QMsg := List.replicate (m + 2) .quit
  have r10 : PoolReaches compile (m + 2)
      ⟨w7, log7, Q, m + 2, 0, W0 :: R⟩
      ⟨w7, log7, Q, m + 1, 0, W0 :: ⟨.sending ws', false, false, [], []⟩ :: List.replicate m I⟩ := by
    refine (reach_step (t := ⟨w7, log7, Q, m + 1, 0, W0 :: ⟨.gotWork2 sub, false, false, [], []⟩ :: List.replicate m I⟩)
      [W0] _ _ rfl rfl).trans ?_
    refine (reach_step (t := ⟨w7, log7, Q, m + 1, 0, W0 :: ⟨.running sub, false, false, [], []⟩ :: List.replicate m I⟩)
      [W0] _ _ rfl rfl).trans ?_
    refine reach_step [W0] ⟨.running sub, false, false, [], []⟩ (List.replicate m I) rfl ?_
    simp [stepWorker, runWork, Work.run, hws', sub]
  have r11 := reach_sent (compile := compile) (threads := m + 2) w7 log7 (m + 1) false [] [] [W0] (List.replicate m I)
    ws' Q
  -- everybody takes a `Quit`
  have r12 := reach_quitting' (compile := compile) (threads := m + 2) w7 log7
    (List.replicate (m + 1) .quit ++ ws'.map .work) (m + 1) 0 [] [] [W0] (List.replicate m I)
  have r13 := reach_quitting (compile := compile) (threads := m + 2) w7 log7
    (List.replicate m .quit ++ ws'.map .work) (m + 2) 1 ms7 gs7 []
    (⟨.quitLoad, true, true, [], []⟩ :: List.replicate m I)
  have r14 := reach_all_quitting (compile := compile) (threads := m + 2) w7 log7 (ws'.map .work) (m + 2) m 2
    [⟨.quitLoad, true, true, ms7, gs7⟩, ⟨.quitLoad, true, true, [], []⟩]
  rw [show 2 + m = m + 2 by omega] at r14
  obtain ⟨r', hr', r15⟩ := reach_all_exited (compile := compile) (threads := m + 2) w7 log7 (ws'.map .work)
    (⟨.quitLoad, true, true, ms7, gs7⟩ :: ⟨.quitLoad, true, true, [], []⟩ ::
      List.replicate m ⟨.quitLoad, true, true, [], []⟩) [] (by
      intro x hx
      rcases List.mem_cons.1 hx with rfl | hx
      · rfl
      · rcases List.mem_cons.1 hx with rfl | hx
        · rfl
        · rw [(List.mem_replicate.1 hx).2])
  rw [Nat.zero_add] at r2
  have r12' : PoolReaches compile (m + 2)
      ⟨w7, log7, Q ++ ws'.map .work, m + 1, 0, [W0] ++ ⟨.recv, false, false, [], []⟩ :: List.replicate m I⟩ _ := r12
  have all := r1.trans (r2.trans (r3.trans (r4.trans (r5.trans (r6.trans (r7.trans (r8.trans (r9.trans
    (r10.trans (r11.trans (r12'.trans (r13.trans (r14.trans r15)))))))))))))
  obtain ⟨sched, hsched⟩ := all
  refine ⟨sched, _, hsched, ?_, ?_⟩
  · unfold PoolSt.finished
    simp only [List.nil_append, List.all_eq_true]
    intro x hx
    rw [hr' x hx]
  · obtain ⟨lost, h1, _, h2⟩ := reached_conserved (compile := compile) (world := world) hsched
    have h0 : numPanicked (σ := σ) ⟨w7, log7, ws'.map .work, m + 2, m + 2, [] ++ r'⟩ = 0 := by
      apply no_panic_of_finished
      unfold PoolSt.finished
      simp only [List.nil_append, List.all_eq_true]
      intro x hx
      rw [hr' x hx]
    rw [h0] at h1
    rw [List.eq_nil_of_length_eq_zero h1, List.append_nil] at h2
    refine List.Perm.trans ?_ h2
    apply List.Perm.append_left
    rw [(filesOf_dir_ok hws').1]
    apply List.Perm.of_eq
    congr 1
    unfold pending
    have e1 : r'.flatMap heldWork = [] := by
      rw [List.flatMap_eq_nil_iff]
      intro x hx
      simp [heldWork, hr' x hx]
    simp only [List.nil_append, e1, List.append_nil]
    clear hws' h2 r11 r12 r13 r14 r15 r12' hsched r10 h0
    induction ws' with
    | nil => rfl
    | cons x xs ih => simp only [List.map_cons, List.flatMap_cons, queuedWork]; rw [← ih]; rfl

/-- A project with a file and two subdirectories. -/
def Demo.loseEntries : List Entry :=
  [.dir ⟨true, ["r", "a"]⟩ [.file ⟨true, ["r", "a", "x.graphql"]⟩], .file ⟨true, ["r", "t.graphql"]⟩,
    .dir ⟨true, ["r", "b"]⟩ [.file ⟨true, ["r", "b", "y.graphql"]⟩]]

/-- The hypotheses hold of that project and three threads: the file of the second subdirectory can be left
out while the other two are compiled. -/
example : ∃ sched s, ReachedBy Demo.okCompile () 3 (.dir ⟨true, ["r"]⟩ Demo.loseEntries) sched s ∧
    s.finished = true ∧ (s.log ++ [(⟨true, ["r", "b", "y.graphql"]⟩ : Path)]).Perm
      [⟨true, ["r", "a", "x.graphql"]⟩, ⟨true, ["r", "t.graphql"]⟩, ⟨true, ["r", "b", "y.graphql"]⟩] := by
  have hp : FoundIn (.dir ⟨true, ["r", "b"]⟩ [.file ⟨true, ["r", "b", "y.graphql"]⟩])
      ⟨true, ["r", "b", "y.graphql"]⟩ := (mem_filesOf _ _).1 (by decide +kernel)
  have h := C51_any_subdirectory_can_be_lost Demo.okCompile () 3 (by decide) ⟨true, ["r"]⟩ Demo.loseEntries
    (fun _ _ _ => ⟨_, _, _, rfl⟩) (by simp [Demo.loseEntries]) _ _ (by simp [Demo.loseEntries]) _ hp
  have e1 : filesOf (.dir ⟨true, ["r", "b"]⟩ [.file ⟨true, ["r", "b", "y.graphql"]⟩]) =
      [(⟨true, ["r", "b", "y.graphql"]⟩ : Path)] := by decide +kernel
  have e2 : filesOf (.dir ⟨true, ["r"]⟩ Demo.loseEntries) =
      [⟨true, ["r", "a", "x.graphql"]⟩, ⟨true, ["r", "t.graphql"]⟩, ⟨true, ["r", "b", "y.graphql"]⟩] := by
    decide +kernel
  rw [e1, e2] at h
  exact h

end Qlc
