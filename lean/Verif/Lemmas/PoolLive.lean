import Verif.Lemmas.Pool
/-
Liveness of the worker pool: from every state without panics the pool can finish.
-/
set_option autoImplicit false

namespace Qlc
open Spec

variable {σ : Type}

/-! ### Remaining work -/

mutual
/-- Number of entries of a tree. -/
def esize : Entry → Nat
  | .dir _ es => 1 + esizes es
  | _ => 1
/-- Number of entries of a listing. -/
def esizes : List Entry → Nat
  | [] => 0
  | e :: es => esize e + esizes es
end

/-- Size of a piece of work. -/
def wsize : Work → Nat
  | .graphQl _ => 1
  | .dirEntry e => esize e

/-- Remaining work. -/
def wsum (ws : List Work) : Nat := (ws.map wsize).sum

theorem esize_pos (e : Entry) : 0 < esize e := by
  cases e <;> simp [esize] <;> omega

theorem wsize_pos (w : Work) : 0 < wsize w := by
  cases w with
  | graphQl p => simp [wsize]
  | dirEntry e => exact esize_pos e

theorem runEntries_size (es : List Entry) : ∀ ws, runEntries es = .ok ws → wsum ws ≤ esizes es := by
  induction es with
  | nil =>
    intro ws h
    simp only [runEntries, Except.ok.injEq] at h
    subst h
    simp [wsum]
  | cons x es ih =>
    intro ws h
    cases x with
    | bad e => simp [runEntries] at h
    | other p =>
      simp only [runEntries] at h
      have := ih ws h
      simp only [esizes]
      omega
    | file p =>
      simp only [runEntries] at h
      cases hr : runEntries es with
      | error e => simp [hr] at h
      | ok ws' =>
        simp only [hr, Except.ok.injEq] at h
        have := ih ws' hr
        subst h
        split
        · simp only [wsum, List.map_cons, List.sum_cons, wsize, esizes, esize] at this ⊢
          omega
        · simp only [esizes]
          omega
    | dir p es' =>
      simp only [runEntries] at h
      cases hr : runEntries es with
      | error e => simp [hr] at h
      | ok ws' =>
        simp only [hr, Except.ok.injEq] at h
        have := ih ws' hr
        subst h
        simp only [wsum, List.map_cons, List.sum_cons, wsize, esizes] at this ⊢
        omega
    | badDir p e =>
      simp only [runEntries] at h
      cases hr : runEntries es with
      | error e => simp [hr] at h
      | ok ws' =>
        simp only [hr, Except.ok.injEq] at h
        have := ih ws' hr
        subst h
        simp only [wsum, List.map_cons, List.sum_cons, wsize, esizes] at this ⊢
        omega

theorem wsum_perm {a b : List Work} (h : a.Perm b) : wsum a = wsum b := (h.map _).sum_nat

/-- Remaining work never grows. -/
theorem step_wsum_le (compile : Compiler σ) (threads : Nat) (s : PoolSt σ) (i : Nat) :
    wsum (pending (s.step compile threads i)) ≤ wsum (pending s) := by
  cases step_effect compile threads s i with
  | quiet hp hw hl hm hg hn => rw [wsum_perm hp]; exact Nat.le_refl _
  | listed p es ws rest hp hr hp' hw hl hm hg hn =>
    rw [wsum_perm hp, wsum_perm hp']
    have := runEntries_size es ws hr
    simp only [wsum, List.map_append, List.sum_append, List.map_cons, List.sum_cons, wsize, esize]
      at this ⊢
    omega
  | unlisted e err p rest hp hr hp' hw hl hm hg hn =>
    rw [wsum_perm hp, wsum_perm hp']
    simp only [wsum, List.map_cons, List.sum_cons]
    omega
  | compiled p gs ms rest hp hr hp' hl hm hg hn =>
    rw [wsum_perm hp, wsum_perm hp']
    simp only [wsum, List.map_cons, List.sum_cons]
    omega
  | panicked p rest hp hr hp' hl hm hg hn =>
    rw [wsum_perm hp, wsum_perm hp']
    simp only [wsum, List.map_cons, List.sum_cons]
    omega

theorem run_wsum_le (compile : Compiler σ) (threads : Nat) (sched : List Nat) (s : PoolSt σ) :
    wsum (pending (s.run compile threads sched)) ≤ wsum (pending s) := by
  induction sched generalizing s with
  | nil => exact Nat.le_refl _
  | cons i sched ih =>
    rw [run_cons]
    exact Nat.le_trans (ih _) (step_wsum_le compile threads s i)

/-! ### Good states -/

/-- Invariants of the states reachable when every compile returns. -/
structure Good (compile : Compiler σ) (threads : Nat) (root : Entry) (s : PoolSt σ) : Prop where
  inv : PoolInv threads s
  cons : Conserved compile root s
  nopanic : numPanicked s = 0

/-- Every compile of a file of the tree returns. -/
def AllReturn (compile : Compiler σ) (root : Entry) : Prop :=
  ∀ w, ∀ p ∈ filesOf root, ∃ gs ms w', compile w p = (.done gs ms, w')

theorem pending_files {compile : Compiler σ} {root : Entry} {s : PoolSt σ} (h : Conserved compile root s) {p : Path}
    {rest : List Work} (hp : (pending s).Perm (.graphQl p :: rest)) : p ∈ filesOf root := by
  obtain ⟨lost, _, _, hperm⟩ := h
  apply hperm.mem_iff.1
  have : p ∈ (pending s).flatMap workFiles := by
    rw [List.mem_flatMap]
    exact ⟨.graphQl p, hp.mem_iff.2 (List.mem_cons_self ..), by simp [workFiles]⟩
  simp [this]

theorem Good.step {compile : Compiler σ} {threads : Nat} {root : Entry}
    (hall : AllReturn compile root) {s : PoolSt σ} (G : Good compile threads root s) (i : Nat) :
    Good compile threads root (s.step compile threads i) := by
  refine ⟨step_inv compile threads s i G.inv, step_conserved compile threads root s i G.cons, ?_⟩
  have h0 := G.nopanic
  cases step_effect compile threads s i with
  | quiet hp hw hl hm hg hn => omega
  | listed p es ws rest hp hr hp' hw hl hm hg hn => omega
  | unlisted e err p rest hp hr hp' hw hl hm hg hn => omega
  | compiled p gs ms rest hp hr hp' hl hm hg hn => omega
  | panicked p rest hp hr hp' hl hm hg hn =>
    obtain ⟨gs, ms, w', h⟩ := hall s.world p (pending_files G.cons hp)
    rw [h] at hr
    simp at hr

theorem Good.run {compile : Compiler σ} {threads : Nat} {root : Entry}
    (hall : AllReturn compile root) {s : PoolSt σ} (G : Good compile threads root s) (sched : List Nat) :
    Good compile threads root (s.run compile threads sched) :=
  run_invariant compile threads (Good compile threads root) (fun _ i G => G.step hall i) sched s G

/-! ### Running one worker alone -/

/-- Worker `i` can be run, together with no other, to a state in which `P` holds of it. -/
def CanSolo (compile : Compiler σ) (threads : Nat) (s : PoolSt σ) (i : Nat)
    (P : PoolSt σ → WorkerSt → Prop) : Prop :=
  ∃ sched me', (s.run compile threads sched).workers = s.workers.set i me' ∧
    P (s.run compile threads sched) me'

theorem lt_of_getElem? {α : Type} {l : List α} {i : Nat} {a : α} (h : l[i]? = some a) :
    i < l.length := by
  rcases Nat.lt_or_ge i l.length with h' | h'
  · exact h'
  · rw [List.getElem?_eq_none h'] at h; simp at h

theorem CanSolo.here {compile : Compiler σ} {threads : Nat} {s : PoolSt σ} {i : Nat} {me : WorkerSt}
    {P : PoolSt σ → WorkerSt → Prop} (hme : s.workers[i]? = some me) (h : P s me) :
    CanSolo compile threads s i P := by
  refine ⟨[], me, ?_, h⟩
  have hlt := lt_of_getElem? hme
  rw [run_nil]
  rw [List.getElem?_eq_getElem hlt, Option.some.injEq] at hme
  rw [← hme, List.set_getElem_self]

theorem solo_workers (compile : Compiler σ) (threads : Nat) {s : PoolSt σ} {i : Nat} {me : WorkerSt}
    (hme : s.workers[i]? = some me) :
    (s.step compile threads i).workers = s.workers.set i (stepWorker compile threads s me).2 := by
  rw [step_of compile threads s i me hme]

theorem solo_self (compile : Compiler σ) (threads : Nat) {s : PoolSt σ} {i : Nat} {me : WorkerSt}
    (hme : s.workers[i]? = some me) :
    (s.step compile threads i).workers[i]? = some (stepWorker compile threads s me).2 := by
  rw [solo_workers compile threads hme, List.getElem?_set_self (lt_of_getElem? hme)]

theorem solo_queue (compile : Compiler σ) (threads : Nat) {s : PoolSt σ} {i : Nat} {me : WorkerSt}
    (hme : s.workers[i]? = some me) :
    (s.step compile threads i).queue = (stepWorker compile threads s me).1.queue := by
  rw [step_of compile threads s i me hme]

theorem solo_waiting (compile : Compiler σ) (threads : Nat) {s : PoolSt σ} {i : Nat} {me : WorkerSt}
    (hme : s.workers[i]? = some me) :
    (s.step compile threads i).numWaiting = (stepWorker compile threads s me).1.numWaiting := by
  rw [step_of compile threads s i me hme]

theorem CanSolo.step {compile : Compiler σ} {threads : Nat} {s : PoolSt σ} {i : Nat} {me : WorkerSt}
    {P : PoolSt σ → WorkerSt → Prop} (hme : s.workers[i]? = some me)
    (h : CanSolo compile threads (s.step compile threads i) i P) : CanSolo compile threads s i P := by
  obtain ⟨sched, me', h1, h2⟩ := h
  refine ⟨i :: sched, me', ?_, h2⟩
  rw [run_cons, h1, solo_workers compile threads hme, List.set_set]

theorem CanSolo.trans {compile : Compiler σ} {threads : Nat} {s : PoolSt σ} {i : Nat}
    {P Q : PoolSt σ → WorkerSt → Prop} (hi : i < s.workers.length)
    (h : CanSolo compile threads s i P)
    (h' : ∀ s' me', s'.workers[i]? = some me' → P s' me' →
      wsum (pending s') ≤ wsum (pending s) → CanSolo compile threads s' i Q) :
    CanSolo compile threads s i Q := by
  obtain ⟨sched, me', h1, h2⟩ := h
  obtain ⟨sched', me'', h3, h4⟩ := h' (s.run compile threads sched) me'
    (by rw [h1, List.getElem?_set_self hi]) h2 (run_wsum_le compile threads sched s)
  refine ⟨sched ++ sched', me'', ?_, ?_⟩
  · rw [run_append, h3, h1, List.set_set]
  · rw [run_append]; exact h4

/-- The worker is at a place where it holds nothing. -/
def parked (w : WorkerSt) : Prop := w.pc = .recv ∨ w.pc = .quitLoad ∨ w.pc = .exited

theorem sw_gotWork (compile : Compiler σ) (threads : Nat) (s : PoolSt σ) {me : WorkerSt} {w : Work}
    (h : me.pc = .gotWork w) : (stepWorker compile threads s me).2.pc = .gotWork2 w := by
  simp only [stepWorker, h]

theorem sw_gotWork2 (compile : Compiler σ) (threads : Nat) (s : PoolSt σ) {me : WorkerSt} {w : Work}
    (h : me.pc = .gotWork2 w) : (stepWorker compile threads s me).2.pc = .running w := by
  simp only [stepWorker, h]

theorem sw_gotQuit (compile : Compiler σ) (threads : Nat) (s : PoolSt σ) {me : WorkerSt}
    (h : me.pc = .gotQuit) : (stepWorker compile threads s me).2.pc = .gotQuit2 := by
  simp only [stepWorker, h]

theorem sw_gotQuit2 (compile : Compiler σ) (threads : Nat) (s : PoolSt σ) {me : WorkerSt}
    (h : me.pc = .gotQuit2) : (stepWorker compile threads s me).2.pc = .quitLoad := by
  simp only [stepWorker, h]

theorem sw_empty (compile : Compiler σ) (threads : Nat) (s : PoolSt σ) {me : WorkerSt}
    (h : me.pc = .empty) : (stepWorker compile threads s me).2.pc = .empty2 ∧
      (stepWorker compile threads s me).1.queue = s.queue := by
  simp only [stepWorker, h, true_and]
  unfold setWaiting
  split
  · rfl
  · split <;> rfl

theorem sw_empty2 (compile : Compiler σ) (threads : Nat) (s : PoolSt σ) {me : WorkerSt}
    (h : me.pc = .empty2) : (stepWorker compile threads s me).2.pc = .emptyLoad ∧
      (stepWorker compile threads s me).1.queue = s.queue := by
  simp only [stepWorker, h, true_and]
  unfold setQuitting
  split
  · rfl
  · split <;> rfl

theorem park_sending (compile : Compiler σ) (threads : Nat) (i : Nat) (ws : List Work) :
    ∀ (s : PoolSt σ) (me : WorkerSt), s.workers[i]? = some me → me.pc = .sending ws →
      CanSolo compile threads s i (fun _ w => parked w) := by
  induction ws with
  | nil =>
    intro s me hme hpc
    refine .step hme (.here (solo_self compile threads hme) ?_)
    simp only [stepWorker, hpc, parked, true_or]
  | cons w ws ih =>
    intro s me hme hpc
    refine .step hme (ih _ _ (solo_self compile threads hme) ?_)
    simp only [stepWorker, hpc]

theorem park_sendQuit (compile : Compiler σ) (threads : Nat) (i : Nat) (n : Nat) :
    ∀ (s : PoolSt σ) (me : WorkerSt), s.workers[i]? = some me → me.pc = .sendQuit n →
      CanSolo compile threads s i (fun s' w => w.pc = .recv ∧
        s'.queue = s.queue ++ List.replicate n .quit) := by
  induction n with
  | zero =>
    intro s me hme hpc
    refine .step hme (.here (solo_self compile threads hme) ?_)
    rw [solo_queue compile threads hme]
    simp [stepWorker, hpc]
  | succ n ih =>
    intro s me hme hpc
    have := ih _ _ (solo_self compile threads hme) (by simp only [stepWorker, hpc])
    rw [solo_queue compile threads hme] at this
    refine .step hme ?_
    simp only [stepWorker, hpc] at this
    rw [List.replicate_succ]
    simpa using this

theorem run_returns {compile : Compiler σ} {threads : Nat} {root : Entry}
    (hall : AllReturn compile root) {s : PoolSt σ} (G : Good compile threads root s) {i : Nat} {me : WorkerSt}
    {w : Work} (hme : s.workers[i]? = some me) (hpc : me.pc = .running w) :
    ((∃ ws, (stepWorker compile threads s me).2.pc = .sending ws) ∨
      (stepWorker compile threads s me).2.pc = .recv) ∧
    wsum (pending (s.step compile threads i)) < wsum (pending s) := by
  obtain ⟨rest, hp1, hp2⟩ := pending_of hme
  have hheld : heldWork me = [w] := by simp [heldWork, hpc]
  rw [hheld] at hp1
  have hp1' : wsum (pending s) = wsize w + wsum rest := by
    rw [wsum_perm hp1]; simp [wsum]
  have hpos := wsize_pos w
  have hws := solo_workers compile threads hme
  have hqu := solo_queue compile threads hme
  have hp3 := hp2 _ _ hws
  have hrec : ∀ r, (stepWorker compile threads s me) = r → r.2.pc = .recv → r.1.queue = s.queue →
      wsum (pending (s.step compile threads i)) < wsum (pending s) := by
    intro r hr h1 h2
    rw [hr] at hp3 hqu
    have := wsum_perm (hp3 (by rw [hqu, h2]))
    have h0 : heldWork r.2 = [] := by simp [heldWork, h1]
    rw [h0, List.nil_append] at this
    omega
  have hstep : stepWorker compile threads s me = runWork compile s me w := by
    simp only [stepWorker, hpc]
  rw [hstep] at hrec hp3 hqu ⊢
  cases w with
  | graphQl p =>
    obtain ⟨gs, ms, w', hc⟩ := hall s.world p (pending_files G.cons hp1)
    have hr : runWork compile s me (.graphQl p) =
        ({ s with world := w', log := s.log ++ [p] },
          ⟨.recv, me.isWaiting, me.isQuitting, me.messages ++ ms, setExtend me.globals gs⟩) := by
      simp [runWork, Work.run, hc]
    exact ⟨.inr (by rw [hr]), hrec _ rfl (by rw [hr]) (by rw [hr])⟩
  | dirEntry e =>
    have hbad : ∀ err p, ((Work.dirEntry e).run compile s.world) = (.dirIoError err p, s.world) →
        (runWork compile s me (.dirEntry e)).2.pc = .recv ∧
        (runWork compile s me (.dirEntry e)).1.queue = s.queue := by
      intro err p h
      simp [runWork, h]
    cases e with
    | dir p es =>
      cases hr : runEntries es with
      | error err =>
        obtain ⟨a, b⟩ := hbad err p (by simp [Work.run, hr])
        exact ⟨.inr a, hrec _ rfl a b⟩
      | ok ws =>
        have hr' : runWork compile s me (.dirEntry (.dir p es)) =
            (s, ⟨.sending ws, me.isWaiting, me.isQuitting, me.messages, me.globals⟩) := by
          simp [runWork, Work.run, hr]
        refine ⟨.inl ⟨ws, by rw [hr']⟩, ?_⟩
        rw [hr'] at hp3 hqu
        have := wsum_perm (hp3 hqu)
        simp only [heldWork] at this
        have hsz := runEntries_size es ws hr
        simp only [wsum, List.map_append, List.sum_append, wsize, esize] at this hsz hp1' ⊢
        omega
    | badDir p err => obtain ⟨a, b⟩ := hbad err p rfl; exact ⟨.inr a, hrec _ rfl a b⟩
    | bad err => obtain ⟨a, b⟩ := hbad err _ rfl; exact ⟨.inr a, hrec _ rfl a b⟩
    | file p => obtain ⟨a, b⟩ := hbad _ p rfl; exact ⟨.inr a, hrec _ rfl a b⟩
    | other p => obtain ⟨a, b⟩ := hbad _ p rfl; exact ⟨.inr a, hrec _ rfl a b⟩

/-- A worker that is running its work can finish it, which leaves less work. -/
theorem park_running {compile : Compiler σ} {threads : Nat} {root : Entry}
    (hall : AllReturn compile root) {s : PoolSt σ} (G : Good compile threads root s) {i : Nat} {me : WorkerSt}
    {w : Work} (hme : s.workers[i]? = some me) (hpc : me.pc = .running w) :
    CanSolo compile threads s i (fun s' w => parked w ∧ wsum (pending s') < wsum (pending s)) := by
  obtain ⟨h1, h2⟩ := run_returns hall G hme hpc
  have hself := solo_self compile threads hme
  refine .step hme ?_
  rcases h1 with ⟨ws, h1⟩ | h1
  · refine .trans (lt_of_getElem? hself) (park_sending compile threads i ws _ _ hself h1) ?_
    intro s' me' hme' hp hle
    exact .here hme' ⟨hp, by omega⟩
  · exact .here hself ⟨.inl h1, h2⟩

theorem park_quit {compile : Compiler σ} {threads : Nat}
    {s : PoolSt σ} {i : Nat} {me : WorkerSt}
    (hme : s.workers[i]? = some me) (hpc : me.pc = .gotQuit) :
    CanSolo compile threads s i (fun _ w => w.pc = .quitLoad) := by
  refine .step hme ?_
  have h1 := solo_self compile threads hme
  refine .step h1 ?_
  have h2 := solo_self compile threads h1
  exact .here h2 (sw_gotQuit2 compile threads _ (sw_gotQuit compile threads _ hpc))

/-- Every worker can be brought to a place where it holds nothing. -/
theorem park {compile : Compiler σ} {threads : Nat} {root : Entry}
    (hall : AllReturn compile root) {s : PoolSt σ} (G : Good compile threads root s) {i : Nat} {me : WorkerSt}
    (hme : s.workers[i]? = some me) :
    CanSolo compile threads s i (fun _ w => parked w) := by
  have hself := solo_self compile threads hme
  have hsendQuit : ∀ (s : PoolSt σ) (me : WorkerSt) n, s.workers[i]? = some me → me.pc = .sendQuit n →
      CanSolo compile threads s i (fun _ w => parked w) := by
    intro s me n hme hpc
    refine .trans (lt_of_getElem? hme) (park_sendQuit compile threads i n s me hme hpc) ?_
    intro s' me' hme' hp _
    exact .here hme' (.inl hp.1)
  have hemptyLoad : ∀ (s : PoolSt σ) (me : WorkerSt), s.workers[i]? = some me → me.pc = .emptyLoad →
      CanSolo compile threads s i (fun _ w => parked w) := by
    intro s me hme hpc
    have hself := solo_self compile threads hme
    refine .step hme ?_
    by_cases h : s.numWaiting = threads
    · exact hsendQuit _ _ threads hself (by simp [stepWorker, hpc, h])
    · exact .here hself (.inl (by simp [stepWorker, hpc, h]))
  have hempty2 : ∀ (s : PoolSt σ) (me : WorkerSt), s.workers[i]? = some me → me.pc = .empty2 →
      CanSolo compile threads s i (fun _ w => parked w) := by
    intro s me hme hpc
    have hself := solo_self compile threads hme
    exact .step hme (hemptyLoad _ _ hself (sw_empty2 compile threads s hpc).1)
  have hrunning : ∀ (s : PoolSt σ) (me : WorkerSt) w, Good compile threads root s → s.workers[i]? = some me →
      me.pc = .running w → CanSolo compile threads s i (fun _ w => parked w) := by
    intro s me w G hme hpc
    refine .trans (lt_of_getElem? hme) (park_running hall G hme hpc) ?_
    intro s' me' hme' hp _
    exact .here hme' hp.1
  have hgotWork2 : ∀ (s : PoolSt σ) (me : WorkerSt) w, Good compile threads root s → s.workers[i]? = some me →
      me.pc = .gotWork2 w → CanSolo compile threads s i (fun _ w => parked w) := by
    intro s me w G hme hpc
    have hself := solo_self compile threads hme
    exact .step hme (hrunning _ _ w (G.step hall i) hself (sw_gotWork2 compile threads s hpc))
  cases hpc : me.pc with
  | recv => exact .here hme (.inl hpc)
  | gotWork w =>
    exact .step hme (hgotWork2 _ _ w (G.step hall i) hself (sw_gotWork compile threads s hpc))
  | gotWork2 w => exact hgotWork2 _ _ w G hme hpc
  | running w => exact hrunning _ _ w G hme hpc
  | sending ws => exact park_sending compile threads i ws s me hme hpc
  | gotQuit =>
    refine .trans (lt_of_getElem? hme) (park_quit hme hpc) ?_
    intro s' me' hme' hp _
    exact .here hme' (.inr (.inl hp))
  | gotQuit2 =>
    exact .step hme (.here hself (.inr (.inl (sw_gotQuit2 compile threads s hpc))))
  | quitLoad => exact .here hme (.inr (.inl hpc))
  | quitLoad2 n =>
    refine .step hme (.here hself ?_)
    simp only [stepWorker, hpc, parked]
    split
    · exact .inl rfl
    · split
      · exact .inr (.inr rfl)
      · exact .inr (.inl rfl)
  | empty => exact .step hme (hempty2 _ _ hself (sw_empty compile threads s hpc).1)
  | empty2 => exact hempty2 _ _ hme hpc
  | emptyLoad => exact hemptyLoad _ _ hme hpc
  | sendQuit n => exact hsendQuit _ _ n hme hpc
  | exited => exact .here hme (.inr (.inr hpc))
  | panicked =>
    exfalso
    have h0 := G.nopanic
    have := countW_ge (f := isPanicked) hme
    unfold numPanicked at h0
    simp [isPanicked, hpc, b2n] at this
    omega

/-! ### All workers -/

/-- All workers hold nothing. -/
def AllParked (s : PoolSt σ) : Prop := ∀ w ∈ s.workers, parked w

theorem park_all {compile : Compiler σ} {threads : Nat} {root : Entry}
    (hall : AllReturn compile root) {s : PoolSt σ} (G : Good compile threads root s) :
    ∃ sched, AllParked (s.run compile threads sched) := by
  have key : ∀ k, k ≤ threads → ∃ sched, ∀ j < k, ∀ w,
      (s.run compile threads sched).workers[j]? = some w → parked w := by
    intro k
    induction k with
    | zero => intro _; exact ⟨[], fun j hj => absurd hj (by omega)⟩
    | succ k ih =>
      intro hk
      obtain ⟨sched, h⟩ := ih (by omega)
      have G' := G.run hall sched
      have hlt : k < (s.run compile threads sched).workers.length := by rw [G'.inv.len]; omega
      obtain ⟨sched', me', h1, h2⟩ := park hall G' (List.getElem?_eq_getElem hlt)
      refine ⟨sched ++ sched', ?_⟩
      intro j hj w hw
      rw [run_append, h1] at hw
      by_cases hjk : j = k
      · subst hjk
        rw [List.getElem?_set_self hlt, Option.some.injEq] at hw
        rw [← hw]; exact h2
      · rw [List.getElem?_set_ne (by omega)] at hw
        exact h j (by omega) w hw
  obtain ⟨sched, h⟩ := key threads (Nat.le_refl _)
  refine ⟨sched, ?_⟩
  intro w hw
  obtain ⟨j, hj, hjw⟩ := List.mem_iff_getElem.1 hw
  have := (G.run hall sched).inv.len
  exact h j (by omega) w (by rw [List.getElem?_eq_getElem hj, hjw])

/-- Workers about to receive. -/
def atRecv (w : WorkerSt) : Bool := match w.pc with | .recv => true | _ => false

theorem atRecv_iff (w : WorkerSt) : atRecv w = true ↔ w.pc = .recv := by
  unfold atRecv
  cases w.pc <;> simp

/-- Workers that are not waiting. -/
def notWaiting (w : WorkerSt) : Bool := !w.isWaiting

/-- Workers in the quit loop. -/
def atQuitLoad (w : WorkerSt) : Bool := match w.pc with | .quitLoad => true | _ => false

theorem atQuitLoad_iff (w : WorkerSt) : atQuitLoad w = true ↔ w.pc = .quitLoad := by
  unfold atQuitLoad
  cases w.pc <;> simp

theorem countW_zero (f : WorkerSt → Bool) (l : List WorkerSt) :
    countW f l = 0 ↔ ∀ w ∈ l, f w = false := by
  rw [countW_eq_filter, List.length_eq_zero_iff, List.filter_eq_nil_iff]
  simp

/-- A parked worker that is not about to receive has both flags set. -/
theorem parked_flags {w : WorkerSt} (hf : flagsOk w) (hp : parked w) (hr : atRecv w = false) :
    w.isWaiting = true ∧ w.isQuitting = true := by
  rcases hp with hp | hp | hp
  · rw [(atRecv_iff w).2 hp] at hr; simp at hr
  · simpa [flagsOk, hp] using hf
  · simpa [flagsOk, hp] using hf

/-- With nobody about to receive, all workers can leave the quit loop. -/
theorem finish_quitting {compile : Compiler σ} {threads : Nat} {root : Entry}
    (hall : AllReturn compile root) (n : Nat) : ∀ (s : PoolSt σ), Good compile threads root s → AllParked s →
    countW atRecv s.workers = 0 → countW atQuitLoad s.workers = n →
    ∃ sched, (s.run compile threads sched).finished = true := by
  induction n with
  | zero =>
    intro s G hp hr hq
    refine ⟨[], ?_⟩
    rw [countW_zero] at hr hq
    unfold PoolSt.finished
    rw [run_nil, List.all_eq_true]
    intro w hw
    rcases hp w hw with h | h | h
    · have := hr w hw; rw [(atRecv_iff w).2 h] at this; simp at this
    · have := hq w hw; rw [(atQuitLoad_iff w).2 h] at this; simp at this
    · simp [h]
  | succ n ih =>
    intro s G hp hr hq
    have hex : ∃ w ∈ s.workers, atQuitLoad w = true := by
      by_contra hcon
      have : countW atQuitLoad s.workers = 0 := by
        rw [countW_zero]
        intro w hw
        cases h : atQuitLoad w with
        | false => rfl
        | true => exact absurd ⟨w, hw, h⟩ hcon
      omega
    obtain ⟨w, hw, hwq⟩ := hex
    obtain ⟨i, hi, hiw⟩ := List.mem_iff_getElem.1 hw
    have hme : s.workers[i]? = some w := by rw [List.getElem?_eq_getElem hi, hiw]
    have hpc := (atQuitLoad_iff w).1 hwq
    have hflags : ∀ w ∈ s.workers, w.isWaiting = true ∧ w.isQuitting = true := fun w hw =>
      parked_flags (G.inv.flags w hw) (hp w hw) ((countW_zero _ _).1 hr w hw)
    have hnw : s.numWaiting = threads := by
      rw [G.inv.waiting, ← G.inv.len]
      exact (countW_full _ _).2 (fun w hw => (hflags w hw).1)
    have hnq : s.numQuitting = threads := by
      rw [G.inv.quitting, ← G.inv.len]
      exact (countW_full _ _).2 (fun w hw => (hflags w hw).2)
    have e1 : (stepWorker compile threads s w) = (s, { w with pc := .quitLoad2 threads }) := by
      simp [stepWorker, hpc, hnw]
    have e2 : ∀ s' : PoolSt σ, s'.numQuitting = threads →
        stepWorker compile threads s' { w with pc := .quitLoad2 threads } =
          (s', { w with pc := .exited }) := by
      intro s' h
      simp [stepWorker, h]
    have h1 := solo_self compile threads hme
    rw [e1] at h1
    have hnq1 : (s.step compile threads i).numQuitting = threads := by
      rw [step_of compile threads s i w hme, e1]
      exact hnq
    have hws2 : ((s.step compile threads i).step compile threads i).workers
        = s.workers.set i { w with pc := .exited } := by
      rw [solo_workers compile threads h1, e2 _ hnq1, solo_workers compile threads hme, List.set_set]
    have hrun : s.run compile threads [i, i]
        = (s.step compile threads i).step compile threads i := rfl
    obtain ⟨sched, h⟩ := ih _ (G.run hall [i, i]) (by
        intro x hx
        rw [hrun, hws2] at hx
        rcases mem_set_cases hx with rfl | hx
        · exact .inr (.inr rfl)
        · exact hp x hx) (by
        rw [hrun, hws2]
        have := countW_set (f := atRecv) hme { w with pc := .exited }
        simp [atRecv, b2n, hpc] at this
        omega) (by
        rw [hrun, hws2]
        have := countW_set (f := atQuitLoad) hme { w with pc := .exited }
        simp [atQuitLoad, b2n, hpc] at this
        omega)
    exact ⟨[i, i] ++ sched, by rw [run_append]; exact h⟩

/-- What one round of a worker that is about to receive achieves. -/
theorem round {compile : Compiler σ} {threads : Nat} {root : Entry}
    (hall : AllReturn compile root) {s : PoolSt σ} (G : Good compile threads root s) {i : Nat} {me : WorkerSt}
    (hme : s.workers[i]? = some me) (hpc : me.pc = .recv)
    (hchoice : me.isWaiting = false ∨ ∀ w ∈ s.workers, w.isWaiting = true) :
    CanSolo compile threads s i (fun s' w => parked w ∧ (wsum (pending s') < wsum (pending s) ∨
      w.pc = .quitLoad ∨ (w.pc = .recv ∧ me.isWaiting = false ∧ w.isWaiting = true))) := by
  have hself := solo_self compile threads hme
  -- taking a quit from the head of the queue
  have hquit : ∀ (s : PoolSt σ) (me : WorkerSt) q, s.workers[i]? = some me → me.pc = .recv →
      s.queue = .quit :: q → CanSolo compile threads s i (fun _ w => w.pc = .quitLoad) := by
    intro s me q hme hpc hq
    have hself := solo_self compile threads hme
    refine .step hme (park_quit hself ?_)
    simp only [stepWorker, hpc, hq]
  cases hq : s.queue with
  | cons m q =>
    cases m with
    | work w =>
      refine .step hme ?_
      have hpc1 : (stepWorker compile threads s me).2.pc = .gotWork w := by
        simp only [stepWorker, hpc, hq]
      have h2 := solo_self compile threads hself
      have hpc2 := sw_gotWork compile threads (s.step compile threads i) hpc1
      refine .step hself ?_
      have h3 := solo_self compile threads h2
      have hpc3 := sw_gotWork2 compile threads ((s.step compile threads i).step compile threads i) hpc2
      refine .step h2 ?_
      have G3 := ((G.step hall i).step hall i).step hall i
      refine .trans (lt_of_getElem? h3) (park_running hall G3 h3 hpc3) ?_
      intro s' me' hme' hp _
      refine .here hme' ⟨hp.1, .inl ?_⟩
      have a1 := step_wsum_le compile threads s i
      have a2 := step_wsum_le compile threads (s.step compile threads i) i
      have a3 := step_wsum_le compile threads ((s.step compile threads i).step compile threads i) i
      have := hp.2
      omega
    | quit =>
      refine .trans (lt_of_getElem? hme) (hquit s me q hme hpc hq) ?_
      intro s' me' hme' hp _
      exact .here hme' ⟨.inr (.inl hp), .inr (.inl hp)⟩
  | nil =>
    have hpc1 : (stepWorker compile threads s me).2.pc = .empty := by
      simp only [stepWorker, hpc, hq]
    have hq1 : (s.step compile threads i).queue = [] := by
      rw [solo_queue compile threads hme]
      simp only [stepWorker, hpc, hq]
    have h2 := solo_self compile threads hself
    have hpc2 := sw_empty compile threads (s.step compile threads i) hpc1
    have h3 := solo_self compile threads h2
    have hpc3 := sw_empty2 compile threads
      ((s.step compile threads i).step compile threads i) hpc2.1
    have hq2 : ((s.step compile threads i).step compile threads i).queue = [] := by
      rw [solo_queue compile threads hself, hpc2.2, hq1]
    have hq3 : (((s.step compile threads i).step compile threads i).step compile threads i).queue
        = [] := by
      rw [solo_queue compile threads h2, hpc3.2, hq2]
    have G3 := ((G.step hall i).step hall i).step hall i
    refine .step hme (.step hself (.step h2 ?_))
    generalize hs3 : ((s.step compile threads i).step compile threads i).step compile threads i = s3
      at *
    generalize (stepWorker compile threads ((s.step compile threads i).step compile threads i)
      (stepWorker compile threads (s.step compile threads i)
        (stepWorker compile threads s me).2).2).2 = me3 at *
    have hf3 : flagsOk me3 := G3.inv.flags _ (List.mem_of_getElem? h3)
    simp only [flagsOk, hpc3.1] at hf3
    have h4 := solo_self compile threads h3
    by_cases hn : s3.numWaiting = threads
    · -- everybody waits: send quits and take one
      have hpc4 : (stepWorker compile threads s3 me3).2.pc = .sendQuit threads := by
        simp [stepWorker, hpc3.1, hn]
      have hq4 : (s3.step compile threads i).queue = [] := by
        rw [solo_queue compile threads h3]
        simp [stepWorker, hpc3.1, hn, hq3]
      have hthreads : 0 < threads := by
        have := lt_of_getElem? hme
        have := G.inv.len
        omega
      refine .step h3 (.trans (lt_of_getElem? h4)
        (park_sendQuit compile threads i threads _ _ h4 hpc4) ?_)
      intro s' me' hme' hp _
      have hq5 : s'.queue = .quit :: List.replicate (threads - 1) .quit := by
        rw [hp.2, hq4, List.nil_append, ← List.replicate_succ]
        congr 1
        omega
      refine .trans (lt_of_getElem? hme') (hquit s' me' _ hme' hp.1 hq5) ?_
      intro s'' me'' hme'' hp' _
      exact .here hme'' ⟨.inr (.inl hp'), .inr (.inl hp')⟩
    · have hpc4 : (stepWorker compile threads s3 me3).2.pc = .recv ∧
          (stepWorker compile threads s3 me3).2.isWaiting = true := by
        simp [stepWorker, hpc3.1, hn, hf3.1]
      refine .step h3 (.here h4 ⟨.inl hpc4.1, .inr (.inr ⟨hpc4.1, ?_, hpc4.2⟩)⟩)
      rcases hchoice with h | h
      · exact h
      · exfalso
        apply hn
        have hw3 : s3.workers = s.workers.set i me3 := by
          have hlt := lt_of_getElem? hme
          have e := h3
          rw [← hs3, solo_workers compile threads h2, solo_workers compile threads hself,
            solo_workers compile threads hme, List.set_set, List.set_set] at e ⊢
          rw [List.getElem?_set_self hlt, Option.some.injEq] at e
          rw [e]
        rw [G3.inv.waiting, ← G3.inv.len]
        refine (countW_full _ _).2 ?_
        intro w hw
        rw [hw3] at hw
        rcases mem_set_cases hw with rfl | hw
        · exact hf3.1
        · exact h w hw

theorem exists_of_count {f : WorkerSt → Bool} {l : List WorkerSt} (h : countW f l ≠ 0) :
    ∃ (i : Nat) (w : WorkerSt), l[i]? = some w ∧ f w = true := by
  by_contra hcon
  apply h
  rw [countW_zero]
  intro w hw
  obtain ⟨i, hi, hiw⟩ := List.mem_iff_getElem.1 hw
  cases hf : f w with
  | false => rfl
  | true => exact absurd ⟨i, w, by rw [List.getElem?_eq_getElem hi, hiw], hf⟩ hcon

/-- A round for a well-chosen worker makes progress. -/
theorem progress {compile : Compiler σ} {threads : Nat} {root : Entry}
    (hall : AllReturn compile root) {s : PoolSt σ} (G : Good compile threads root s) (hp : AllParked s)
    (hr : countW atRecv s.workers ≠ 0) :
    ∃ sched, AllParked (s.run compile threads sched) ∧
      (wsum (pending (s.run compile threads sched)) < wsum (pending s) ∨
        (wsum (pending (s.run compile threads sched)) ≤ wsum (pending s) ∧
          countW notWaiting (s.run compile threads sched).workers
            + countW atRecv (s.run compile threads sched).workers
          < countW notWaiting s.workers + countW atRecv s.workers)) := by
  have hpick : ∃ (i : Nat) (me : WorkerSt), s.workers[i]? = some me ∧ me.pc = .recv ∧
      (me.isWaiting = false ∨ ∀ w ∈ s.workers, w.isWaiting = true) := by
    by_cases h : countW notWaiting s.workers = 0
    · obtain ⟨i, me, h1, h2⟩ := exists_of_count hr
      refine ⟨i, me, h1, (atRecv_iff me).1 h2, .inr ?_⟩
      intro w hw
      have := (countW_zero _ _).1 h w hw
      simpa [notWaiting] using this
    · obtain ⟨i, me, h1, h2⟩ := exists_of_count h
      have hnw : me.isWaiting = false := by simpa [notWaiting] using h2
      refine ⟨i, me, h1, ?_, .inl hnw⟩
      have hmem := List.mem_of_getElem? h1
      have hf := G.inv.flags me hmem
      rcases hp me hmem with h | h | h
      · exact h
      · simp [flagsOk, h, hnw] at hf
      · simp [flagsOk, h, hnw] at hf
  obtain ⟨i, me, hme, hpc, hch⟩ := hpick
  obtain ⟨sched, me', h1, h2, h3⟩ := round hall G hme hpc hch
  refine ⟨sched, ?_, ?_⟩
  · intro w hw
    rw [h1] at hw
    rcases mem_set_cases hw with rfl | hw
    · exact h2
    · exact hp w hw
  · rcases h3 with h3 | h3 | h3
    · exact .inl h3
    · refine .inr ⟨run_wsum_le compile threads sched s, ?_⟩
      have G' := G.run hall sched
      have hf : flagsOk me' := G'.inv.flags me' (by
        rw [h1]
        exact List.mem_of_getElem? (List.getElem?_set_self (lt_of_getElem? hme)))
      simp only [flagsOk, h3] at hf
      rw [h1]
      have c1 := countW_set (f := notWaiting) hme me'
      have c2 := countW_set (f := atRecv) hme me'
      simp [notWaiting, hf, b2n] at c1
      simp [atRecv, hpc, h3, b2n] at c2
      omega
    · refine .inr ⟨run_wsum_le compile threads sched s, ?_⟩
      rw [h1]
      have c1 := countW_set (f := notWaiting) hme me'
      have c2 := countW_set (f := atRecv) hme me'
      simp [notWaiting, h3, b2n] at c1
      simp [atRecv, hpc, h3, b2n] at c2
      omega

theorem finish_parked {compile : Compiler σ} {threads : Nat} {root : Entry}
    (hall : AllReturn compile root) (m : Nat) : ∀ (n : Nat) (s : PoolSt σ), Good compile threads root s →
    AllParked s → wsum (pending s) ≤ m →
    countW notWaiting s.workers + countW atRecv s.workers ≤ n →
    ∃ sched, (s.run compile threads sched).finished = true := by
  induction m using Nat.strongRecOn with
  | _ m ihm =>
    intro n
    induction n using Nat.strongRecOn with
    | _ n ihn =>
      intro s G hp hm hn
      by_cases hr : countW atRecv s.workers = 0
      · exact finish_quitting hall _ s G hp hr rfl
      · obtain ⟨sched, h1, h2⟩ := progress hall G hp hr
        have G' := G.run hall sched
        rcases h2 with h2 | ⟨h2, h3⟩
        · obtain ⟨sched', h⟩ := ihm _ (Nat.lt_of_lt_of_le h2 hm) _ _ G' h1 (Nat.le_refl _)
            (Nat.le_refl _)
          exact ⟨sched ++ sched', by rw [run_append]; exact h⟩
        · obtain ⟨sched', h⟩ := ihn _ (Nat.lt_of_lt_of_le h3 hn) _ G' h1 (by omega) (Nat.le_refl _)
          exact ⟨sched ++ sched', by rw [run_append]; exact h⟩

theorem can_finish {compile : Compiler σ} {threads : Nat} {root : Entry}
    (hall : AllReturn compile root) {s : PoolSt σ} (G : Good compile threads root s) :
    ∃ sched, (s.run compile threads sched).finished = true := by
  obtain ⟨sched, h⟩ := park_all hall G
  obtain ⟨sched', h'⟩ := finish_parked hall _ _ _ (G.run hall sched) h (Nat.le_refl _) (Nat.le_refl _)
  exact ⟨sched ++ sched', by rw [run_append]; exact h'⟩

theorem init_good (compile : Compiler σ) (world : σ) (threads : Nat) (root : Entry) :
    Good compile threads root (PoolSt.init world threads root) :=
  ⟨init_inv world threads root, init_conserved compile world threads root, by
    simp [numPanicked, PoolSt.init, countW, WorkerSt.init, isPanicked, b2n]⟩

end Qlc
