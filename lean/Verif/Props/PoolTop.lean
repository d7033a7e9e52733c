import Verif.Props.PoolRace
/-
C51: the race never loses a file of the root directory itself.
-/
set_option autoImplicit false

namespace Qlc
open Spec

variable {σ : Type}

/-- What kinds of work a worker has: `H` in its hands, `Q` still to be sent. -/
def kinds (Q H : Work → Prop) : PC → Prop
  | .gotWork x | .gotWork2 x | .running x => H x
  | .sending ws => ∀ x ∈ ws, Q x
  | _ => True

theorem stepWorker_kinds {Q H : Work → Prop} (hQH : ∀ x, Q x → H x)
    (hlist : ∀ d es ws, H (.dirEntry (.dir d es)) → runEntries es = .ok ws → ∀ x ∈ ws, Q x)
    (compile : Compiler σ) (threads : Nat) (s : PoolSt σ) (me : WorkerSt)
    (hq : ∀ x, .work x ∈ s.queue → Q x) (hme : kinds Q H me.pc) :
    (∀ x, .work x ∈ (stepWorker compile threads s me).1.queue → Q x) ∧
      kinds Q H (stepWorker compile threads s me).2.pc := by
  cases hpc : me.pc with
  | recv =>
    cases hqq : s.queue with
    | nil => simp [stepWorker, hpc, hqq, kinds]
    | cons m q =>
      rw [hqq] at hq
      cases m with
      | work w =>
        simp only [stepWorker, hpc, hqq, kinds]
        exact ⟨fun x hx => hq x (List.mem_cons_of_mem _ hx), hQH w (hq w (List.mem_cons_self ..))⟩
      | quit =>
        simp only [stepWorker, hpc, hqq, kinds, and_true]
        exact fun x hx => hq x (List.mem_cons_of_mem _ hx)
  | gotWork w =>
    rw [hpc] at hme
    simp only [stepWorker, hpc, kinds, setWaiting_queue]
    exact ⟨hq, hme⟩
  | gotWork2 w =>
    rw [hpc] at hme
    simp only [stepWorker, hpc, kinds, (setQuitting_queue false s me).1]
    exact ⟨hq, hme⟩
  | running w =>
    rw [hpc] at hme
    have hr : stepWorker compile threads s me = runWork compile s me w := by
      simp only [stepWorker, hpc]
    rw [hr, (runWork_shape compile s me w hpc).1]
    refine ⟨hq, ?_⟩
    unfold runWork
    cases w with
    | graphQl q =>
      simp only [Work.run]
      rcases compile s.world q with ⟨r, w'⟩
      cases r <;> simp [kinds, hpc]
      exact hme
    | dirEntry e =>
      cases e with
      | dir d es =>
        simp only [Work.run]
        cases hre : runEntries es with
        | ok ws => exact hlist d es ws hme hre
        | error e => trivial
      | _ => trivial
  | sending ws =>
    rw [hpc] at hme
    cases ws with
    | nil => simp only [stepWorker, hpc, kinds, and_true]; exact hq
    | cons w ws =>
      simp only [stepWorker, hpc, kinds]
      refine ⟨?_, fun x hx => hme x (List.mem_cons_of_mem _ hx)⟩
      intro x hx
      rcases List.mem_append.1 hx with hx | hx
      · exact hq x hx
      · simp only [List.mem_singleton, QMsg.work.injEq] at hx
        rw [hx]
        exact hme w (List.mem_cons_self ..)
  | gotQuit => simp only [stepWorker, hpc, kinds, setWaiting_queue, and_true]; exact hq
  | gotQuit2 => simp only [stepWorker, hpc, kinds, (setQuitting_queue true s me).1, and_true]; exact hq
  | quitLoad => simp only [stepWorker, hpc, kinds, and_true]; exact hq
  | quitLoad2 n =>
    simp only [stepWorker, hpc]
    split
    · exact ⟨hq, trivial⟩
    · split <;> exact ⟨hq, trivial⟩
  | empty => simp only [stepWorker, hpc, kinds, setWaiting_queue, and_true]; exact hq
  | empty2 => simp only [stepWorker, hpc, kinds, (setQuitting_queue false s me).1, and_true]; exact hq
  | emptyLoad =>
    simp only [stepWorker, hpc]
    split <;> exact ⟨hq, trivial⟩
  | sendQuit n =>
    cases n with
    | zero => simp only [stepWorker, hpc, kinds, and_true]; exact hq
    | succ n =>
      simp only [stepWorker, hpc, kinds, and_true]
      intro x hx
      rcases List.mem_append.1 hx with hx | hx
      · exact hq x hx
      · simp at hx
  | exited => simp only [stepWorker, hpc, kinds, and_true]; exact hq
  | panicked => simp only [stepWorker, hpc, kinds, and_true]; exact hq

theorem gotWork_from_queue {compile : Compiler σ} {threads : Nat} {s : PoolSt σ} {me : WorkerSt} {x : Work}
    (h : (stepWorker compile threads s me).2.pc = .gotWork x) : .work x ∈ s.queue := by
  cases hpc : me.pc with
  | recv =>
    cases hqq : s.queue with
    | nil => simp [stepWorker, hpc, hqq] at h
    | cons m q =>
      cases m with
      | work w => simp [stepWorker, hpc, hqq] at h; rw [h]; exact List.mem_cons_self ..
      | quit => simp [stepWorker, hpc, hqq] at h
  | running w =>
    simp only [stepWorker, hpc] at h
    rcases (runWork_shape compile s me w hpc).2 with h' | ⟨ws, h'⟩ | h' | h' <;> rw [h'] at h <;> cases h
  | quitLoad2 n =>
    simp only [stepWorker, hpc] at h
    split at h
    · simp at h
    · split at h <;> simp at h
  | emptyLoad =>
    simp only [stepWorker, hpc] at h
    split at h <;> simp at h
  | sending ws => cases ws <;> simp [stepWorker, hpc] at h
  | sendQuit n => cases n <;> simp [stepWorker, hpc] at h
  | exited => simp [stepWorker, hpc] at h
  | panicked => simp [stepWorker, hpc] at h
  | gotWork w => simp [stepWorker, hpc] at h
  | gotWork2 w => simp [stepWorker, hpc] at h
  | gotQuit => simp [stepWorker, hpc] at h
  | gotQuit2 => simp [stepWorker, hpc] at h
  | quitLoad => simp [stepWorker, hpc] at h
  | empty => simp [stepWorker, hpc] at h
  | empty2 => simp [stepWorker, hpc] at h

/-- Work that does not lead to `p`. -/
def Free (p : Path) (x : Work) : Prop := p ∉ workFiles x

/-- Work whose result is not more work that leads to `p`. -/
def Small (p : Path) (x : Work) : Prop := x = .graphQl p ∨ Free p x

theorem files_of_listing {es : List Entry} {ws : List Work} (h : runEntries es = .ok ws) :
    listable es = true ∧ ws.flatMap workFiles = filesOfList es :=
  ⟨((runEntries_spec es).1 ws h).1, ((runEntries_spec es).1 ws h).2.1⟩

/-- Listing a directory that does not lead to `p`. -/
theorem free_listing {p d : Path} {es : List Entry} {ws : List Work} (hf : Free p (.dirEntry (.dir d es)))
    (h : runEntries es = .ok ws) : ∀ x ∈ ws, Free p x := by
  obtain ⟨h1, h2⟩ := files_of_listing h
  intro x hx hp
  apply hf
  show p ∈ filesOf (.dir d es)
  rw [filesOf, if_pos h1, ← h2]
  exact List.mem_flatMap.2 ⟨x, hx, hp⟩

/-- Listing the root directory. -/
theorem small_listing {p : Path} : ∀ (es : List Entry) (ws : List Work),
    (∀ sub ∈ es, p ∉ filesOf sub) → runEntries es = .ok ws → ∀ x ∈ ws, Small p x
  | [], ws, _, h => by simp only [runEntries] at h; cases h; simp
  | e :: es, ws, hs, h => by
    have ih := small_listing (p := p) es
    have hs' : ∀ sub ∈ es, p ∉ filesOf sub := fun sub hsub => hs sub (List.mem_cons_of_mem _ hsub)
    have he := hs e (List.mem_cons_self ..)
    cases e with
    | bad err => simp [runEntries] at h
    | other q => exact ih ws hs' h
    | file q =>
      simp only [runEntries] at h
      cases hr : runEntries es with
      | error err => simp [hr] at h
      | ok ws' =>
        rw [hr] at h
        simp only [Except.ok.injEq] at h
        intro x hx
        rw [← h] at hx
        split at hx
        · rcases List.mem_cons.1 hx with rfl | hx
          · by_cases hq : q = p
            · exact .inl (by rw [hq])
            · right
              show p ∉ [q]
              simpa using fun h => hq h.symm
          · exact ih ws' hs' hr x hx
        · exact ih ws' hs' hr x hx
    | dir d sub =>
      simp only [runEntries] at h
      cases hr : runEntries es with
      | error err => simp [hr] at h
      | ok ws' =>
        rw [hr] at h
        simp only [Except.ok.injEq] at h
        intro x hx
        rw [← h] at hx
        rcases List.mem_cons.1 hx with rfl | hx
        · exact .inr he
        · exact ih ws' hs' hr x hx
    | badDir d err =>
      simp only [runEntries] at h
      cases hr : runEntries es with
      | error err => simp [hr] at h
      | ok ws' =>
        rw [hr] at h
        simp only [Except.ok.injEq] at h
        intro x hx
        rw [← h] at hx
        rcases List.mem_cons.1 hx with rfl | hx
        · exact .inr he
        · exact ih ws' hs' hr x hx

/-- The course of a run, as far as the file `p` of the root directory is concerned. -/
inductive Course (p : Path) (root : Entry) (s : PoolSt σ) : Prop where
  /-- Nothing has happened. -/
  | fresh (hq : s.queue = [.work (.dirEntry root)])
      (hw : ∀ w ∈ s.workers, w.pc = .recv ∧ w.isWaiting = false)
  /-- Nobody has decided to quit. -/
  | going (hev : ¬ quitEvidence s) (hact : s.queue ≠ [] → ∃ w ∈ s.workers, active w)
      (hq : ∀ x, .work x ∈ s.queue → Small p x)
      (hw : ∀ w ∈ s.workers, kinds (Small p) (fun x => Small p x ∨ x = .dirEntry root) w.pc)
      (hroot : ∀ w ∈ s.workers, w.pc = .gotWork (.dirEntry root) → w.isWaiting = false)
  /-- `p` has been taken off the channel. -/
  | taken (hq : ∀ x, .work x ∈ s.queue → Free p x)
      (hw : ∀ w ∈ s.workers, kinds (Free p) (Small p) w.pc)

theorem taken_step {p : Path} {root : Entry} {compile : Compiler σ} {threads : Nat} {s : PoolSt σ} (i : Nat)
    (hq : ∀ x, .work x ∈ s.queue → Free p x) (hw : ∀ w ∈ s.workers, kinds (Free p) (Small p) w.pc) :
    Course p root (s.step compile threads i) := by
  rcases step_cases compile threads s i with h0 | ⟨me, hme, h0⟩
  · rw [h0]; exact .taken hq hw
  · rw [h0]
    have := stepWorker_kinds (Q := Free p) (H := Small p) (fun x hx => .inr hx)
      (fun d es ws hH hr => by
        rcases hH with hH | hH
        · cases hH
        · exact free_listing hH hr) compile threads s me hq (hw me (List.mem_of_getElem? hme))
    refine .taken this.1 ?_
    intro w hw'
    rcases mem_set_cases hw' with rfl | hw'
    · exact this.2
    · exact hw w hw'

theorem course_step {p d : Path} {es : List Entry} (hsub : ∀ sub ∈ es, p ∉ filesOf sub)
    (hp : p ∈ filesOf (.dir d es)) {compile : Compiler σ} {threads : Nat} {s : PoolSt σ} (i : Nat)
    (I : PoolInv threads s) (C : Course p (.dir d es) s) :
    Course p (.dir d es) (s.step compile threads i) := by
  have hrootSmall : ¬ Small p (.dirEntry (.dir d es)) := by
    rintro (h | h)
    · cases h
    · exact h hp
  cases C with
  | fresh hq hw =>
    rcases step_cases compile threads s i with h0 | ⟨me, hme, h0⟩
    · rw [h0]; exact .fresh hq hw
    · obtain ⟨hpc, hwait⟩ := hw me (List.mem_of_getElem? hme)
      have e1 : (stepWorker compile threads s me).1.queue = [] := by simp [stepWorker, hpc, hq]
      have e2 : (stepWorker compile threads s me).2 = { me with pc := .gotWork (.dirEntry (.dir d es)) } := by
        simp [stepWorker, hpc, hq]
      rw [h0]
      have hws : ∀ w ∈ s.workers.set i (stepWorker compile threads s me).2,
          w = { me with pc := .gotWork (.dirEntry (.dir d es)) } ∨ (w.pc = .recv ∧ w.isWaiting = false) := by
        intro w hw'
        rcases mem_set_cases hw' with rfl | hw'
        · exact .inl e2
        · exact .inr (hw w hw')
      refine .going ?_ ?_ ?_ ?_ ?_
      · rintro (h | ⟨w, hw', h⟩)
        · have h : QMsg.quit ∈ (stepWorker compile threads s me).1.queue := h
          rw [e1] at h
          simp at h
        · rcases hws w hw' with rfl | h'
          · simp [quitPc] at h
          · simp [h'.1, quitPc] at h
      · intro h
        exact absurd e1 h
      · intro x hx
        have hx : QMsg.work x ∈ (stepWorker compile threads s me).1.queue := hx
        rw [e1] at hx
        simp at hx
      · intro w hw'
        rcases hws w hw' with rfl | h'
        · exact .inr rfl
        · rw [h'.1]; trivial
      · intro w hw' h
        rcases hws w hw' with rfl | h'
        · exact hwait
        · exact h'.2
  | taken hq hw => exact taken_step i hq hw
  | going hev hact hq hw hroot =>
    by_cases hd : DecidesToQuit threads s i
    · have hd' := hd
      obtain ⟨me, hme, hpc, hn⟩ := hd
      have hall : ∀ w ∈ s.workers, w.isWaiting = true := by
        rw [← countW_full, ← I.waiting, hn, I.len]
      have hq0 : s.queue = [] := by
        by_contra hq0
        obtain ⟨w, hw', ha⟩ := hact hq0
        have h1 := ha.1
        rw [hall w hw'] at h1
        cases h1
      refine taken_step i ?_ ?_
      · intro x hx
        rw [hq0] at hx
        simp at hx
      · intro w hw'
        have h1 := hw w hw'
        have h2 := I.flags w hw'
        have h3 := hall w hw'
        have h4 := hroot w hw'
        cases hpc : w.pc with
        | gotWork x =>
          rw [hpc] at h1 h4
          rcases h1 with h1 | h1
          · exact h1
          · rw [h1] at h4
            rw [h4 rfl] at h3
            cases h3
        | gotWork2 x => simp [flagsOk, hpc, h3] at h2
        | running x => simp [flagsOk, hpc, h3] at h2
        | sending ws => simp [flagsOk, hpc, h3] at h2
        | _ => trivial
    · have hA := step_attended compile threads s i I (.inr ⟨hev, hact⟩) (fun h => absurd h hd)
      have hev' : ¬ quitEvidence (s.step compile threads i) := fun h => by
        rcases step_evidence compile threads s i h with h | h
        · exact hev h
        · exact hd h
      rcases step_cases compile threads s i with h0 | ⟨me, hme, h0⟩
      · rw [h0]; exact .going hev hact hq hw hroot
      · have hmem := List.mem_of_getElem? hme
        have hlt := lt_of_getElem? hme
        have hkind := stepWorker_kinds (Q := Small p)
          (H := fun x => Small p x ∨ x = .dirEntry (.dir d es)) (fun x hx => .inl hx)
          (fun d' es' ws hH hr => by
            rcases hH with (hH | hH) | hH
            · cases hH
            · exact fun x hx => .inr (free_listing hH hr x hx)
            · cases hH
              exact small_listing es ws hsub hr) compile threads s me hq (hw me hmem)
        have hact' : (s.step compile threads i).queue ≠ [] →
            ∃ w ∈ (s.step compile threads i).workers, active w := by
          rw [h0]
          intro hne
          have hq' : QMsg.quit ∉ s.queue := fun h => hev (.inl h)
          have hpcq : quitPc me.pc = false := by
            cases h : quitPc me.pc with
            | false => rfl
            | true => exact absurd (.inr ⟨me, hmem, h⟩) hev
          rcases step_active compile threads s me (I.flags me hmem) hq' hpcq hne
              (fun h => hd ⟨me, hme, h.1, h.2⟩) with h | ⟨h1, h2⟩
          · exact ⟨_, List.mem_set hlt _, h⟩
          · obtain ⟨w, hw', ha⟩ := hact h1
            obtain ⟨j, hj⟩ := List.mem_iff_getElem?.1 hw'
            have hij : i ≠ j := by
              rintro rfl
              rw [hme] at hj
              cases hj
              exact h2 ha
            exact ⟨w, List.mem_iff_getElem?.2 ⟨j, by rw [List.getElem?_set_ne hij]; exact hj⟩, ha⟩
        refine .going hev' hact' ?_ ?_ ?_
        · rw [h0]; exact hkind.1
        · rw [h0]
          intro w hw'
          rcases mem_set_cases hw' with rfl | hw'
          · exact hkind.2
          · exact hw w hw'
        · rw [h0]
          intro w hw' h
          rcases mem_set_cases hw' with rfl | hw'
          · exact absurd (hq _ (gotWork_from_queue h)) hrootSmall
          · exact hroot w hw' h

/-- C51: whatever the number of threads and the schedule, when all workers have exited every `.graphql`
file of the root directory itself was compiled.  So the race can lose files of subdirectories only. -/
theorem C51_top_level_never_lost (compile : Compiler σ) (world : σ) (threads : Nat) (ht : 0 < threads)
    (d : Path) (es : List Entry) (sched : List Nat) (s : PoolSt σ)
    (h : ReachedBy compile world threads (.dir d es) sched s) (hf : s.finished = true) (p : Path)
    (hl : ∀ e, Entry.bad e ∉ es) (hp : Entry.file p ∈ es) (hx : p.extension = some "graphql")
    (hsub : ∀ sub ∈ es, ¬ FoundIn sub p) : p ∈ s.log := by
  have hfound : p ∈ filesOf (.dir d es) := (mem_filesOf _ _).2 (.file hl hp hx)
  have hsub' : ∀ sub ∈ es, p ∉ filesOf sub := fun sub hs hm => hsub sub hs ((mem_filesOf _ _).1 hm)
  have key : PoolInv threads s ∧ Course p (.dir d es) s := by
    rw [h]
    refine run_invariant compile threads (fun s => PoolInv threads s ∧ Course p (.dir d es) s) ?_ sched _ ?_
    · intro s i ⟨I, C⟩
      exact ⟨step_inv compile threads s i I, course_step hsub' hfound i I C⟩
    · refine ⟨reached_inv (compile := compile) (world := world) (threads := threads) (root := .dir d es)
        (sched := []) rfl, .fresh rfl ?_⟩
      intro w hw
      simp only [PoolSt.init, List.mem_replicate] at hw
      rw [hw.2]
      exact ⟨rfl, rfl⟩
  obtain ⟨I, C⟩ := key
  have hpos : 0 < s.workers.length := by rw [I.len]; exact ht
  have hmem := List.getElem_mem hpos
  have hexit := exited_of_finished hf
  cases C with
  | fresh hq hw =>
    have := (hw _ hmem).1
    rw [hexit _ hmem] at this
    cases this
  | going hev => exact absurd (.inr ⟨_, hmem, by rw [hexit _ hmem]; rfl⟩) hev
  | taken hq hw =>
    obtain ⟨lost, h1, _, h2⟩ := reached_conserved h
    rw [no_panic_of_finished hf] at h1
    rw [List.eq_nil_of_length_eq_zero h1, List.append_nil] at h2
    have := h2.mem_iff.2 hfound
    rcases List.mem_append.1 this with this | this
    · exact this
    · exfalso
      obtain ⟨x, hxp, hpx⟩ := List.mem_flatMap.1 this
      unfold pending at hxp
      rcases List.mem_append.1 hxp with hxp | hxp
      · obtain ⟨m, hm, hxm⟩ := List.mem_flatMap.1 hxp
        cases m with
        | quit => simp [queuedWork] at hxm
        | work y =>
          simp only [queuedWork, List.mem_singleton] at hxm
          subst hxm
          exact hq x hm hpx
      · obtain ⟨w, hw', hxw⟩ := List.mem_flatMap.1 hxp
        simp [heldWork, hexit w hw'] at hxw

/-- C51: a project without subdirectories is always compiled completely. -/
theorem C51_flat_project_complete (compile : Compiler σ) (world : σ) (threads : Nat) (ht : 0 < threads)
    (d : Path) (es : List Entry) (sched : List Nat) (s : PoolSt σ)
    (h : ReachedBy compile world threads (.dir d es) sched s) (hf : s.finished = true)
    (hflat : ∀ e ∈ es, ∀ p, ¬ FoundIn e p) :
    ∀ p, p ∈ s.log ↔ FoundIn (.dir d es) p := by
  intro p
  constructor
  · intro hp
    obtain ⟨lost, _, _, h2⟩ := reached_conserved h
    rw [← mem_filesOf]
    exact h2.mem_iff.1 (by simp [hp])
  · intro hp
    cases hp with
    | file hl hp hx =>
      exact C51_top_level_never_lost compile world threads ht d es sched s h hf p hl hp hx
        (fun sub hs => hflat sub hs p)
    | sub hl hs hp => exact absurd hp (hflat _ hs p)

/-- The tree of the race with a file beside the subdirectory, and a schedule of two workers that loses the
file of the subdirectory but compiles that of the root. -/
def Demo.raceTopTree : Entry := .dir ⟨true, ["r"]⟩ [.file ⟨true, ["r", "t.graphql"]⟩,
  .dir ⟨true, ["r", "s"]⟩ [.file ⟨true, ["r", "s", "w.graphql"]⟩]]

/-- See `Demo.raceTopTree`. -/
def Demo.raceTopSched : List Nat :=
  [0, 1, 1, 1, 1, 1, 0, 0, 1, 0, 0, 0, 0, 1, 0, 1, 1, 0, 0, 0, 0, 0, 0, 0, 0, 0, 1, 1, 1, 0, 1, 1, 0, 0, 0, 1,
    1, 0, 1, 0, 1, 1]

/-- `C51_top_level_never_lost` applies to that run, and the other file is lost in it. -/
example : ∃ s, ReachedBy Demo.okCompile () 2 Demo.raceTopTree Demo.raceTopSched s ∧ s.finished = true ∧
    s.log = [⟨true, ["r", "t.graphql"]⟩] ∧ FoundIn Demo.raceTopTree ⟨true, ["r", "s", "w.graphql"]⟩ := by
  refine ⟨_, rfl, by decide +kernel, by decide +kernel, (mem_filesOf _ _).1 (by decide +kernel)⟩

/-- Its hypotheses hold of that tree. -/
example : (∀ e, Entry.bad e ∉ [Entry.file ⟨true, ["r", "t.graphql"]⟩,
      .dir ⟨true, ["r", "s"]⟩ [.file ⟨true, ["r", "s", "w.graphql"]⟩]]) ∧
    (⟨true, ["r", "t.graphql"]⟩ : Path).extension = some "graphql" ∧
    (∀ sub ∈ [Entry.file ⟨true, ["r", "t.graphql"]⟩,
      .dir ⟨true, ["r", "s"]⟩ [.file ⟨true, ["r", "s", "w.graphql"]⟩]],
      ¬ FoundIn sub ⟨true, ["r", "t.graphql"]⟩) := by
  refine ⟨by simp, by decide +kernel, ?_⟩
  intro sub hsub h
  rw [← mem_filesOf] at h
  simp only [List.mem_cons, List.not_mem_nil, or_false] at hsub
  rcases hsub with rfl | rfl <;> revert h <;> decide +kernel

/-- `C51_flat_project_complete` applies to a directory with two files, also under the schedule that loses a
file of a subdirectory. -/
example : ∃ s, ReachedBy Demo.okCompile () 2 (.dir ⟨true, ["r"]⟩ [.file ⟨true, ["r", "a.graphql"]⟩,
      .file ⟨true, ["r", "b.graphql"]⟩]) (Demo.raceTopSched ++ List.replicate 20 0 ++ List.replicate 20 1) s ∧
    s.finished = true ∧ s.log.length = 2 := by
  refine ⟨_, rfl, by decide +kernel, by decide +kernel⟩

end Qlc
