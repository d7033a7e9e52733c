import Verif.Props.Pool
import Verif.Props.Compile
/-
The results of the worker pool: C55 and C56, and the whole-program form of C51.
-/
set_option autoImplicit false

namespace Qlc
open Spec

variable {σ : Type}

/-! ### C55 -/

/-- Messages a piece of work leads to. -/
def workMsgs (messagesOf : Path → List Msg) (w : Work) : List Msg :=
  workErrors w ++ (workFiles w).flatMap messagesOf

/-- What is known about results and world along a run in which compiles return what they should. -/
structure ResultInv (compile : Compiler σ) (world : σ) (root : Entry) (globalsOf : Path → List String)
    (messagesOf : Path → List Msg) (Inv : σ → Prop) (s : PoolSt σ) : Prop where
  conserved : Conserved compile root s
  inv : Inv s.world
  nopanic : numPanicked s = 0
  world : s.world = s.log.foldl (fun w p => (compile w p).2) world
  messages : (allMessages s ++ (pending s).flatMap (workMsgs messagesOf)).Perm
    (workMsgs messagesOf (.dirEntry root))
  globals : ∀ g, g ∈ allGlobals s ↔ ∃ p ∈ s.log, g ∈ globalsOf p

theorem step_resultInv (compile : Compiler σ) (world : σ) (threads : Nat) (root : Entry)
    (globalsOf : Path → List String) (messagesOf : Path → List Msg) (Inv : σ → Prop)
    (hc : ∀ w, Inv w → ∀ p, FoundIn root p →
      (compile w p).1 = .done (globalsOf p) (messagesOf p) ∧ Inv (compile w p).2)
    (s : PoolSt σ) (i : Nat) (I : ResultInv compile world root globalsOf messagesOf Inv s) :
    ResultInv compile world root globalsOf messagesOf Inv (s.step compile threads i) := by
  have C := step_conserved compile threads root s i I.conserved
  have h0 := I.nopanic
  cases step_effect compile threads s i with
  | quiet hp hw hl hm hg hn =>
    refine ⟨C, by rw [hw]; exact I.inv, by omega, by rw [hw, hl]; exact I.world, ?_, ?_⟩
    · exact (hm.append (hp.flatMap_right _)).trans I.messages
    · intro g; rw [hg, hl]; exact I.globals g
  | listed p es ws rest hp hr hp' hw hl hm hg hn =>
    refine ⟨C, by rw [hw]; exact I.inv, by omega, by rw [hw, hl]; exact I.world, ?_, ?_⟩
    · refine List.Perm.trans (hm.append ?_) I.messages
      refine (hp'.flatMap_right _).trans (List.Perm.trans ?_ (hp.flatMap_right _).symm)
      rw [List.flatMap_append, List.flatMap_cons]
      refine List.Perm.append_right _ ?_
      obtain ⟨e1, e2⟩ := filesOf_dir_ok (p := p) hr
      simp only [workMsgs]
      show List.Perm _ (dirErrors (.dir p es) ++ (filesOf (.dir p es)).flatMap messagesOf)
      rw [e1, e2, List.flatMap_assoc]
      exact (List.flatMap_append_perm ws workErrors
        (fun w => (workFiles w).flatMap messagesOf)).symm
    · intro g; rw [hg, hl]; exact I.globals g
  | unlisted e err p rest hp hr hp' hw hl hm hg hn =>
    refine ⟨C, by rw [hw]; exact I.inv, by omega, by rw [hw, hl]; exact I.world, ?_, ?_⟩
    · obtain ⟨e1, e2⟩ := unlisted_spec compile _ e err p hr
      refine (hm.append (hp'.flatMap_right _)).trans ?_
      refine List.Perm.trans ?_ (((hp.flatMap_right _).append_left _).symm.trans I.messages)
      rw [List.flatMap_cons, List.append_assoc]
      have : workMsgs messagesOf (.dirEntry e) = [.ioError "read" err p] := by
        show dirErrors e ++ (filesOf e).flatMap messagesOf = _
        rw [e1, e2]
        rfl
      rw [this]
    · intro g; rw [hg, hl]; exact I.globals g
  | compiled p gs ms rest hp hr hp' hl hm hg hn =>
    have hfound : FoundIn root p := (mem_filesOf root p).1 (pending_files I.conserved hp)
    obtain ⟨e1, e2⟩ := hc s.world I.inv p hfound
    rw [hr] at e1 e2
    simp only [FileOutcome.done.injEq] at e1
    obtain ⟨rfl, rfl⟩ := e1
    refine ⟨C, e2, by omega, ?_, ?_, ?_⟩
    · rw [hl, List.foldl_append, ← I.world]
      simp [hr]
    · refine (hm.append (hp'.flatMap_right _)).trans ?_
      refine List.Perm.trans ?_ (((hp.flatMap_right _).append_left _).symm.trans I.messages)
      rw [List.flatMap_cons, List.append_assoc]
      simp [workMsgs, workErrors, workFiles]
    · intro g
      rw [hg, I.globals, hl]
      simp only [List.mem_append, List.mem_singleton]
      constructor
      · rintro (⟨q, h1, h2⟩ | h)
        · exact ⟨q, .inl h1, h2⟩
        · exact ⟨p, .inr rfl, h⟩
      · rintro ⟨q, h1 | rfl, h2⟩
        · exact .inl ⟨q, h1, h2⟩
        · exact .inr h2
  | panicked p rest hp hr hp' hl hm hg hn =>
    have hfound : FoundIn root p := (mem_filesOf root p).1 (pending_files I.conserved hp)
    obtain ⟨e1, e2⟩ := hc s.world I.inv p hfound
    rw [hr] at e1
    simp at e1

theorem reached_resultInv {compile : Compiler σ} {world : σ} {threads : Nat} {root : Entry}
    {sched : List Nat} {s : PoolSt σ} (h : ReachedBy compile world threads root sched s)
    (globalsOf : Path → List String) (messagesOf : Path → List Msg) (Inv : σ → Prop) (h0 : Inv world)
    (hc : ∀ w, Inv w → ∀ p, FoundIn root p →
      (compile w p).1 = .done (globalsOf p) (messagesOf p) ∧ Inv (compile w p).2) :
    ResultInv compile world root globalsOf messagesOf Inv s := by
  rw [h]
  refine run_invariant compile threads _
    (fun s i => step_resultInv compile world threads root globalsOf messagesOf Inv hc s i) sched _ ?_
  refine ⟨init_conserved compile world threads root, h0, (init_good compile world threads root).nopanic,
    rfl, ?_, ?_⟩
  · rw [init_pending]
    simp [allMessages, PoolSt.init, flatMap_replicate_init WorkerSt.messages rfl]
  · intro g
    simp [allGlobals, PoolSt.init, flatMap_replicate_init WorkerSt.globals rfl]

theorem aggregate_globals (l : List WorkerSt) : ∀ (acc : List String) (g : String),
    g ∈ l.foldl (fun acc w => setExtend acc w.globals) acc ↔ g ∈ acc ∨ g ∈ l.flatMap WorkerSt.globals := by
  induction l with
  | nil => simp
  | cons w l ih =>
    intro acc g
    rw [List.foldl_cons, ih, setExtend_mem_iff, List.flatMap_cons, List.mem_append]
    tauto

/-- C55: suppose that, in every file system state satisfying an invariant that compiles preserve,
compiling a file of the tree uses the globals `globalsOf` and yields the messages `messagesOf`.  Then in
every run in which all workers exit with no work left, whatever the number of threads and the schedule,
the global types passed on are exactly those used by the files of the tree, and the messages are, up to
order, those of the files and one per directory that could not be listed. -/
theorem C55_results_independent_of_schedule (compile : Compiler σ) (world : σ) (threads : Nat)
    (root : Entry) (globalsOf : Path → List String) (messagesOf : Path → List Msg) (Inv : σ → Prop)
    (h0 : Inv world)
    (hc : ∀ w, Inv w → ∀ p, FoundIn root p →
      (compile w p).1 = .done (globalsOf p) (messagesOf p) ∧ Inv (compile w p).2)
    (sched : List Nat) (s : PoolSt σ) (h : ReachedBy compile world threads root sched s)
    (hf : s.finished = true) (hp : pending s = []) :
    (∀ g, g ∈ s.aggregate.2 ↔ ∃ p, FoundIn root p ∧ g ∈ globalsOf p) ∧
    s.aggregate.1.Perm (dirErrors root ++ (filesOf root).flatMap messagesOf) := by
  have I := reached_resultInv h globalsOf messagesOf Inv h0 hc
  obtain ⟨lost, l1, _, l2⟩ := I.conserved
  rw [no_panic_of_finished hf] at l1
  rw [List.eq_nil_of_length_eq_zero l1, hp] at l2
  simp only [List.flatMap_nil, List.append_nil] at l2
  constructor
  · intro g
    unfold PoolSt.aggregate
    rw [aggregate_globals]
    have := I.globals g
    unfold allGlobals at this
    rw [this]
    simp only [List.not_mem_nil, false_or]
    constructor
    · rintro ⟨p, h1, h2⟩; exact ⟨p, (mem_filesOf root p).1 (l2.mem_iff.1 h1), h2⟩
    · rintro ⟨p, h1, h2⟩; exact ⟨p, l2.mem_iff.2 ((mem_filesOf root p).2 h1), h2⟩
  · have := I.messages
    rw [hp] at this
    simpa [workMsgs, workErrors, workFiles, allMessages, PoolSt.aggregate] using this

/-- C55 with the sufficient condition of C51 instead of "no work left". -/
theorem C55_results_without_early_quit (compile : Compiler σ) (world : σ) (threads : Nat)
    (ht : 0 < threads) (root : Entry) (globalsOf : Path → List String) (messagesOf : Path → List Msg)
    (Inv : σ → Prop) (h0 : Inv world)
    (hc : ∀ w, Inv w → ∀ p, FoundIn root p →
      (compile w p).1 = .done (globalsOf p) (messagesOf p) ∧ Inv (compile w p).2)
    (sched : List Nat) (s : PoolSt σ) (h : ReachedBy compile world threads root sched s)
    (hf : s.finished = true)
    (hq : NoEarlyQuit compile threads (PoolSt.init world threads root) sched) :
    (∀ g, g ∈ s.aggregate.2 ↔ ∃ p, FoundIn root p ∧ g ∈ globalsOf p) ∧
    s.aggregate.1.Perm (dirErrors root ++ (filesOf root).flatMap messagesOf) :=
  C55_results_independent_of_schedule compile world threads root globalsOf messagesOf Inv h0 hc sched s
    h hf (finished_pending h ht hq hf)

/-- The demo compiler meets the hypotheses, and the unreadable directory is reported. -/
example : (∀ w, True → ∀ p, FoundIn Demo.tree p →
      (Demo.okCompile w p).1 = .done ["G"] [] ∧ True) ∧
    ∃ s, ReachedBy Demo.okCompile () 1 Demo.tree Demo.oneWorker s ∧ s.finished = true ∧
      s.queue.length = 0 ∧ s.aggregate.2 = ["G"] ∧ s.aggregate.1.length = 1 :=
  ⟨fun _ _ _ _ => ⟨rfl, trivial⟩, _, rfl, by decide +kernel, by decide +kernel, by decide +kernel,
    by decide +kernel⟩

/-! ### C56 -/

/-- C56: only regular files named `something.graphql`, reached through readable directories, are ever
handed to the compiler, and when no work is left and nobody panicked each of them has been. -/
theorem C56_walk_finds_exactly_the_graphql_files (compile : Compiler σ) (world : σ) (threads : Nat)
    (root : Entry) (sched : List Nat) (s : PoolSt σ)
    (h : ReachedBy compile world threads root sched s) :
    (∀ p, p ∈ s.log ∨ Work.graphQl p ∈ pending s → FoundIn root p) ∧
    (pending s = [] → (∀ w ∈ s.workers, isPanicked w = false) → ∀ p, FoundIn root p → p ∈ s.log) := by
  obtain ⟨lost, l1, _, l2⟩ := reached_conserved h
  constructor
  · rintro p (hp | hp)
    · rw [← mem_filesOf]; exact l2.mem_iff.1 (by simp [hp])
    · rw [← mem_filesOf]
      apply l2.mem_iff.1
      have : p ∈ (pending s).flatMap workFiles := List.mem_flatMap.2 ⟨_, hp, by simp [workFiles]⟩
      simp [this]
  · intro hp hn p hf
    have : numPanicked s = 0 := by
      unfold numPanicked
      rw [countW_zero]
      exact hn
    rw [this] at l1
    rw [List.eq_nil_of_length_eq_zero l1, hp] at l2
    simp only [List.flatMap_nil, List.append_nil] at l2
    rw [l2.mem_iff, mem_filesOf]
    exact hf

/-- C56, names: a found file is called `stem.graphql` with a non-empty stem, so `.graphql` itself is not
picked up. -/
theorem C56_names (root : Entry) (p : Path) (h : FoundIn root p) :
    ∃ dir stem, stem ≠ "" ∧ p.comps = dir ++ [stem ++ ".graphql"] := by
  induction h with
  | file _ _ hx =>
    obtain ⟨dir, stem, hs, _, hp⟩ := (extension_some _ "graphql" (by decide)).1 hx
    refine ⟨dir, stem, hs, ?_⟩
    rw [hp]
    simp only
    congr 2
    apply String.toList_inj.1
    have e1 : ".".toList = ['.'] := by decide
    have e2 : ".graphql".toList = '.' :: "graphql".toList := by decide
    simp [e1, e2]
  | sub _ _ _ ih => exact ih

/-- C56, links and unreadable places: an entry that is not a directory listing leads nowhere, and neither
does a directory with an unreadable entry. -/
theorem C56_dead_ends (p q : Path) (err : String) (es : List Entry) :
    ¬ FoundIn (.other q) p ∧ ¬ FoundIn (.badDir q err) p ∧ ¬ FoundIn (.dir q (es ++ [.bad err])) p := by
  refine ⟨by rintro ⟨⟩, by rintro ⟨⟩, ?_⟩
  intro h
  cases h with
  | file hb _ _ => exact hb err (by simp)
  | sub hb _ _ => exact hb err (by simp)

/-- The demo tree: exactly the two files. -/
example : filesOf Demo.tree = Demo.treeFiles := by decide +kernel

/-! ### The race at program level -/

/-- C51 for the whole program: with two threads, for every configuration, schema, file system and
compiler behaviour, there is a directory tree holding a `.graphql` file on which the program can exit
with status 0, print nothing and write nothing. -/
theorem C51_race_whole_program (ω : Path → Hash) (ω' : Hash) (fuel : Nat) (ext : Ext)
    (paint : Paint) (cpus : Nat) (readConfig : Path → ConfigRead) (readSchema : Path → SchemaRead)
    (w : World) (args : CliArgs) (r : RuntimeConfig) (schema : Schema)
    (hcfg : RuntimeConfig.fromCli cpus readConfig args = .ok r) (h2 : r.numberThreads = 2)
    (hschema : parseSchema r.schemaPath (readSchema r.schemaPath) = .ok schema) :
    ∃ (tree : Path → Entry) (p : Path) (f : Finished), FoundIn (tree r.rootDir) p ∧
      Runs ω ω' fuel ext paint cpus readConfig readSchema tree w args f ∧
      f.exit.code = 0 ∧ f.exit.printed = [] ∧ f.world = w := by
  obtain ⟨root, p, sched, s, hs, hfound, hfin, _, hw, hagg⟩ :=
    C51_race_loses_a_file (poolCompile ω fuel ext (.ofRuntime r) schema) w
  refine ⟨fun _ => root, p, ⟨printExitInfo paint [], w⟩, hfound, ?_, rfl, rfl, rfl⟩
  refine .finished r schema sched [] w s hcfg hschema ?_ hfin ?_
  · rw [h2]; exact hs
  · rw [hw, hagg]
    rfl

end Qlc
