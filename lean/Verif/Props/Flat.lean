import Verif.Spec.Flat
import Verif.Props.WholeWay
import Verif.Props.PoolTop
import Verif.Props.PoolLose
import Verif.Props.FineRace
/-
C133: a project without subdirectories is handled completely, whatever the number of threads and the schedule.
-/
set_option autoImplicit false

namespace Qlc
open Spec

/-! ### Nothing is left -/

theorem flat_work {es : List Entry} (h : ∀ e ∈ es, (∃ p, e = .file p) ∨ ∃ p, e = .other p) :
    ∀ {ws : List Work}, runEntries es = .ok ws → ∀ x ∈ ws, ∃ p, x = .graphQl p := by
  induction es with
  | nil =>
    intro ws hw x hx
    simp only [runEntries, Except.ok.injEq] at hw
    subst hw
    simp at hx
  | cons e es ih =>
    intro ws hw x hx
    have ih := @ih (fun e he => h e (List.mem_cons_of_mem _ he))
    rcases h e (List.mem_cons_self ..) with ⟨p, rfl⟩ | ⟨p, rfl⟩
    · simp only [runEntries] at hw
      cases hr : runEntries es with
      | error err => rw [hr] at hw; simp at hw
      | ok ws' =>
        rw [hr] at hw
        simp only [Except.ok.injEq] at hw
        subst hw
        split at hx
        · rcases List.mem_cons.1 hx with rfl | hx
          · exact ⟨_, rfl⟩
          · exact ih hr x hx
        · exact ih hr x hx
    · simp only [runEntries] at hw
      exact ih hw x hx

/-- All work is the root itself or a document. -/
def FlatWork {σ : Type} (root : Entry) (s : PoolSt σ) : Prop :=
  ∀ x ∈ pending s, x = .dirEntry root ∨ ∃ p, x = .graphQl p

theorem flatWork_step {σ : Type} {compile : Compiler σ} {threads : Nat} {root : Entry} (hflat : NoSubdirs root)
    (s : PoolSt σ) (i : Nat) (I : FlatWork root s) : FlatWork root (s.step compile threads i) := by
  obtain ⟨d, es, rfl, hes⟩ := hflat
  intro x hx
  cases step_effect compile threads s i with
  | quiet hp hw hl hm hg hn => exact I x (hp.mem_iff.1 hx)
  | listed p es' ws rest hp hr hp' hw hl hm hg hn =>
    rcases List.mem_append.1 (hp'.mem_iff.1 hx) with hx | hx
    · rcases I _ (hp.mem_iff.2 (List.mem_cons_self ..)) with e | ⟨q, e⟩
      · cases e
        exact .inr (flat_work hes hr x hx)
      · cases e
    · exact I x (hp.mem_iff.2 (List.mem_cons_of_mem _ hx))
  | unlisted e err p rest hp hr hp' hw hl hm hg hn =>
    exact I x (hp.mem_iff.2 (List.mem_cons_of_mem _ (hp'.mem_iff.1 hx)))
  | compiled p gs ms rest hp hr hp' hl hm hg hn =>
    exact I x (hp.mem_iff.2 (List.mem_cons_of_mem _ (hp'.mem_iff.1 hx)))
  | panicked p rest hp hr hp' hl hm hg hn =>
    exact I x (hp.mem_iff.2 (List.mem_cons_of_mem _ (hp'.mem_iff.1 hx)))

theorem flat_not_sub {es : List Entry} (h : ∀ e ∈ es, (∃ p, e = .file p) ∨ ∃ p, e = .other p) :
    ∀ e ∈ es, ∀ p, ¬ FoundIn e p := by
  intro e he p hp
  rcases h e he with ⟨q, rfl⟩ | ⟨q, rfl⟩ <;> cases hp

theorem flat_pending {σ : Type} {compile : Compiler σ} {world : σ} {threads : Nat} {root : Entry} {sched : List Nat}
    {s : PoolSt σ} (hflat : NoSubdirs root) (hdoc : HasDocument root) (hn : (filesOf root).Nodup) (ht : 0 < threads)
    (h : ReachedBy compile world threads root sched s) (hf : s.finished = true) : pending s = [] := by
  have I : FlatWork root s := by
    rw [h]
    refine run_invariant compile threads (FlatWork root) (fun s i => flatWork_step hflat s i) sched _ ?_
    intro x hx
    rw [init_pending] at hx
    exact .inl (List.mem_singleton.1 hx)
  obtain ⟨d, es, rfl, hes⟩ := hflat
  have hlog := C51_flat_project_complete compile world threads ht d es sched s h hf (flat_not_sub hes)
  obtain ⟨lost, h1, _, h2⟩ := reached_conserved h
  rw [no_panic_of_finished hf] at h1
  rw [List.eq_nil_of_length_eq_zero h1, List.append_nil] at h2
  have hnd := (h2.nodup_iff).2 hn
  have hnone : ∀ x ∈ pending s, ∀ p, p ∉ workFiles x := by
    intro x hx p hp
    have hm : p ∈ (pending s).flatMap workFiles := List.mem_flatMap.2 ⟨x, hx, hp⟩
    have hin : p ∈ filesOf (.dir d es) := h2.mem_iff.1 (List.mem_append.2 (.inr hm))
    exact (List.nodup_append.1 hnd).2.2 p ((hlog p).2 ((mem_filesOf _ _).1 hin)) p hm rfl
  cases hp : pending s with
  | nil => rfl
  | cons x xs =>
    exfalso
    have hx : x ∈ pending s := by rw [hp]; exact List.mem_cons_self ..
    obtain ⟨q, hq⟩ := hdoc
    rcases I x hx with rfl | ⟨p, rfl⟩
    · exact hnone _ hx q ((mem_filesOf _ _).2 hq)
    · exact hnone _ hx p (by simp [workFiles])

/-- **C133.** Several threads are safe for these projects only: if no compile panics or hangs and the root can be listed, then
with two threads or more every run in which all workers exit has compiled every document if and only if no document lies in
a subdirectory. -/
theorem C133_safe_iff {σ : Type} (compile : Compiler σ) (world : σ) (threads : Nat) (ht : 2 ≤ threads) (d : Path)
    (es : List Entry) (hall : ∀ w p, FoundIn (.dir d es) p → ∃ gs ms w', compile w p = (.done gs ms, w'))
    (hl : ∀ e, Entry.bad e ∉ es) (hn : (filesOf (.dir d es)).Nodup) :
    (∀ sched s, ReachedBy compile world threads (.dir d es) sched s → s.finished = true →
      ∀ p, FoundIn (.dir d es) p → p ∈ s.log) ↔ ∀ sub ∈ es, ∀ p, ¬ FoundIn sub p := by
  constructor
  · intro h sub hsub p hp
    obtain ⟨d', es', rfl⟩ : ∃ d' es', sub = .dir d' es' := by cases hp <;> exact ⟨_, _, rfl⟩
    obtain ⟨sched, s, hr, hf, hperm⟩ := C51_any_subdirectory_can_be_lost compile world threads ht d es hall hl d' es' hsub
      p hp
    have hlog := h sched s hr hf p (.sub hl hsub hp)
    exact (List.nodup_append.1 (hperm.nodup_iff.2 hn)).2.2 p hlog p ((mem_filesOf _ _).2 hp) rfl
  · intro h sched s hr hf p hp
    exact (C51_flat_project_complete compile world threads (by omega) d es sched s hr hf h p).2 hp

/-- It applies to the tree of the race, which is not safe with two threads, and to a directory with two files, which is. -/
example : (¬ ∀ sched s, ReachedBy Demo.okCompile () 2 Demo.raceTopTree sched s → s.finished = true →
      ∀ p, FoundIn Demo.raceTopTree p → p ∈ s.log) ∧
    ∀ sched s, ReachedBy Demo.okCompile () 2 Demo.fileTree sched s → s.finished = true →
      ∀ p, FoundIn Demo.fileTree p → p ∈ s.log := by
  constructor
  · intro h
    have := (C133_safe_iff Demo.okCompile () 2 (Nat.le_refl _) ⟨true, ["r"]⟩ _
      (fun w p _ => ⟨_, _, _, rfl⟩) (by simp) (by decide +kernel)).1 h
      (.dir ⟨true, ["r", "s"]⟩ [.file ⟨true, ["r", "s", "w.graphql"]⟩]) (by simp) ⟨true, ["r", "s", "w.graphql"]⟩
    exact this ((mem_filesOf _ _).1 (by decide +kernel))
  · refine (C133_safe_iff Demo.okCompile () 2 (Nat.le_refl _) ⟨true, ["r"]⟩ _
      (fun w p _ => ⟨_, _, _, rfl⟩) (by simp) (by decide +kernel)).2 ?_
    intro sub hs p hp
    simp only [List.mem_cons, List.not_mem_nil, or_false] at hs
    rcases hs with rfl | rfl <;> cases hp

section
variable {ω : Path → Hash} {ω' : Hash} {fuel : Nat} {ext : Ext} {cfg : CompileConfig} {schema : Schema} {rootPath : Path}
  {root : Entry} {w : World}

/-- **C133.** A run over a project without subdirectories, with any number of threads and any schedule, in which all
workers exit is complete. -/
theorem C133_run_is_complete (hflat : NoSubdirs root) (hdoc : HasDocument root) (hn : (filesOf root).Nodup) {threads : Nat}
    (ht : 0 < threads) {sched : List Nat} {s : PoolSt World} {ms : List Msg} {w' : World}
    (h : ReachedBy (poolCompile ω fuel ext cfg schema) w threads root sched s) (hf : s.finished = true)
    (hg : finishWork ω' fuel cfg schema s.world rootPath s.aggregate = some (ms, w')) :
    RunsTo ω ω' fuel ext cfg schema rootPath root threads w s ms w' :=
  ⟨⟨sched, h⟩, hf, flat_pending hflat hdoc hn ht h hf, hg⟩

/-- **C133.** Every run of the program over a project without subdirectories is complete, and its exit status is 0 exactly
if everything is fine. -/
theorem C133_program {paint : Paint} {cpus : Nat} {readConfig : Path → ConfigRead}
    {readSchema : Path → SchemaRead} {tree : Path → Entry} {args : CliArgs} {f : Finished}
    {r : RuntimeConfig} (hrun : Runs ω ω' fuel ext paint cpus readConfig readSchema tree w args f)
    (hcfg : RuntimeConfig.fromCli cpus readConfig args = .ok r) (ht : 0 < r.numberThreads)
    (hschema : parseSchema r.schemaPath (readSchema r.schemaPath) = .ok schema)
    (hflat : NoSubdirs (tree r.rootDir)) (hdoc : HasDocument (tree r.rootDir)) (hn : (filesOf (tree r.rootDir)).Nodup)
    (hr : NoOutputRead w (.ofRuntime r) (tree r.rootDir)) (hd : OutputsDistinct w (tree r.rootDir))
    (hg : GlobalsApart w (.ofRuntime r) r.rootDir (tree r.rootDir)) :
    (∃ s ms, RunsTo ω ω' fuel ext (.ofRuntime r) schema r.rootDir (tree r.rootDir) r.numberThreads w s ms f.world ∧
      f.exit = printExitInfo paint ms) ∧
    (f.exit.code = 0 ↔ AllFine ω fuel ext (.ofRuntime r) schema w r.rootDir (tree r.rootDir)) := by
  cases hrun with
  | badConfig m h => rw [hcfg] at h; simp at h
  | badSchema r' ms h hs =>
    rw [hcfg] at h
    injection h with h
    subst h
    rw [hschema] at hs
    simp at hs
  | finished r' schema' sched ms w' s h hs hrun hfin hend =>
    rw [hcfg] at h
    injection h with h
    subst h
    rw [hschema] at hs
    injection hs with hs
    subst hs
    have R := C133_run_is_complete hflat hdoc hn ht hrun hfin hend
    exact ⟨⟨s, ms, R, rfl⟩, C74_exit_status hr hd hg R paint⟩

/-- **C133.** For a project without subdirectories and without recursion there is an amount of time that suffices for every
run: with any number of threads and every fair schedule of single file operations the whole program completes. -/
theorem C133_completes (hcon : Consistent schema) (hr : NoOutputRead w cfg root)
    (hd : OutputsDistinct w root) (hn : (filesOf root).Nodup)
    (hflat : NoSubdirs root) (hdoc : HasDocument root)
    (hu : ∀ p, FoundIn root p → NamesDiffer ext w cfg p)
    (hends : ∀ p, FoundIn root p → FileEnds ext cfg schema w p)
    (hinputs : InputsEnd ext cfg schema w root) :
    ∃ N, ∀ fuel, N ≤ fuel → ∀ (ω : Path → Hash) (ω' : Hash) (sched : Nat → Nat × Nat) (threads : Nat),
      0 < threads → Progressing (fun n => (sched n).2) → Fair threads (fun n => (sched n).1) →
      ∃ n F ms w', F = fineAt (fun p => compileOps (ω p) fuel ext cfg schema p) threads
          (FinePool.init w threads root) sched n ∧
        FineRunsTo ω ω' fuel ext cfg schema rootPath root threads w F ms w' := by
  obtain ⟨N, hN⟩ := enough_time hcon hu hends hinputs
  refine ⟨N, fun fuel hf ω ω' sched threads ht hs hfair => ?_⟩
  obtain ⟨hall, hglob⟩ := hN fuel hf ω ω'
  obtain ⟨n, h⟩ := C102_workers_finish hr hd hn hall sched hfair hs
  have hfin := h n (Nat.le_refl _)
  have hF : FineReached ω fuel ext cfg schema w root threads (fineAt
      (fun p => compileOps (ω p) fuel ext cfg schema p) threads (FinePool.init w threads root) sched n) :=
    ⟨_, fineAt_run _ _ _ _ _⟩
  refine ⟨n, fineAt (fun p => compileOps (ω p) fuel ext cfg schema p) threads (FinePool.init w threads root) sched n, ?_⟩
  generalize fineAt (fun p => compileOps (ω p) fuel ext cfg schema p) threads (FinePool.init w threads root)
    sched n = F at *
  obtain ⟨sched', hreach⟩ := C66_interleaving_refines hr hd hn F hF hfin
  have hp := flat_pending hflat hdoc hn ht hreach hfin
  obtain ⟨k, ms, w', _, R⟩ := fine_completes hr hd hn hall hglob hF hfin hp (fun _ => 1) (fun _ => Nat.one_pos)
  exact ⟨ms, w', rfl, R⟩

end

/-! ### From the bytes -/

section
variable {P : ParserSetup} {dist : String → String → Nat} {colours : Paint} {cpus : Nat} {say : List UInt8 → String}
  {configs schemas : Path → FileRead} {tree : Path → Entry} {w : World} {words : List String} {ss : List Setting}
  {a : CliArgs} {c : ConfigFile} {schema : Schema} {cwd : List String} {applies : List Directive → Prop}

/-- **C133.** C131 for a project without subdirectories and any number of threads: the one named on the command line, the one
of the configuration file, or the number of processors. -/
theorem C133_whole_way (srv : Server) (hsh : srv.Shallow) {path : Path} {bs : List UInt8} {j : Json}
    (hfile : schemas path = .bytes bs) (hj : HoldsDocument bs j)
    (hsame : SameFor introspectionKeys (srv.answer introspectionQuery) j)
    (hline : CommandLine ss words) (honce : Once ss) (hprefix : PrefixAllowed ss) (hmeans : Means ss a)
    (hconfig : ConfigBytes configs a c) (hpath : a.schemaPath = some path)
    (ht : 0 < threadsMeant a c cpus)
    (hs : Schema.ofJson (srv.document (fun _ => none)) = .ok schema)
    (F : SoundProject (Ext.graphql P dist) cwd w (compilationMeant a c) (srv.document (fun _ => none)) schema applies
      (rootMeant a) (tree (rootMeant a)))
    (hn : (filesOf (tree (rootMeant a))).Nodup)
    (hflat : NoSubdirs (tree (rootMeant a))) (hdoc : HasDocument (tree (rootMeant a))) :
    (∃ N, ∀ fuel, N ≤ fuel → ∀ ω ω', ∃ f, Invokes ω ω' fuel (Ext.graphql P dist) colours cpus
      (fun p => ((configs p).asJson say).asConfig) (fun p => ((schemas p).asJson say).asSchema) tree w words (.ran f)) ∧
    ∀ fuel ω ω' i, Invokes ω ω' fuel (Ext.graphql P dist) colours cpus
        (fun p => ((configs p).asJson say).asConfig) (fun p => ((schemas p).asJson say).asSchema) tree w words i →
      ∃ f, i = .ran f ∧ f.exit.code = 0 ∧
        ∀ scalars env : String → JVal → Prop,
          ScalarEnv (settingsMeant a c) (srv.document (fun _ => none)) scalars env →
        ∃ g : List TsStmt,
          ((∃ n, UsedGlobal ω fuel (Ext.graphql P dist) (compilationMeant a c) schema w (tree (rootMeant a)) n) →
            HoldsModule f.world (globalsId w (compilationMeant a c) (rootMeant a)) g) ∧
          ((¬ ∃ n, UsedGlobal ω fuel (Ext.graphql P dist) (compilationMeant a c) schema w (tree (rootMeant a)) n) →
            g = []) ∧
          ∀ p, FoundIn (tree (rootMeant a)) p → ∃ contents d frags m T₀, w.read p = .ok contents ∧
            (∃ ts, TokensOf (P.place contents.toList) contents.toList ts ∧ IsDocument [d] ts) ∧
            InScope (Ext.graphql P dist) w (compilationMeant a c) p contents frags ∧ serverRoot d = some T₀ ∧
            HoldsModule f.world (w.resolve (outputPath p)) m ∧
            TypesAdmit (srv.document (fun _ => none)) applies scalars env frags d T₀ m g ∧
            (ExactFile (Ext.graphql P dist) w (compilationMeant a c) (srv.document (fun _ => none)) schema scalars env p →
              TypesAdmitOnly (srv.document (fun _ => none)) applies scalars env frags d T₀ m g) := by
  have hcfg := configBytes_is (say := say) hconfig
  obtain ⟨r, hc⟩ := fromCli_of_configIs (cpus := cpus) hcfg
  obtain ⟨sp, hmerge⟩ := fromCli_merge hcfg hc
  have hcomp : CompileConfig.ofRuntime r = compilationMeant a c := by
    rw [hmerge, ofRuntime_meant]; rfl
  have hroot : r.rootDir = rootMeant a := by
    have := congrArg CompileConfig.rootDir hcomp
    exact this
  have hsp : r.schemaPath = path := by
    rw [hmerge]; simp [RuntimeConfig.merge, hpath]
  have hthreads : r.numberThreads = threadsMeant a c cpus := by
    rw [hmerge]
    unfold threadsMeant
    cases h : a.numThreads with
    | some n => simp [RuntimeConfig.merge, h]
    | none =>
      cases h' : c.numThreads with
      | some n => simp [RuntimeConfig.merge, h, h']
      | none =>
        simp only [RuntimeConfig.merge, h, h', Option.or_none, Option.getD_none]
        split <;> omega
  have hargs : parseArgs words = .ok a := (line_parse hline a).2 ⟨honce, hprefix, hmeans⟩
  have hps : parseSchema r.schemaPath ((schemas r.schemaPath).asJson say).asSchema = .ok schema := by
    have hj := (C125_file_iff say bs j (say bs)).2 ⟨hj, rfl⟩
    have hd := C87_downloaded_document srv hsh
    rw [C62_other_members_do_not_matter _ _ hsame] at hd
    simp only [hsp, hfile, FileRead.asJson, hj, JsonFile.asSchema, hd, parseSchema, hs]
  rw [← hthreads] at ht
  rw [← hcomp, ← hroot] at F
  rw [← hroot] at hn hflat hdoc
  rw [← hcomp, ← hroot]
  have hset : settingsMeant a c = (CompileConfig.ofRuntime r).toTsConfig := by rw [hcomp]; rfl
  rw [hset]
  obtain ⟨hr, hd, hg⟩ := C114_paths_apart F.ordinary
  constructor
  · have hv := F.schemaFit.valid
    obtain ⟨N, hN⟩ := C133_completes (rootPath := r.rootDir) (loaded_consistent hv hs) hr hd hn hflat hdoc
      (fun p hp => (gqlFile_ends hv hs (F.fine.files p hp)).1) (fun p hp => (gqlFile_ends hv hs (F.fine.files p hp)).2)
      (fun _ _ _ _ _ ht => inputs_acc hs F.fine.inputs F.fine.noNesting ht)
    refine ⟨N, fun fuel hf ω ω' => ?_⟩
    obtain ⟨n, K, ms, w', _, R⟩ := hN fuel hf ω ω' (fun n => (n % r.numberThreads, 1)) r.numberThreads ht
      (fun _ => Nat.one_pos) (roundRobin_fair _)
    obtain ⟨w'', R, _⟩ := C66_whole_program hr hd hn K ms w' R
    obtain ⟨sched, hreach⟩ := R.reached
    exact ⟨_, .ran a _ hargs (.finished r schema sched ms w'' K.pool hc hps hreach R.finished R.globals)⟩
  · intro fuel ω ω' i run
    cases run with
    | stopped e h => rw [hargs] at h; cases h
    | ran a' f ha hrun =>
    obtain rfl : a = a' := Except.ok.inj (hargs.symm.trans ha)
    obtain ⟨⟨s, ms, R, hexit⟩, _⟩ := C133_program hrun hc ht hps hflat hdoc hn hr hd hg
    refine ⟨f, rfl, ?_, fun scalars env he => ?_⟩
    · rw [hexit]
      exact (C111_valid_project_succeeds F.schemaFit.valid hs F.fine hr hd hg R _).1
    · exact (C131_right_types hs F R .plain scalars env he).2

end

/-! ### Concrete cases -/

theorem demo_flat : NoSubdirs Demo.fileTree := by
  refine ⟨_, _, rfl, fun e he => ?_⟩
  simp only [List.mem_cons, List.not_mem_nil, or_false] at he
  rcases he with rfl | rfl
  · exact .inl ⟨_, rfl⟩
  · exact .inl ⟨_, rfl⟩

/-- **C133.** The demo project of two documents completes with five threads. -/
theorem C133_two_documents : ∃ N, ∀ fuel, N ≤ fuel → ∀ (ω : Path → Hash) (ω' : Hash),
    ∃ F ms w', FineRunsTo ω ω' fuel Demo.ext Demo.cfg Demo.schema ⟨true, ["r"]⟩ Demo.fileTree 5 Demo.world F ms w' := by
  obtain ⟨N, hN⟩ := C133_completes (rootPath := ⟨true, ["r"]⟩) demo_consistent demo_noOutputRead
    demo_outputsDistinct demo_nodup demo_flat ⟨Demo.qPath, (mem_filesOf _ _).1 (by decide +kernel)⟩
    (fun p hp => demo_namesDiffer hp)
    (fun p hp => (C103_file_returns_iff (ω := fun _ => .inOrder) demo_consistent (demo_namesDiffer hp)).1
      ⟨5, demo_compilesWith hp⟩) demo_inputsEnd
  refine ⟨N, fun fuel hf ω ω' => ?_⟩
  obtain ⟨_, F, ms, w', _, R⟩ := hN fuel hf ω ω' (fun n => (n % 5, 1)) 5 (by decide) (fun _ => Nat.one_pos)
    (roundRobin_fair 5)
  exact ⟨F, ms, w', R⟩

/-- **C133.** The project of C131 without a configuration file, on a machine with sixteen processors: eight threads. -/
theorem C133_demo :
    threadsMeant Demo.wayArgs {} 16 = 8 ∧
    (∃ fuel f, Invokes (fun _ => .reversed) .inOrder fuel Demo.wayExt .plain 16
      (fun _ => ((FileRead.notFound "no such file").asJson (fun _ => "EOF")).asConfig)
      (fun p => ((Demo.waySchemas p).asJson (fun _ => "EOF")).asSchema) (fun _ => Demo.toolTree) Demo.wayWorld
      ["/r", "-s", "/s.json"] (.ran f)) ∧
    ∀ fuel ω ω' i, Invokes ω ω' fuel Demo.wayExt .plain 16
        (fun _ => ((FileRead.notFound "no such file").asJson (fun _ => "EOF")).asConfig)
        (fun p => ((Demo.waySchemas p).asJson (fun _ => "EOF")).asSchema) (fun _ => Demo.toolTree) Demo.wayWorld
        ["/r", "-s", "/s.json"] i →
      ∃ f m, i = .ran f ∧ f.exit.code = 0 ∧ HoldsModule f.world "/r/q.graphql.d.ts" m := by
  obtain ⟨⟨N, hN⟩, hall⟩ := C133_whole_way (P := Demo.parser) (dist := Demo.toolExt.dist) (colours := .plain) (cpus := 16)
    (say := fun _ => "EOF") (configs := fun _ => .notFound "no such file") (schemas := Demo.waySchemas)
    (tree := fun _ => Demo.toolTree) (w := Demo.wayWorld) (words := Demo.wayWords) (ss := Demo.waySettings)
    (a := Demo.wayArgs) (c := {})
    (schema := Demo.toolSchema) Demo.server tool_shallow (path := ⟨true, ["s.json"]⟩) rfl ⟨_, rfl, way_text⟩
    (by rw [way_tree]; exact .refl _) way_line way_accepted.1 way_accepted.2.1 way_accepted.2.2
    (.inr ⟨rfl, rfl, _, rfl⟩) rfl (by decide) tool_loads way_sound (by decide +kernel)
    ⟨_, _, rfl, by intro e he; obtain rfl := List.mem_singleton.1 he; exact .inl ⟨_, rfl⟩⟩
    ⟨Demo.qPath, (mem_filesOf _ _).1 (by decide +kernel)⟩
  refine ⟨by decide, ⟨N, hN N (Nat.le_refl _) _ _⟩, fun fuel ω ω' i run => ?_⟩
  obtain ⟨f, h1, h2, hg⟩ := hall fuel ω ω' i run
  obtain ⟨g, _, _, hfiles⟩ := hg stringScalars tightEnv tool_env
  obtain ⟨contents, d, frags, m, T₀, hr, _, hsc, hT, hm, had, honly⟩ := hfiles Demo.qPath
    ((mem_filesOf _ _).1 (by decide +kernel))
  exact ⟨f, m, h1, h2, hm⟩

end Qlc
