import Verif.Lemmas.FineFair
import Verif.Props.Crash
import Verif.Props.Program
/-
Property C102: under a fair scheduler the program with single file operations runs to its end.
-/
set_option autoImplicit false

namespace Qlc
open Spec

section
variable {ω : Path → Hash} {ω' : Hash} {fuel threads : Nat} {ext : Ext} {cfg : CompileConfig}
  {schema : Schema} {w : World} {root : Entry} {rootPath : Path}

/-- A state of an infinite schedule is reached by its first steps. -/
theorem fineAt_run (compile : Path → Ops FileOutcome) (threads : Nat) (F : FinePool)
    (sched : Nat → Nat × Nat) (n : Nat) :
    fineAt compile threads F sched n = F.run compile threads ((List.range n).map sched) := by
  induction n with
  | zero => rfl
  | succ n ih =>
    rw [fineAt, ih, List.range_succ, List.map_append]
    unfold FinePool.run
    rw [List.foldl_append]
    rfl

/-- The run of the program is one of those considered. -/
theorem fineRun_init (hr : NoOutputRead w cfg root) (hd : OutputsDistinct w root)
    (hn : (filesOf root).Nodup)
    (hall : ∀ p, FoundIn root p → ∃ ms gs, CompilesWith ω fuel ext cfg schema w p ms gs)
    (sched : Nat → Nat × Nat) (hfair : Fair threads (fun n => (sched n).1))
    (hsizes : Progressing (fun n => (sched n).2)) :
    FineRun (fun p => compileOps (ω p) fuel ext cfg schema p) threads
      (fineAt (fun p => compileOps (ω p) fuel ext cfg schema p) threads (FinePool.init w threads root) sched)
      sched := by
  refine ⟨fun _ => rfl, hfair, hsizes, ?_⟩
  intro n i p f hRun hf m out hstep
  rw [fineAt_run] at hRun hf hstep
  obtain ⟨sched', C, hC, S⟩ := sim_run ω fuel ext cfg schema threads hr hd hn ((List.range n).map sched)
  have K := known_of_reached ω fuel ext cfg schema threads hr hd hn hC
  generalize (FinePool.init w threads root).run (fun p => compileOps (ω p) fuel ext cfg schema p) threads
    ((List.range n).map sched) = F at *
  obtain ⟨p', hR', T⟩ := S.flying i f hf
  have hRC : Running C i p := by
    unfold Running at hRun ⊢
    rw [S.pool] at hRun
    exact hRun
  obtain rfl := hRC.unique hR'
  have hfound := K.found i p hRC
  have hread : ∀ q, Spec.Reads w cfg p q → F.pool.world.read q = w.read q := by
    intro q hq
    unfold World.read
    rw [S.resolve, S.disk _ ?_]
    · exact K.written.stable.others _ (hr p q hfound hq)
    · intro j f p' _ hj e
      exact hr p q hfound hq ⟨p', K.found j p' hj, e⟩
  rcases onTrack_step (compileOps_well (ω p) fuel ext cfg schema w p) S.resolve S.writeErr hread T m with
    ⟨f', W', e, _⟩ | ⟨a, e, ha, _⟩
  · rw [e] at hstep
    simp at hstep
  · rw [e] at hstep
    obtain rfl := Sum.inr.inj hstep
    obtain ⟨ms, gs, hc⟩ := hall p hfound
    refine ⟨gs, ms, ?_⟩
    rw [← ha, compileOps_run, compilesWith_iff.1 hc]

/-- **C102.** Let every file of the tree compile, alone, in finite time and without a panic.  Then whatever
the number of threads, however their single file operations are interleaved and however many bytes each
partial write manages to write: if every worker gets a turn again and again, all workers exit after
finitely many system calls. -/
theorem C102_workers_finish (hr : NoOutputRead w cfg root) (hd : OutputsDistinct w root)
    (hn : (filesOf root).Nodup)
    (hall : ∀ p, FoundIn root p → ∃ ms gs, CompilesWith ω fuel ext cfg schema w p ms gs)
    (sched : Nat → Nat × Nat) (hfair : Fair threads (fun n => (sched n).1))
    (hsizes : Progressing (fun n => (sched n).2)) :
    ∃ N, ∀ n, N ≤ n → (fineAt (fun p => compileOps (ω p) fuel ext cfg schema p) threads
      (FinePool.init w threads root) sched n).pool.finished = true :=
  (fineRun_init hr hd hn hall sched hfair hsizes).finishes rfl

/-- What the workers have collected when nothing is left to do. -/
theorem aggregate_used {sched : List Nat} {s : PoolSt World} (hr : NoOutputRead w cfg root)
    (hall : ∀ p, FoundIn root p → ∃ ms gs, CompilesWith ω fuel ext cfg schema w p ms gs)
    (hreach : ReachedBy (poolCompile ω fuel ext cfg schema) w threads root sched s)
    (hf : s.finished = true) (hp : pending s = []) (g : String) :
    g ∈ s.aggregate.2 ↔ UsedGlobal ω fuel ext cfg schema w root g := by
  have hret : ∀ p, FoundIn root p →
      ∃ gs ms, (poolCompile ω fuel ext cfg schema w p).1 = .done gs ms := by
    intro p hp
    obtain ⟨ms, gs, hc⟩ := hall p hp
    exact ⟨gs, ms, compilesWith_iff.1 hc⟩
  obtain ⟨u1, _⟩ := C55_results_independent_of_schedule (poolCompile ω fuel ext cfg schema) w threads
    root (globalsOfFile ω fuel ext cfg schema w) (messagesOfFile ω fuel ext cfg schema w)
    (Stable w root) ⟨rfl, rfl, fun _ _ => rfl⟩
    (by
      intro w1 hs p hp
      have hgc := generateFile_congr cfg w w1 (ω p) fuel ext schema p
        (fun q hq => hs.read cfg w root hr hp hq)
      refine ⟨?_, ?_⟩
      · rw [poolCompile_outcome ω fuel ext cfg schema p w w1 hgc hs.resolve hs.writeErr]
        obtain ⟨gs, m, e⟩ := hret p hp
        unfold globalsOfFile messagesOfFile
        rw [e]
      · rw [poolCompile_world]
        split
        · obtain ⟨x, y, z⟩ := write_world w1 (outputPath p) _
          refine ⟨x.trans hs.resolve, y.trans hs.writeErr, fun id hid => ?_⟩
          rw [z id ?_]
          · exact hs.others id hid
          · rintro rfl
            exact hid ⟨p, hp, by rw [hs.resolve]⟩
        · exact hs)
    sched s hreach hf hp
  rw [u1]
  constructor
  · rintro ⟨p, hp, hg⟩
    obtain ⟨gs, msgs, e⟩ := hret p hp
    unfold globalsOfFile at hg
    rw [e] at hg
    exact ⟨p, msgs, gs, hp, compilesWith_of_done e, hg⟩
  · rintro ⟨p, msgs, gs, hp, hc, hg⟩
    refine ⟨p, hp, ?_⟩
    unfold globalsOfFile
    rw [compilesWith_iff.1 hc]
    exact hg

theorem finishWork_ne_none {agg : List Msg × List String} (W : World) (rootPath : Path)
    (hg : agg.2 ≠ [] → (compileGlobals ω' fuel cfg.toTsConfig schema agg.2).isSome = true) :
    finishWork ω' fuel cfg schema W rootPath agg ≠ none := by
  unfold finishWork compileGlobalTypesFile
  by_cases he : agg.2 = []
  · rw [if_pos (by simp [he])]
    simp
  · rw [if_neg (by simpa using he)]
    have := hg he
    cases hc : compileGlobals ω' fuel cfg.toTsConfig schema agg.2 with
    | none => rw [hc] at this; simp at this
    | some r =>
      cases r with
      | error e => simp
      | ok text =>
        simp only
        generalize W.write (globalsPath cfg rootPath) text = x
        obtain ⟨x1, x2⟩ := x
        cases x1 <;> simp

theorem fine_completes (hr : NoOutputRead w cfg root) (hd : OutputsDistinct w root)
    (hn : (filesOf root).Nodup)
    (hall : ∀ p, FoundIn root p → ∃ ms gs, CompilesWith ω fuel ext cfg schema w p ms gs)
    (hglob : ∀ used : List String, (∀ g, g ∈ used ↔ UsedGlobal ω fuel ext cfg schema w root g) →
      (compileGlobals ω' fuel cfg.toTsConfig schema used).isSome = true)
    {F : FinePool} (hF : FineReached ω fuel ext cfg schema w root threads F) (hf : F.pool.finished = true)
    (hp : pending F.pool = []) (sizes : Nat → Nat) (hsizes : Progressing sizes) :
    ∃ k ms w', Flight.steps F.pool.world ((List.range k).map sizes)
        (.ops (finishOps ω' fuel cfg schema rootPath F.pool.aggregate)) = (.inr (some ms), w') ∧
      FineRunsTo ω ω' fuel ext cfg schema rootPath root threads w F ms w' := by
  obtain ⟨sched, hreach⟩ := C66_interleaving_refines hr hd hn F hF hf
  have hused := aggregate_used hr hall hreach hf hp
  obtain ⟨k, a, w', hk⟩ := returns_ops (finishOps ω' fuel cfg schema rootPath F.pool.aggregate)
    F.pool.world sizes hsizes
  have hsome : ∃ ms, a = some ms := by
    have hW := finishOps_well ω' fuel cfg schema F.pool.world rootPath F.pool.aggregate
    rcases onTrack_steps hW ((List.range k).map sizes)
      (.ops (finishOps ω' fuel cfg schema rootPath F.pool.aggregate)) F.pool.world rfl rfl (fun _ _ => rfl)
      (.before _ .refl rfl) with ⟨f', e, _⟩ | ⟨e, _⟩
    · rw [hk] at e; simp at e
    · rw [hk] at e
      have ha := Sum.inr.inj e
      rw [finishOps_run] at ha
      cases hfw : finishWork ω' fuel cfg schema F.pool.world rootPath F.pool.aggregate with
      | some x => rw [hfw] at ha; exact ⟨_, ha⟩
      | none =>
        exfalso
        exact finishWork_ne_none F.pool.world rootPath (fun _ => hglob F.pool.aggregate.2 hused) hfw
  obtain ⟨ms, rfl⟩ := hsome
  exact ⟨k, ms, w', hk, hF, hf, hp, ⟨_, hk.symm⟩⟩

/-- **C102.** With one thread the whole program runs to its end: under any schedule as above all workers
exit, every file has then been compiled, its output is what compiling it alone leaves, and the main thread
finishes the globals file after finitely many system calls. -/
theorem C102_one_thread_completes (hr : NoOutputRead w cfg root) (hd : OutputsDistinct w root)
    (hn : (filesOf root).Nodup)
    (hall : ∀ p, FoundIn root p → ∃ ms gs, CompilesWith ω fuel ext cfg schema w p ms gs)
    (hglob : ∀ used : List String, (∀ g, g ∈ used ↔ UsedGlobal ω fuel ext cfg schema w root g) →
      (compileGlobals ω' fuel cfg.toTsConfig schema used).isSome = true)
    (sched : Nat → Nat × Nat) (hfair : Fair 1 (fun n => (sched n).1))
    (hsizes : Progressing (fun n => (sched n).2)) :
    ∃ N, ∀ n, N ≤ n → ∃ F, F = fineAt (fun p => compileOps (ω p) fuel ext cfg schema p) 1
        (FinePool.init w 1 root) sched n ∧
      F.pool.finished = true ∧ pending F.pool = [] ∧ (∀ p, p ∈ F.pool.log ↔ FoundIn root p) ∧
      (∀ p, FoundIn root p → F.pool.world.disk (w.resolve (outputPath p)) =
        (poolCompile ω fuel ext cfg schema w p).2.disk (w.resolve (outputPath p))) ∧
      ∀ sizes, Progressing sizes → ∃ k ms w', Flight.steps F.pool.world ((List.range k).map sizes)
          (.ops (finishOps ω' fuel cfg schema rootPath F.pool.aggregate)) = (.inr (some ms), w') ∧
        FineRunsTo ω ω' fuel ext cfg schema rootPath root 1 w F ms w' := by
  obtain ⟨N, hN⟩ := C102_workers_finish hr hd hn hall sched hfair hsizes
  refine ⟨N, fun n hle => ⟨_, rfl, hN n hle, ?_⟩⟩
  have hF : FineReached ω fuel ext cfg schema w root 1 (fineAt
      (fun p => compileOps (ω p) fuel ext cfg schema p) 1 (FinePool.init w 1 root) sched n) :=
    ⟨_, fineAt_run _ _ _ _ _⟩
  have hf := hN n hle
  generalize fineAt (fun p => compileOps (ω p) fuel ext cfg schema p) 1 (FinePool.init w 1 root) sched n
    = F at *
  obtain ⟨sched', hreach⟩ := C66_interleaving_refines hr hd hn F hF hf
  have hp := finished_pending hreach (by omega) (lone_no_early_quit _ w root sched') hf
  have h51 := C51_one_thread_compiles_everything _ w root sched' _ hreach hf
  have h57 := C57_files_independent_of_schedule ω fuel ext cfg schema hr hd 1 sched' _ hreach hf hp
  exact ⟨hp, h51.2, h57.2.2.1, fun sizes hs => fine_completes hr hd hn hall hglob hF hf hp sizes hs⟩

end

/-! ### The demo -/

theorem demo_compilesWith {p : Path} (hp : FoundIn Demo.fileTree p) :
    ∃ ms gs, CompilesWith (fun _ => .inOrder) 5 Demo.ext Demo.cfg Demo.schema Demo.world p ms gs := by
  have key : ∀ p, (match (poolCompile (fun _ => .inOrder) 5 Demo.ext Demo.cfg Demo.schema Demo.world p).1 with
      | .done _ _ => true
      | _ => false) = true →
      ∃ ms gs, CompilesWith (fun _ => .inOrder) 5 Demo.ext Demo.cfg Demo.schema Demo.world p ms gs := by
    intro p h
    split at h
    · rename_i gs ms e
      exact ⟨ms, gs, compilesWith_of_done e⟩
    · simp at h
  rcases demo_found hp with rfl | rfl
  · exact key _ (by decide +kernel)
  · exact key _ (by decide +kernel)

/-- Input objects are nested at most this deep below a type. -/
def inputDepth (schema : Schema) : Nat → SType → Bool
  | 0, _ => false
  | n + 1, t =>
    match t.definition with
    | .inputObject _ fields => fields.all (fun e =>
        match e.2.type.definition with
        | .inputObject =>
          match schema.getType e.2.type.name with
          | none => true
          | some t' => inputDepth schema n t'
        | _ => true)
    | _ => true

theorem addSub_of_depth (ω : Hash) (schema : Schema) : ∀ (n : Nat) (t : SType),
    inputDepth schema n t = true → ∀ m, (addSubInputObjects ω schema n t m).isSome = true
  | 0, _, h, _ => by simp [inputDepth] at h
  | n + 1, t, h, m => by
    unfold inputDepth at h
    unfold addSubInputObjects
    cases hd : t.definition with
    | inputObject name fields =>
      rw [hd] at h
      simp only [List.all_eq_true] at h ⊢
      refine addSubInputFields_isSome schema _ _ ?_ m
      intro f hf hk t' ht' m
      rw [(ω.isPerm _ _).mem_iff, List.mem_map] at hf
      obtain ⟨e, he, rfl⟩ := hf
      have := h e he
      rw [hk] at this
      simp only [ht'] at this
      exact addSub_of_depth ω schema n t' this m
    | _ => simp

theorem demo_depth : Demo.schema.all (fun e => inputDepth Demo.schema 5 e.2) = true := by decide +kernel

theorem addSub_demo (u : String) (t : SType) (ht : Demo.schema.getType u = some t) (m : NameToType) :
    (addSubInputObjects .inOrder Demo.schema 5 t m).isSome = true := by
  refine addSub_of_depth _ _ _ _ ?_ m
  have h := demo_depth
  rw [List.all_eq_true] at h
  exact h _ (AMap.mem_of_get? ht)

theorem demo_globals_end (used : List String) :
    (compileGlobals .inOrder 5 Demo.cfg.toTsConfig Demo.schema used).isSome = true := by
  have := globalNameLoop_isSome .inOrder 5 Demo.schema (Hash.inOrder.perm ["typescript.rs:201"] used)
    (fun u hu t ht m => addSub_demo u t ht m) []
  unfold compileGlobals globalTypesFromNames
  cases hl : globalNameLoop .inOrder 5 Demo.schema (Hash.inOrder.perm ["typescript.rs:201"] used) [] with
  | none => rw [hl] at this; simp at this
  | some r =>
    cases r with
    | error e => simp
    | ok m =>
      simp only
      cases seqE ((sortBy Prod.fst (Hash.inOrder.perm ["typescript.rs:209"] m)).map
        (fun e => globalDef .inOrder Demo.cfg.toTsConfig e.1 e.2)) <;> simp

/-- **C102.** The demo, one byte at a time. -/
theorem C102_demo : ∃ N F, F = fineAt (fun p => compileOps .inOrder 5 Demo.ext Demo.cfg Demo.schema p) 1
      (FinePool.init Demo.world 1 Demo.fileTree) (fun _ => (0, 1)) N ∧ F.pool.finished = true ∧
    ∃ k ms w', Flight.steps F.pool.world (List.replicate k 1)
        (.ops (finishOps .inOrder 5 Demo.cfg Demo.schema ⟨true, ["r"]⟩ F.pool.aggregate)) =
          (.inr (some ms), w') := by
  obtain ⟨N, h⟩ := C102_one_thread_completes (ω := fun _ => .inOrder) (ω' := .inOrder) (fuel := 5)
    (ext := Demo.ext) (cfg := Demo.cfg) (schema := Demo.schema) (w := Demo.world) (root := Demo.fileTree)
    (rootPath := ⟨true, ["r"]⟩) demo_noOutputRead demo_outputsDistinct demo_nodup
    (fun p hp => demo_compilesWith hp) (fun used _ => demo_globals_end used) (fun _ => (0, 1))
    (fun i hi n => ⟨n, Nat.le_refl _, by show 0 = i; omega⟩) (fun _ => Nat.one_pos)
  obtain ⟨F, e, hf, _, _, _, hs⟩ := h N (Nat.le_refl _)
  obtain ⟨k, ms, w', hk, _⟩ := hs (fun _ => 1) (fun _ => Nat.one_pos)
  refine ⟨N, F, e, hf, k, ms, w', ?_⟩
  have : (List.range k).map (fun _ => 1) = List.replicate k 1 := by
    rw [List.map_const', List.length_range]
  rw [← this]
  exact hk

end Qlc
