import Verif.Lemmas.FinePool
import Verif.Spec.Crash
/-
Runs stopped at any point and runs with interleaved file operations: C64 (what a stopped run leaves
behind), C65 (running again repairs it), C66 (interleaving file operations changes nothing).
-/
set_option autoImplicit false

namespace Qlc
open Spec

/-! ### Only outputs and the globals file are written, whatever happens -/

/-- The program writes nothing but `out`. -/
inductive WritesOnly {α : Type} (out : Path) : Ops α → Prop where
  | ret (a : α) : WritesOnly out (.ret a)
  | read (q : Path) (k : Except String String → Ops α) : (∀ r, WritesOnly out (k r)) →
      WritesOnly out (.read q k)
  | write (c : String) (k : Option String → Ops α) : (∀ e, WritesOnly out (k e)) →
      WritesOnly out (.write out c k)

theorem WritesOnly.bind {α β : Type} {out : Path} {o : Ops α} (h : WritesOnly out o) (f : α → Ops β)
    (hf : ∀ a, WritesOnly out (f a)) : WritesOnly out (o.bind f) := by
  induction h with
  | ret a => exact hf a
  | read q k _ ih => exact .read q _ ih
  | write c k _ ih => exact .write c _ ih

theorem importLoopOps_writes (cfg : CompileConfig) (cf cd out : Path)
    (rec : Path → String → ImportSt → Ops (Option (PanicOr ImportSt)))
    (h : ∀ p c s, WritesOnly out (rec p c s)) : ∀ (lines : List (List Char)) (idx : Nat) (s : ImportSt),
    WritesOnly out (importLoopOps cfg cf cd rec idx lines s)
  | [], _, _ => .ret _
  | line :: rest, idx, s => by
    have ih := importLoopOps_writes cfg cf cd out rec h rest (idx + 1)
    rw [importLoopOps]
    cases lineKind line with
    | skip => exact ih _
    | stop => exact .ret _
    | «import» after =>
      simp only
      cases getFilePathOfFragment cfg after cd with
      | none => exact .ret _
      | some q =>
        refine .read q _ fun r => ?_
        cases r with
        | error e => exact ih _
        | ok c =>
          refine (h q c s).bind _ fun r => ?_
          cases r with
          | none => exact .ret _
          | some r =>
            cases r with
            | panic => exact .ret _
            | done s' => exact ih _

theorem addImportedOps_writes (cfg : CompileConfig) (out : Path) : ∀ (n : Nat) (p : Path) (c : String)
    (s : ImportSt), WritesOnly out (addImportedOps cfg n p c s)
  | 0, _, _, _ => .ret _
  | n + 1, p, _, s => importLoopOps_writes cfg p p.pop out _ (addImportedOps_writes cfg out n) _ 0 s

theorem compileOps_writesOnly (ω : Hash) (fuel : Nat) (ext : Ext) (cfg : CompileConfig) (schema : Schema)
    (p : Path) : WritesOnly (outputPath p) (compileOps ω fuel ext cfg schema p) := by
  unfold compileOps
  refine .read p _ fun r => ?_
  cases r with
  | error e => exact .ret _
  | ok contents =>
    simp only
    cases parseGraphqlFile ext contents p with
    | error m => exact .ret _
    | ok d =>
      refine (addImportedOps_writes cfg _ fuel p contents _).bind _ fun r => ?_
      cases r with
      | none => exact .ret _
      | some r =>
        cases r with
        | panic => exact .ret _
        | done st =>
          simp only
          cases Operation.compile ω fuel ⟨schema, cfg.showDeprecationWarnings,
              (parseForeignFragments ω ext p st.imports st.messages).1⟩ d with
          | none => exact .ret _
          | some r =>
            obtain ⟨r, ws⟩ := r
            cases r with
            | error es => exact .ret _
            | ok op =>
              simp only
              cases compileIr ω op cfg.toTsConfig schema with
              | error e => exact .ret _
              | ok c => exact .write _ _ (fun e => by cases e <;> exact .ret _)

theorem finishOps_writesOnly (ω : Hash) (fuel : Nat) (cfg : CompileConfig) (schema : Schema)
    (rootPath : Path) (agg : List Msg × List String) :
    WritesOnly (globalsPath cfg rootPath) (finishOps ω fuel cfg schema rootPath agg) := by
  unfold finishOps
  cases agg.2.isEmpty with
  | true => exact .ret _
  | false =>
    simp only [Bool.false_eq_true, if_false]
    cases compileGlobals ω fuel cfg.toTsConfig schema agg.2 with
    | none => exact .ret _
    | some r =>
      cases r with
      | error e => exact .ret _
      | ok c => exact .write _ _ (fun e => by cases e <;> exact .ret _)

/-- A program under way writes nothing but `out`. -/
def FlightOnly {α : Type} (out : Path) : Flight α → Prop
  | .ops o => WritesOnly out o
  | .writing p _ _ next => p = out ∧ WritesOnly out next

theorem flightOnly_step {α : Type} {out : Path} {f f' : Flight α} {W W' : World} {m : Nat}
    (h : FlightOnly out f) (e : f.step W m = .inl (f', W')) :
    FlightOnly out f' ∧ W'.resolve = W.resolve ∧ W'.writeErr = W.writeErr ∧
      ∀ id, id ≠ W.resolve out → W'.disk id = W.disk id := by
  cases f with
  | ops o =>
    cases o with
    | ret a => simp [Flight.step] at e
    | read q k =>
      simp only [Flight.step, Sum.inl.injEq, Prod.mk.injEq] at e
      obtain ⟨rfl, rfl⟩ := e
      cases h with
      | read _ _ h => exact ⟨h _, rfl, rfl, fun _ _ => rfl⟩
    | write q c k =>
      cases h with
      | write _ _ h =>
        simp only [Flight.step] at e
        cases he : W.writeErr (W.resolve out) with
        | none =>
          simp only [he, Sum.inl.injEq, Prod.mk.injEq] at e
          obtain ⟨rfl, rfl⟩ := e
          exact ⟨⟨rfl, h _⟩, rfl, rfl, fun id hid => by simp [World.set, hid]⟩
        | some el =>
          obtain ⟨er, l⟩ := el
          cases l with
          | none =>
            simp only [he, Sum.inl.injEq, Prod.mk.injEq] at e
            obtain ⟨rfl, rfl⟩ := e
            exact ⟨h _, rfl, rfl, fun _ _ => rfl⟩
          | some l =>
            simp only [he, Sum.inl.injEq, Prod.mk.injEq] at e
            obtain ⟨rfl, rfl⟩ := e
            exact ⟨⟨rfl, h _⟩, rfl, rfl, fun id hid => by simp [World.set, hid]⟩
  | writing p t n next =>
    obtain ⟨rfl, h⟩ := h
    simp only [Flight.step] at e
    split at e
    · simp only [Sum.inl.injEq, Prod.mk.injEq] at e
      obtain ⟨rfl, rfl⟩ := e
      exact ⟨h, rfl, rfl, fun _ _ => rfl⟩
    · simp only [Sum.inl.injEq, Prod.mk.injEq] at e
      obtain ⟨rfl, rfl⟩ := e
      exact ⟨⟨rfl, h⟩, rfl, rfl, fun id hid => by simp [World.set, hid]⟩

/-- Files compiled, owed or lost are files of the tree; this holds whatever the compiler returns. -/
def Kept {σ : Type} (root : Entry) (s : PoolSt σ) : Prop :=
  ∀ p ∈ (pending s).flatMap workFiles, p ∈ filesOf root

theorem step_kept {σ : Type} (c : Compiler σ) (threads : Nat) (root : Entry) (s : PoolSt σ) (i : Nat)
    (I : Kept root s) : Kept root (s.step c threads i) := by
  intro p hp
  cases step_effect c threads s i with
  | quiet h _ _ _ _ _ => exact I p ((h.flatMap_right _).mem_iff.1 hp)
  | listed q es ws rest h hr h' _ _ _ _ _ =>
    refine I p ((h.flatMap_right _).mem_iff.2 ?_)
    have := (h'.flatMap_right workFiles).mem_iff.1 hp
    rw [List.flatMap_append] at this
    rw [List.flatMap_cons]
    simp only [workFiles]
    rw [(filesOf_dir_ok hr).1]
    exact this
  | unlisted e err q rest h hr h' _ _ _ _ _ =>
    refine I p ((h.flatMap_right _).mem_iff.2 ?_)
    rw [List.flatMap_cons]
    exact List.mem_append_right _ ((h'.flatMap_right workFiles).mem_iff.1 hp)
  | compiled q gs ms rest h hr h' _ _ _ _ =>
    refine I p ((h.flatMap_right _).mem_iff.2 ?_)
    rw [List.flatMap_cons]
    exact List.mem_append_right _ ((h'.flatMap_right workFiles).mem_iff.1 hp)
  | panicked q rest h hr h' _ _ _ _ =>
    refine I p ((h.flatMap_right _).mem_iff.2 ?_)
    rw [List.flatMap_cons]
    exact List.mem_append_right _ ((h'.flatMap_right workFiles).mem_iff.1 hp)

theorem running_found {σ : Type} {root : Entry} {s : PoolSt σ} (h : Kept root s) {i : Nat} {p : Path}
    (hr : Running s i p) : FoundIn root p := by
  obtain ⟨rest, hp⟩ := running_pending hr
  rw [← mem_filesOf]
  refine h p ((hp.flatMap_right _).mem_iff.2 ?_)
  simp [workFiles]

theorem step_world_const {threads : Nat} {s : PoolSt World} {i : Nat} (out : FileOutcome) :
    (s.step (fun w _ => (out, w)) threads i).world = s.world := by
  cases step_effect (fun w _ => (out, w)) threads s i with
  | quiet _ h _ _ _ _ => exact h
  | listed _ _ _ _ _ _ _ h _ _ _ _ => exact h
  | unlisted _ _ _ _ _ _ _ h _ _ _ _ => exact h
  | compiled _ _ _ _ _ h _ _ _ _ _ => simp only [Prod.mk.injEq] at h; exact h.2.symm
  | panicked _ _ _ h _ _ _ _ _ => simp only [Prod.mk.injEq] at h; exact h.2.symm

section Touch
variable (ω : Path → Hash) (fuel : Nat) (ext : Ext) (cfg : CompileConfig) (schema : Schema) {w : World}
  {root : Entry} (threads : Nat)

/-- Facts about all states of the fine-grained pool. -/
structure Touch (w : World) (root : Entry) (F : FinePool) : Prop where
  kept : Kept root F.pool
  resolve : F.pool.world.resolve = w.resolve
  writeErr : F.pool.world.writeErr = w.writeErr
  flying : ∀ i f, F.flights i = some f → ∃ p, Running F.pool i p ∧ FlightOnly (outputPath p) f
  disk : ∀ id, ¬ IsOutput w root id → F.pool.world.disk id = w.disk id

theorem touch_step {F : FinePool} (T : Touch w root F) (im : Nat × Nat) :
    Touch w root (F.step (fun p => compileOps (ω p) fuel ext cfg schema p) threads im) := by
  obtain ⟨i, m⟩ := im
  unfold FinePool.step
  simp only
  cases hme : F.pool.workers[i]? with
  | none => exact T
  | some me =>
    simp only
    by_cases hrun : ∃ p, me.pc = .running (.graphQl p)
    · obtain ⟨p, hpc⟩ := hrun
      have hRun : Running F.pool i p := ⟨me, hme, hpc⟩
      simp only [hpc]
      cases hfl : F.flights i with
      | none =>
        refine ⟨T.kept, T.resolve, T.writeErr, ?_, T.disk⟩
        intro j f hj
        simp only [FinePool.setFlight] at hj
        by_cases hji : j = i
        · subst hji
          simp only [if_true, Option.some.injEq] at hj
          subst hj
          exact ⟨p, hRun, compileOps_writesOnly (ω p) fuel ext cfg schema p⟩
        · simp only [hji, if_false] at hj
          exact T.flying j f hj
      | some f =>
        simp only
        obtain ⟨p', hR', O⟩ := T.flying i f hfl
        obtain rfl := hRun.unique hR'
        cases hs : f.step F.pool.world m with
        | inl r =>
          obtain ⟨f', W'⟩ := r
          obtain ⟨O', r1, r2, r3⟩ := flightOnly_step O hs
          refine ⟨T.kept, r1.trans T.resolve, r2.trans T.writeErr, ?_, ?_⟩
          · intro j g hj
            simp only [FinePool.setFlight] at hj
            by_cases hji : j = i
            · subst hji
              simp only [if_true, Option.some.injEq] at hj
              subst hj
              exact ⟨p, hRun, O'⟩
            · simp only [hji, if_false] at hj
              exact T.flying j g hj
          · intro id hid
            show W'.disk id = _
            rw [r3 id ?_]
            · exact T.disk id hid
            · rintro rfl
              exact hid ⟨p, running_found T.kept hRun, by rw [T.resolve]⟩
        | inr a =>
          have goal : ∀ a, a ≠ FileOutcome.diverge → Touch w root
              { F.setFlight i none with pool := F.pool.step (fun w _ => (a, w)) threads i } := by
            intro a ha
            refine ⟨step_kept _ threads root _ i T.kept, ?_, ?_, ?_, ?_⟩
            · show (F.pool.step (fun w _ => (a, w)) threads i).world.resolve = _
              rw [step_world_const]; exact T.resolve
            · show (F.pool.step (fun w _ => (a, w)) threads i).world.writeErr = _
              rw [step_world_const]; exact T.writeErr
            · intro j g hj
              simp only [FinePool.setFlight] at hj
              by_cases hji : j = i
              · simp [hji] at hj
              · simp only [hji, if_false] at hj
                obtain ⟨q, hq, Tq⟩ := T.flying j g hj
                exact ⟨q, (step_others_running _ threads F.pool hji q).2 hq, Tq⟩
            · intro id hid
              show (F.pool.step (fun w _ => (a, w)) threads i).world.disk id = _
              rw [step_world_const]; exact T.disk id hid
          cases a with
          | diverge => exact T
          | done gs ms => exact goal _ (by simp)
          | panic => exact goal _ (by simp)
    · have hnr : ∀ p, me.pc ≠ .running (.graphQl p) := fun p e => hrun ⟨p, e⟩
      have hni : ∀ f, F.flights i ≠ some f := by
        intro f hf
        obtain ⟨p, ⟨me', h1, h2⟩, _⟩ := T.flying i f hf
        rw [hme] at h1
        cases h1
        exact hnr p h2
      have goal : Touch w root
          { F with pool := F.pool.step (fun w _ => (.diverge, w)) threads i } := by
        refine ⟨step_kept _ threads root _ i T.kept, ?_, ?_, ?_, ?_⟩
        · show (F.pool.step (fun w _ => (.diverge, w)) threads i).world.resolve = _
          rw [step_world_const]; exact T.resolve
        · show (F.pool.step (fun w _ => (.diverge, w)) threads i).world.writeErr = _
          rw [step_world_const]; exact T.writeErr
        · intro j g hj
          have hji : j ≠ i := fun e => by subst e; exact hni g hj
          obtain ⟨q, hq, Tq⟩ := T.flying j g hj
          exact ⟨q, (step_others_running _ threads F.pool hji q).2 hq, Tq⟩
        · intro id hid
          show (F.pool.step (fun w _ => (.diverge, w)) threads i).world.disk id = _
          rw [step_world_const]; exact T.disk id hid
      cases hpc : me.pc with
      | running wk =>
        cases wk with
        | graphQl p => exact absurd hpc (hnr p)
        | dirEntry e => exact goal
      | _ => exact goal

theorem touch_reached {F : FinePool} (h : FineReached ω fuel ext cfg schema w root threads F) :
    Touch w root F := by
  obtain ⟨sched, rfl⟩ := h
  have key : ∀ (sched : List (Nat × Nat)) (F : FinePool), Touch w root F →
      Touch w root (F.run (fun p => compileOps (ω p) fuel ext cfg schema p) threads sched) := by
    intro sched
    induction sched with
    | nil => intro F T; exact T
    | cons im sched ih => intro F T; exact ih _ (touch_step ω fuel ext cfg schema threads T im)
  refine key sched _ ⟨?_, rfl, rfl, ?_, fun _ _ => rfl⟩
  · intro p hp
    simp only [FinePool.init, init_pending] at hp
    simpa [workFiles] using hp
  · intro i f h
    simp [FinePool.init] at h

theorem flightOnly_steps {α : Type} {out : Path} : ∀ (sizes : List Nat) (f : Flight α) (W : World),
    FlightOnly out f →
    (Flight.steps W sizes f).2.resolve = W.resolve ∧ (Flight.steps W sizes f).2.writeErr = W.writeErr ∧
    ∀ id, id ≠ W.resolve out → (Flight.steps W sizes f).2.disk id = W.disk id
  | [], _, _, _ => ⟨rfl, rfl, fun _ _ => rfl⟩
  | m :: sizes, f, W, h => by
    rw [Flight.steps]
    cases hs : f.step W m with
    | inr a => exact ⟨rfl, rfl, fun _ _ => rfl⟩
    | inl r =>
      obtain ⟨f', W'⟩ := r
      obtain ⟨O', r1, r2, r3⟩ := flightOnly_step h hs
      obtain ⟨s1, s2, s3⟩ := flightOnly_steps sizes f' W' O'
      refine ⟨s1.trans r1, s2.trans r2, fun id hid => ?_⟩
      simp only
      rw [s3 id (by rw [r1]; exact hid), r3 id hid]

/-- C64, without any hypothesis: whatever the tree, the imports, the schedule and the point at which the
program is stopped, a file that is neither the output of a file of the tree nor the globals file is what
it was. -/
theorem C64_other_files_never_touched (F : FinePool)
    (h : FineReached ω fuel ext cfg schema w root threads F) :
    (∀ id, ¬ IsOutput w root id → F.pool.world.disk id = w.disk id) ∧
    ∀ ω' rootPath now, FineFinish ω' fuel cfg schema rootPath F now →
      ∀ id, ¬ IsOutput w root id → id ≠ globalsId w cfg rootPath → now.2.disk id = w.disk id := by
  have T := touch_reached ω fuel ext cfg schema threads h
  refine ⟨T.disk, ?_⟩
  rintro ω' rootPath now ⟨sizes, rfl⟩ id h1 h2
  obtain ⟨_, _, h3⟩ := flightOnly_steps sizes
    (Flight.ops (finishOps ω' fuel cfg schema rootPath F.pool.aggregate)) F.pool.world
    (out := globalsPath cfg rootPath)
    (finishOps_writesOnly ω' fuel cfg schema rootPath F.pool.aggregate)
  rw [h3 id (by rw [T.resolve]; exact h2)]
  exact T.disk id h1

end Touch

/-! ### What a stopped run leaves in the outputs -/

section Crash
variable {ω : Path → Hash} {ω' : Hash} {fuel : Nat} {ext : Ext} {cfg : CompileConfig} {schema : Schema}
  {w : World} {root : Entry} {rootPath : Path} {threads : Nat}

/-- A file was not written, or some bytes of what writing leaves there. -/
theorem write_or_cut (w : World) (q : Path) (c : String) :
    (w.write q c).2.disk (w.resolve q) = w.disk (w.resolve q) ∨
    ∃ t n, Leaves w (w.resolve q) c t ∧ (w.write q c).2.disk (w.resolve q) = cut t n := by
  unfold World.write
  cases he : w.writeErr (w.resolve q) with
  | none =>
    exact .inr ⟨c, byteLength c, .inl ⟨he, rfl⟩, by simp [World.put, cut_all (Nat.le_refl _)]⟩
  | some el =>
    obtain ⟨e, l⟩ := el
    cases l with
    | none => exact .inl rfl
    | some l =>
      exact .inr ⟨l, byteLength l, .inr ⟨e, he⟩, by simp [World.put, cut_all (Nat.le_refl _)]⟩

theorem onTrack_contents {α : Type} {out : Path} {P : Ops α} {d : Except String String} {f : Flight α}
    (T : OnTrack w out P d f) : d = w.disk (w.resolve out) ∨
      ∃ c k t n, Reaches w P (.write out c k) ∧ Leaves w (w.resolve out) c t ∧ d = cut t n := by
  cases T with
  | before o _ hd => exact .inl hd
  | writing c k t n hR hL hd => exact .inr ⟨c, k, t, n, hR, hL, hd⟩
  | after c k hR hd =>
    rcases write_or_cut w out c with h | ⟨t, n, h1, h2⟩
    · exact .inl (hd.trans h)
    · exact .inr ⟨c, k, t, n, hR, h1, hd.trans h2⟩

/-- C64: if nothing that is read is an output and different files have different outputs, then at every
moment of a run every output is what it was before, or the first bytes of what compiling its file alone
leaves there. -/
theorem C64_outputs_old_or_prefix (hr : NoOutputRead w cfg root) (hd : OutputsDistinct w root)
    (hn : (filesOf root).Nodup) (F : FinePool)
    (h : FineReached ω fuel ext cfg schema w root threads F) (p : Path) (hp : FoundIn root p) :
    F.pool.world.disk (w.resolve (outputPath p)) = w.disk (w.resolve (outputPath p)) ∨
    ∃ t n, WouldLeave (ω p) fuel ext cfg schema w p t ∧
      F.pool.world.disk (w.resolve (outputPath p)) = cut t n := by
  obtain ⟨sched, rfl⟩ := h
  obtain ⟨sched', C, hC, S⟩ := sim_run ω fuel ext cfg schema threads hr hd hn sched
  have K := known_of_reached ω fuel ext cfg schema threads hr hd hn hC
  by_cases hfly : ∃ i f, ((FinePool.init w threads root).run (progOf ω fuel ext cfg schema) threads
      sched).flights i = some f ∧ Running C i p
  · obtain ⟨i, f, hf, hR⟩ := hfly
    obtain ⟨p', hR', T⟩ := S.flying i f hf
    obtain rfl := hR.unique hR'
    rcases onTrack_contents T with h | ⟨c, k, t, n, hW, hL, e⟩
    · exact .inl h
    · obtain ⟨msgs, out, hg, rfl⟩ := compileOps_writes hW
      exact .inr ⟨t, n, ⟨msgs, out, hg, hL⟩, e⟩
  · have hdisk : ((FinePool.init w threads root).run (progOf ω fuel ext cfg schema) threads
        sched).pool.world.disk (w.resolve (outputPath p)) = C.world.disk (w.resolve (outputPath p)) := by
      apply S.disk
      intro i f q hf hq e
      have := hd p q hp (K.found i q hq) e
      subst this
      exact hfly ⟨i, f, hf, hq⟩
    by_cases hl : p ∈ C.log
    · have := K.written.written p hl
      rw [poolCompile_world] at this
      rw [hdisk, this]
      split
      · rename_i msgs out hg
        rcases write_or_cut w (outputPath p) out.contents with h | ⟨t, n, h1, h2⟩
        · exact .inl h
        · exact .inr ⟨t, n, ⟨msgs, out, hg, h1⟩, h2⟩
      · exact .inl rfl
    · exact .inl (hdisk.trans (K.written.untouched p hp hl))

/-! ### The globals file -/

/-- The main thread on its way. -/
theorem onTrack_steps {α : Type} {out : Path} {P : Ops α} (hP : Well w (fun _ => False) out P) :
    ∀ (sizes : List Nat) (f : Flight α) (W : World), W.resolve = w.resolve → W.writeErr = w.writeErr →
      (∀ id, id ≠ w.resolve out → W.disk id = w.disk id) →
      OnTrack w out P (W.disk (w.resolve out)) f →
      (∃ f', (Flight.steps W sizes f).1 = .inl f' ∧
        OnTrack w out P ((Flight.steps W sizes f).2.disk (w.resolve out)) f') ∨
      ((Flight.steps W sizes f).1 = .inr (P.run w).1 ∧ SameFiles (P.run w).2 (Flight.steps W sizes f).2)
  | [], f, W, _, _, _, T => .inl ⟨f, rfl, T⟩
  | m :: sizes, f, W, h1, h2, h3, T => by
    rw [Flight.steps]
    rcases onTrack_step hP h1 h2 (fun _ h => h.elim) T m with ⟨f', W', e, r1, r2, r3, T'⟩ | ⟨a, e, ha, hd⟩
    · rw [e]
      exact onTrack_steps hP sizes f' W' r1 r2 (fun id hid => (r3 id hid).trans (h3 id hid)) T'
    · rw [e]
      refine .inr ⟨by rw [ha], ?_⟩
      -- running the program writes `out` only
      have hrun : (P.run w).2.resolve = w.resolve ∧ (P.run w).2.writeErr = w.writeErr ∧
          ∀ id, id ≠ w.resolve out → (P.run w).2.disk id = w.disk id := by
        cases hP with
        | ret => exact ⟨rfl, rfl, fun _ _ => rfl⟩
        | read _ _ h _ => exact h.elim
        | write c k hk =>
          obtain ⟨a, hka⟩ := hk (w.write out c).1
          simp only [Ops.run, hka]
          exact write_world w out c
      refine ⟨by rw [hrun.1, h1], by rw [hrun.2.1, h2], fun id => ?_⟩
      by_cases hid : id = w.resolve out
      · subst hid; exact hd
      · rw [hrun.2.2 id hid, h3 id hid]

/-- C64 for the globals file: while the main thread writes it, it is what it was, or the first bytes of
what writing the collected global types leaves there; nothing else changes any more. -/
theorem C64_globals_old_or_prefix (F : FinePool)
    (now : (Flight (Option (List Msg)) ⊕ Option (List Msg)) × World)
    (h : FineFinish ω' fuel cfg schema rootPath F now) :
    let gid := F.pool.world.resolve (globalsPath cfg rootPath)
    (∀ id, id ≠ gid → now.2.disk id = F.pool.world.disk id) ∧
    (now.2.disk gid = F.pool.world.disk gid ∨
      ∃ text t n, F.pool.aggregate.2 ≠ [] ∧
        compileGlobals ω' fuel cfg.toTsConfig schema F.pool.aggregate.2 = some (.ok text) ∧
        Leaves F.pool.world gid text t ∧ now.2.disk gid = cut t n) := by
  intro gid
  obtain ⟨sizes, rfl⟩ := h
  refine ⟨(flightOnly_steps sizes
    (Flight.ops (finishOps ω' fuel cfg schema rootPath F.pool.aggregate)) F.pool.world
    (out := globalsPath cfg rootPath)
    (finishOps_writesOnly ω' fuel cfg schema rootPath F.pool.aggregate)).2.2, ?_⟩
  have hW := finishOps_well ω' fuel cfg schema F.pool.world rootPath F.pool.aggregate
  rcases onTrack_steps hW sizes (.ops (finishOps ω' fuel cfg schema rootPath F.pool.aggregate))
    F.pool.world rfl rfl (fun _ _ => rfl) (.before _ .refl rfl) with ⟨f', _, T⟩ | ⟨_, hs⟩
  · rcases onTrack_contents T with h | ⟨c, k, t, n, hR, hL, e⟩
    · exact .inl h
    · obtain ⟨h1, h2⟩ := finishOps_writes hR
      exact .inr ⟨c, t, n, h1, h2, hL, e⟩
  · rw [hs.2.2 gid, finishOps_run]
    unfold finishWork compileGlobalTypesFile
    by_cases hE : F.pool.aggregate.2 = []
    · simp [hE]
    · rw [if_neg (by simpa using hE)]
      cases hc : compileGlobals ω' fuel cfg.toTsConfig schema F.pool.aggregate.2 with
      | none => exact .inl rfl
      | some r =>
        cases r with
        | error e => exact .inl rfl
        | ok text =>
          simp only
          have := write_or_cut F.pool.world (globalsPath cfg rootPath) text
          revert this
          generalize F.pool.world.write (globalsPath cfg rootPath) text = a
          obtain ⟨a1, a2⟩ := a
          intro this
          have hgoal : a2.disk gid = F.pool.world.disk gid ∨
              ∃ text_1 t n, F.pool.aggregate.2 ≠ [] ∧ (some (.ok text) : Option (Except TsError String)) = some (.ok text_1) ∧
                Leaves F.pool.world gid text_1 t ∧ a2.disk gid = cut t n := by
            rcases this with h | ⟨t, n, h1, h2⟩
            · exact .inl h
            · exact .inr ⟨text, t, n, hE, rfl, h1, h2⟩
          cases a1 with
          | none => exact hgoal
          | some e => exact hgoal

/-- A finished pool has no compiles under way: the fine-grained state is the coarse one. -/
theorem sim_finished {F : FinePool} {C : PoolSt World} (S : Sim ω fuel ext cfg schema w F C)
    (K : C.world.resolve = w.resolve) (K' : C.world.writeErr = w.writeErr)
    (hf : F.pool.finished = true) : F.pool = C := by
  have hnone : ∀ i f, F.flights i ≠ some f := by
    intro i f h
    obtain ⟨p, ⟨me, h1, h2⟩, _⟩ := S.flying i f h
    have hfC : C.finished = true := by rw [S.pool] at hf; exact hf
    have := exited_of_finished hfC me (List.mem_of_getElem? h1)
    rw [this] at h2
    cases h2
  have hw : F.pool.world = C.world := by
    have h1 := S.resolve.trans K.symm
    have h2 := S.writeErr.trans K'.symm
    have h3 : F.pool.world.disk = C.world.disk :=
      funext fun id => S.disk id (fun i f p h => absurd h (hnone i f))
    revert h1 h2 h3
    generalize F.pool.world = a
    generalize C.world = b
    cases a; cases b
    simp only
    rintro rfl rfl rfl
    rfl
  rw [S.pool, hw]

/-- C66: interleaving the single file operations of the workers, including the parts of every write,
gives nothing that whole compiles one after the other do not give: the same final state of the pool. -/
theorem C66_interleaving_refines (hr : NoOutputRead w cfg root) (hd : OutputsDistinct w root)
    (hn : (filesOf root).Nodup) (F : FinePool)
    (h : FineReached ω fuel ext cfg schema w root threads F) (hf : F.pool.finished = true) :
    ∃ sched, ReachedBy (poolCompile ω fuel ext cfg schema) w threads root sched F.pool := by
  obtain ⟨sched, rfl⟩ := h
  obtain ⟨sched', C, hC, S⟩ := sim_run ω fuel ext cfg schema threads hr hd hn sched
  have K := known_of_reached ω fuel ext cfg schema threads hr hd hn hC
  have := sim_finished S K.written.stable.resolve K.written.stable.writeErr hf
  exact ⟨sched', by rw [this]; exact hC⟩

/-- C66 for the whole program: what a run with interleaved file operations prints and leaves is what a
run with whole compiles prints and leaves. -/
theorem C66_whole_program (hr : NoOutputRead w cfg root) (hd : OutputsDistinct w root)
    (hn : (filesOf root).Nodup) (F : FinePool) (ms : List Msg) (w' : World)
    (R : FineRunsTo ω ω' fuel ext cfg schema rootPath root threads w F ms w') :
    ∃ w'', RunsTo ω ω' fuel ext cfg schema rootPath root threads w F.pool ms w'' ∧ SameFiles w'' w' := by
  obtain ⟨sizes, hs⟩ := R.globals
  have hW := finishOps_well ω' fuel cfg schema F.pool.world rootPath F.pool.aggregate
  rcases onTrack_steps hW sizes (.ops (finishOps ω' fuel cfg schema rootPath F.pool.aggregate))
    F.pool.world rfl rfl (fun _ _ => rfl) (.before _ .refl rfl) with ⟨f', e, _⟩ | ⟨e, hsame⟩
  · rw [← hs] at e; simp at e
  · rw [← hs] at e hsame
    simp only [Sum.inr.injEq] at e
    have hrun := finishOps_run ω' fuel cfg schema F.pool.world rootPath F.pool.aggregate
    cases hfin : finishWork ω' fuel cfg schema F.pool.world rootPath F.pool.aggregate with
    | none =>
      rw [hfin] at hrun
      rw [hrun] at e
      simp at e
    | some r =>
      obtain ⟨ms', w''⟩ := r
      rw [hfin] at hrun
      rw [hrun] at e hsame
      simp only [Option.some.injEq] at e
      subst e
      exact ⟨w'', ⟨C66_interleaving_refines hr hd hn F R.reached R.finished, R.finished, R.nothingLeft,
        hfin⟩, hsame⟩

/-- C57 with interleaved file operations: any two complete runs leave the same files. -/
theorem C66_two_interleavings {threads' : Nat} (hk : InputFieldsOnce schema)
    (hr : NoOutputRead w cfg root) (hd : OutputsDistinct w root)
    (hg : GlobalsApart w cfg rootPath root) (hn : (filesOf root).Nodup) {F F' : FinePool}
    {ms ms' : List Msg} {w₁ w₂ : World}
    (R : FineRunsTo ω ω' fuel ext cfg schema rootPath root threads w F ms w₁)
    (R' : FineRunsTo ω ω' fuel ext cfg schema rootPath root threads' w F' ms' w₂) : SameFiles w₁ w₂ := by
  obtain ⟨a, A, hA⟩ := C66_whole_program hr hd hn F ms w₁ R
  obtain ⟨b, B, hB⟩ := C66_whole_program hr hd hn F' ms' w₂ R'
  have hab := (C57_whole_program hk hr hd hg A B).1
  exact ⟨by rw [hB.1, hab.1, hA.1], by rw [hB.2.1, hab.2.1, hA.2.1],
    fun id => by rw [hB.2.2, hab.2.2, hA.2.2]⟩

end Crash

/-! ### Running again after a crash -/

section Again
variable {ext : Ext} {cfg : CompileConfig} {schema : Schema} {w : World} {root : Entry} {rootPath : Path}

theorem write_leaves {w₁ w : World} {q : Path} {c c' t : String} (hr : w₁.resolve = w.resolve)
    (he : w₁.writeErr = w.writeErr) (h : Leaves w (w.resolve q) c' t) :
    (w₁.write q c).2.disk (w.resolve q) = (w.write q c).2.disk (w.resolve q) := by
  unfold World.write
  rw [hr, he]
  rcases h with ⟨h, _⟩ | ⟨e, h⟩ <;> simp [h, World.put]

/-- From the same files, two runs that both return generate the same text, or both fail. -/
theorem generate_same {ω₁ ω₂ : Path → Hash} {fuel₁ fuel₂ : Nat} {p : Path} (hcon : Consistent schema)
    (hh : HashProof ext schema w cfg p)
    (h1 : ∃ gs ms, (poolCompile ω₁ fuel₁ ext cfg schema w p).1 = .done gs ms)
    (h2 : ∃ gs ms, (poolCompile ω₂ fuel₂ ext cfg schema w p).1 = .done gs ms) :
    (∃ m1 m2 c, generateFile (ω₁ p) fuel₁ ext cfg schema w p = some (.done (.ok (m1, c))) ∧
      generateFile (ω₂ p) fuel₂ ext cfg schema w p = some (.done (.ok (m2, c)))) ∨
    ∃ e1 e2, generateFile (ω₁ p) fuel₁ ext cfg schema w p = some (.done (.error e1)) ∧
      generateFile (ω₂ p) fuel₂ ext cfg schema w p = some (.done (.error e2)) := by
  obtain ⟨gs, m, e1⟩ := h1
  obtain ⟨gs', m', e2⟩ := h2
  unfold poolCompile compileFile at e1 e2
  cases g1 : generateFile (ω₁ p) fuel₁ ext cfg schema w p with
  | none => rw [g1] at e1; simp at e1
  | some x1 =>
    cases x1 with
    | panic => rw [g1] at e1; simp at e1
    | done y1 =>
      cases g2 : generateFile (ω₂ p) fuel₂ ext cfg schema w p with
      | none => rw [g2] at e2; simp at e2
      | some x2 =>
        cases x2 with
        | panic => rw [g2] at e2; simp at e2
        | done y2 =>
          cases y1 with
          | ok mc =>
            obtain ⟨m1, c⟩ := mc
            obtain ⟨m2, rfl⟩ := generate_det ext cfg schema w p hcon hh (ω₁ p) (ω₂ p) fuel₁ fuel₂ g1 g2
            exact .inl ⟨m1, m2, c, rfl, rfl⟩
          | error es =>
            cases y2 with
            | ok mc =>
              obtain ⟨m1, c⟩ := mc
              obtain ⟨m2, e⟩ := generate_det ext cfg schema w p hcon hh (ω₂ p) (ω₁ p) fuel₂ fuel₁ g2 g1
              simp at e
            | error es' => exact .inr ⟨es, es', rfl, rfl⟩

theorem globalsOfFile_eq {ω : Path → Hash} {fuel : Nat} {p : Path} :
    globalsOfFile ω fuel ext cfg schema w p =
      match generateFile (ω p) fuel ext cfg schema w p with
      | some (.done (.ok (_, c))) =>
        if (w.write (outputPath p) c.contents).1 = none then c.globalTypesUsed else []
      | _ => [] := by
  unfold globalsOfFile poolCompile compileFile
  cases generateFile (ω p) fuel ext cfg schema w p with
  | none => rfl
  | some x =>
    cases x with
    | panic => rfl
    | done y =>
      cases y with
      | error e => rfl
      | ok mc =>
        obtain ⟨m, c⟩ := mc
        simp only
        generalize w.write (outputPath p) c.contents = a
        obtain ⟨a1, a2⟩ := a
        cases a1 <;> simp

/-- A world in which only outputs and the globals file differ, and only where a run writes them. -/
structure Damaged (ext : Ext) (cfg : CompileConfig)
    (schema : Schema) (rootPath : Path) (root : Entry) (w w₁ : World) : Prop where
  resolve : w₁.resolve = w.resolve
  writeErr : w₁.writeErr = w.writeErr
  others : ∀ id, ¬ IsOutput w root id → id ≠ globalsId w cfg rootPath → w₁.disk id = w.disk id
  outputs : ∀ p, FoundIn root p →
    w₁.disk (w.resolve (outputPath p)) = w.disk (w.resolve (outputPath p)) ∨
    ∃ ω₀ fuel₀ t, WouldLeave ω₀ fuel₀ ext cfg schema w p t
  globals : w₁.disk (globalsId w cfg rootPath) = w.disk (globalsId w cfg rootPath) ∨
    ∃ ω₀ ω₀' fuel₀ used text t, used ≠ [] ∧
      (∀ p, FoundIn root p → ∃ gs ms, (poolCompile ω₀ fuel₀ ext cfg schema w p).1 = .done gs ms) ∧
      (∀ n, n ∈ used ↔ ∃ p, FoundIn root p ∧ n ∈ globalsOfFile ω₀ fuel₀ ext cfg schema w p) ∧
      compileGlobals ω₀' fuel₀ cfg.toTsConfig schema used = some (.ok text) ∧
      Leaves w (globalsId w cfg rootPath) text t

theorem damaged_repaired {ω₁ ω₂ : Path → Hash} {ω₁' ω₂' : Hash}
    {fuel₁ fuel₂ threads₁ threads₂ : Nat} {s₁ s₂ : PoolSt World} {ms₁ ms₂ : List Msg}
    {w₁ w' w'' : World} (hcon : Consistent schema) (hk : InputFieldsOnce schema)
    (hr : NoOutputRead w cfg root) (hd : OutputsDistinct w root) (hg : GlobalsApart w cfg rootPath root)
    (hh : ∀ p, FoundIn root p → HashProof ext schema w cfg p)
    (D : Damaged ext cfg schema rootPath root w w₁)
    (R₁ : RunsTo ω₁ ω₁' fuel₁ ext cfg schema rootPath root threads₁ w s₁ ms₁ w')
    (R₂ : RunsTo ω₂ ω₂' fuel₂ ext cfg schema rootPath root threads₂ w₁ s₂ ms₂ w'') :
    SameFiles w' w'' := by
  have A := after_run hr hd hg R₁
  have hread : ∀ p, FoundIn root p → ∀ q, Reads w cfg p q → w₁.read q = w.read q := by
    intro p hp q hq
    unfold World.read
    rw [D.resolve]
    exact D.others _ (hr p q hp hq) (hg.2 p q hp hq)
  have hout : ∀ id, IsOutput w₁ root id ↔ IsOutput w root id := by
    intro id; unfold IsOutput; rw [D.resolve]
  have hgid : globalsId w₁ cfg rootPath = globalsId w cfg rootPath := by
    unfold globalsId; rw [D.resolve]
  have hr₁ : NoOutputRead w₁ cfg root := by
    intro p q hp hq
    rw [hout, D.resolve]
    exact hr p q hp ((reads_congr cfg w w₁ p (hread p hp) q).1 hq)
  have hd₁ : OutputsDistinct w₁ root := by unfold OutputsDistinct; rw [D.resolve]; exact hd
  have hg₁ : GlobalsApart w₁ cfg rootPath root := by
    refine ⟨by rw [hout, hgid]; exact hg.1, fun p q hp hq => ?_⟩
    rw [hgid, D.resolve]
    exact hg.2 p q hp ((reads_congr cfg w w₁ p (hread p hp) q).1 hq)
  have B := after_run hr₁ hd₁ hg₁ R₂
  -- the second run returns from the undamaged files too
  have hret₂ : ∀ p, FoundIn root p →
      ∃ gs ms, (poolCompile ω₂ fuel₂ ext cfg schema w p).1 = .done gs ms := by
    intro p hp
    obtain ⟨gs, m, e⟩ := B.returned p hp
    have hgc := generateFile_congr cfg w w₁ (ω₂ p) fuel₂ ext schema p (hread p hp)
    rw [poolCompile_outcome ω₂ fuel₂ ext cfg schema p w w₁ hgc D.resolve D.writeErr] at e
    exact ⟨gs, m, e⟩
  have hfile : ∀ p, FoundIn root p →
      (poolCompile ω₂ fuel₂ ext cfg schema w₁ p).2.disk (w.resolve (outputPath p)) =
        (poolCompile ω₁ fuel₁ ext cfg schema w p).2.disk (w.resolve (outputPath p)) ∧
      globalsOfFile ω₂ fuel₂ ext cfg schema w₁ p = globalsOfFile ω₁ fuel₁ ext cfg schema w p := by
    intro p hp
    have hgc := generateFile_congr cfg w w₁ (ω₂ p) fuel₂ ext schema p (hread p hp)
    rw [poolCompile_world, poolCompile_world, globalsOfFile_eq, globalsOfFile_eq, hgc]
    rcases generate_same hcon (hh p hp) (A.returned p hp) (hret₂ p hp) with
      ⟨m1, m2, c, g1, g2⟩ | ⟨e1, e2, g1, g2⟩
    · rw [g1, g2]
      simp only
      rw [write_error w₁ w (outputPath p) c.contents D.resolve D.writeErr]
      refine ⟨?_, rfl⟩
      rcases D.outputs p hp with h | ⟨_, _, t, _, _, _, hL⟩
      · exact write_disk w₁ w (outputPath p) c.contents D.resolve D.writeErr (.inl h)
      · exact write_leaves D.resolve D.writeErr hL
    · rw [g1, g2]
      refine ⟨?_, rfl⟩
      rcases D.outputs p hp with h | ⟨ω₀, fuel₀, t, m0, c0, g0, _⟩
      · exact h
      · obtain ⟨m2, e⟩ := generate_det ext cfg schema w p hcon (hh p hp) ω₀ (ω₁ p) fuel₀ fuel₁ g0 g1
        simp at e
  have hu : ∀ n, n ∈ s₁.aggregate.2 ↔ n ∈ s₂.aggregate.2 := by
    intro n
    rw [A.used, B.used]
    constructor
    · rintro ⟨p, hp, h⟩; exact ⟨p, hp, by rw [(hfile p hp).2]; exact h⟩
    · rintro ⟨p, hp, h⟩; exact ⟨p, hp, by rw [← (hfile p hp).2]; exact h⟩
  have hu₀ : ∀ (ω₀ : Path → Hash) (fuel₀ : Nat) (used : List String),
      (∀ p, FoundIn root p → ∃ gs ms, (poolCompile ω₀ fuel₀ ext cfg schema w p).1 = .done gs ms) →
      (∀ n, n ∈ used ↔ ∃ p, FoundIn root p ∧ n ∈ globalsOfFile ω₀ fuel₀ ext cfg schema w p) →
      ∀ n, n ∈ used ↔ n ∈ s₁.aggregate.2 := by
    intro ω₀ fuel₀ used h0 hused n
    have heq : ∀ p, FoundIn root p → globalsOfFile ω₀ fuel₀ ext cfg schema w p =
        globalsOfFile ω₁ fuel₁ ext cfg schema w p := by
      intro p hp
      rw [globalsOfFile_eq, globalsOfFile_eq]
      rcases generate_same hcon (hh p hp) (h0 p hp) (A.returned p hp) with
        ⟨m1, m2, c, g1, g2⟩ | ⟨e1, e2, g1, g2⟩
      · rw [g1, g2]
      · rw [g1, g2]
    rw [hused, A.used]
    constructor
    · rintro ⟨p, hp, h⟩; exact ⟨p, hp, by rw [← heq p hp]; exact h⟩
    · rintro ⟨p, hp, h⟩; exact ⟨p, hp, by rw [heq p hp]; exact h⟩
  have hmt : ∀ {l l' : List String}, (∀ n, n ∈ l ↔ n ∈ l') → l = [] → l' = [] := by
    intro l l' h e
    subst e
    exact List.eq_nil_iff_forall_not_mem.2 (fun n hn => by simpa using (h n).2 hn)
  have hB := B.globals
  rw [hgid] at hB
  have hG : w''.disk (globalsId w cfg rootPath) = w'.disk (globalsId w cfg rootPath) := by
    rcases A.globals with ⟨e1, m1, d1⟩ | ⟨n1, r, c1, q1⟩
    · rcases hB with ⟨e2, m2, d2⟩ | ⟨n2, r', c2, q2⟩
      · rw [d1, d2]
        rcases D.globals with h | ⟨ω₀, ω₀', fuel₀, used, text, t, hne, h0, hus, _⟩
        · exact h
        · exact absurd (hmt (fun n => (hu₀ ω₀ fuel₀ used h0 hus n).symm) e1) hne
      · exact absurd (hmt hu e1) n2
    · rcases hB with ⟨e2, m2, d2⟩ | ⟨n2, r', c2, q2⟩
      · exact absurd (hmt (fun n => (hu n).symm) e2) n1
      · have hiff := C16_globals_deterministic schema hk ω₁' ω₂' fuel₁ fuel₂ _ _ _ hu r r' c1 c2
        rcases q1 with ⟨e, rfl, m1, d1⟩ | ⟨text, rfl, d1, m1⟩
        · rcases q2 with ⟨e', rfl, m2, d2⟩ | ⟨text, rfl, d2, m2⟩
          · rw [d1, d2]
            rcases D.globals with h | ⟨ω₀, ω₀', fuel₀, used, text, t, hne, h0, hus, hc, _⟩
            · exact h
            · have := (C16_globals_deterministic schema hk ω₀' ω₁' fuel₀ fuel₁ _ _ _ (hu₀ ω₀ fuel₀ used h0 hus) _ _
                hc c1 text).1 rfl
              simp at this
          · have := (hiff text).2 rfl
            simp at this
        · have := (hiff text).1 rfl
          subst this
          rcases q2 with ⟨e', h, _⟩ | ⟨text', h, d2, m2⟩
          · simp at h
          · injection h with h
            subst h
            rw [d1, d2]
            rcases D.globals with h | ⟨_, _, _, used, text', t, _, _, _, _, hL⟩
            · exact write_disk w₁ w (globalsPath cfg rootPath) text D.resolve D.writeErr (.inl h)
            · exact write_leaves D.resolve D.writeErr hL
  refine ⟨by rw [B.resolve, D.resolve, A.resolve], by rw [B.writeErr, D.writeErr, A.writeErr],
    fun id => ?_⟩
  by_cases ho : IsOutput w root id
  · obtain ⟨p, hp, rfl⟩ := ho
    have := B.outputs p hp
    rw [D.resolve] at this
    rw [this, (hfile p hp).1, A.outputs p hp]
  · by_cases hi : id = globalsId w cfg rootPath
    · subst hi; exact hG
    · rw [B.others id (by rw [hout]; exact ho) (by rw [hgid]; exact hi), D.others id ho hi,
        A.others id ho hi]

/-- What dealing with the globals file yields, if the types can be collected. -/
def finishOps_ms (ω' : Hash) (fuel : Nat) (cfg : CompileConfig) (schema : Schema) (rootPath : Path)
    (s : PoolSt World) : List Msg × World :=
  match finishWork ω' fuel cfg schema s.world rootPath s.aggregate with
  | some r => r
  | none => ([], s.world)

theorem finishOps_ms_eq {ω' : Hash} {fuel : Nat} {s : PoolSt World} {text : String}
    (hc : compileGlobals ω' fuel cfg.toTsConfig schema s.aggregate.2 = some (.ok text))
    (hne : s.aggregate.2 ≠ []) :
    finishWork ω' fuel cfg schema s.world rootPath s.aggregate =
      some ((finishOps_ms ω' fuel cfg schema rootPath s).1,
        (finishOps_ms ω' fuel cfg schema rootPath s).2) := by
  unfold finishOps_ms
  cases h : finishWork ω' fuel cfg schema s.world rootPath s.aggregate with
  | some r => rfl
  | none =>
    unfold finishWork compileGlobalTypesFile at h
    rw [if_neg (by simpa using hne)] at h
    simp only [hc] at h
    revert h
    generalize s.world.write (globalsPath cfg rootPath) text = a
    obtain ⟨a1, a2⟩ := a
    cases a1 <;> simp

/-- Stopping the workers does damage of this kind. -/
theorem damaged_workers {ω₀ : Path → Hash} {fuel₀ threads₀ : Nat} {F : FinePool}
    (hr : NoOutputRead w cfg root) (hd : OutputsDistinct w root) (hg : GlobalsApart w cfg rootPath root)
    (hn : (filesOf root).Nodup) (hF : FineReached ω₀ fuel₀ ext cfg schema w root threads₀ F) :
    Damaged ext cfg schema rootPath root w F.pool.world := by
  have T := touch_reached ω₀ fuel₀ ext cfg schema threads₀ hF
  refine ⟨T.resolve, T.writeErr, fun id h _ => T.disk id h, fun p hp => ?_, .inl (T.disk _ hg.1)⟩
  rcases C64_outputs_old_or_prefix hr hd hn F hF p hp with h | ⟨t, n, h, _⟩
  · exact .inl h
  · exact .inr ⟨_, _, t, h⟩

/-- Stopping the main thread does damage of this kind. -/
theorem damaged_globals {ω₀ : Path → Hash} {ω₀' : Hash} {fuel₀ threads₀ : Nat} {F : FinePool}
    {now : (Flight (Option (List Msg)) ⊕ Option (List Msg)) × World}
    (hr : NoOutputRead w cfg root) (hd : OutputsDistinct w root) (hg : GlobalsApart w cfg rootPath root)
    (hn : (filesOf root).Nodup)
    (hF : FineReached ω₀ fuel₀ ext cfg schema w root threads₀ F) (hf : F.pool.finished = true)
    (hp : pending F.pool = []) (hG : FineFinish ω₀' fuel₀ cfg schema rootPath F now) :
    Damaged ext cfg schema rootPath root w now.2 := by
  have T := touch_reached ω₀ fuel₀ ext cfg schema threads₀ hF
  have hgid : F.pool.world.resolve (globalsPath cfg rootPath) = globalsId w cfg rootPath := by
    rw [T.resolve]; rfl
  obtain ⟨sizes, rfl⟩ := hG
  obtain ⟨g1, g2, g3⟩ := flightOnly_steps sizes
    (Flight.ops (finishOps ω₀' fuel₀ cfg schema rootPath F.pool.aggregate)) F.pool.world
    (out := globalsPath cfg rootPath)
    (finishOps_writesOnly ω₀' fuel₀ cfg schema rootPath F.pool.aggregate)
  obtain ⟨_, hglob⟩ := C64_globals_old_or_prefix F _ ⟨sizes, rfl⟩
  rw [hgid] at g3 hglob
  refine ⟨g1.trans T.resolve, g2.trans T.writeErr, fun id h h' => (g3 id h').trans (T.disk id h), ?_, ?_⟩
  · intro p hp
    rw [g3 _ (fun e => hg.1 ⟨p, hp, e.symm⟩)]
    rcases C64_outputs_old_or_prefix hr hd hn F hF p hp with h | ⟨t, n, h, _⟩
    · exact .inl h
    · exact .inr ⟨_, _, t, h⟩
  · rcases hglob with h | ⟨text, t, n, hne, hc, hL, _⟩
    · exact .inl (h.trans (T.disk _ hg.1))
    · obtain ⟨sched, hreach⟩ := C66_interleaving_refines hr hd hn F hF hf
      obtain ⟨⟨lost, l1, _, l2⟩, W⟩ := reached_written ω₀ fuel₀ ext cfg schema hr hd hreach
      rw [no_panic_of_finished hf] at l1
      rw [List.eq_nil_of_length_eq_zero l1, hp] at l2
      simp only [List.flatMap_nil, List.append_nil] at l2
      -- the globals of a complete run, whatever becomes of the globals file
      have hfin : RunsTo ω₀ ω₀' fuel₀ ext cfg schema rootPath root threads₀ w F.pool
          (finishOps_ms ω₀' fuel₀ cfg schema rootPath F.pool).1
          (finishOps_ms ω₀' fuel₀ cfg schema rootPath F.pool).2 :=
        ⟨⟨sched, hreach⟩, hf, hp, finishOps_ms_eq hc hne⟩
      have A := after_run hr hd hg hfin
      refine .inr ⟨_, _, _, F.pool.aggregate.2, text, t, hne, A.returned, A.used, hc, ?_⟩
      rcases hL with ⟨e, h⟩ | ⟨e, h⟩
      · exact .inl ⟨by rw [← T.writeErr]; exact e, h⟩
      · exact .inr ⟨e, by rw [← T.writeErr]; exact h⟩

theorem leaves_congr {w₁ w : World} (he : w₁.writeErr = w.writeErr) {id c t : String} :
    Leaves w₁ id c t ↔ Leaves w id c t := by
  unfold Leaves
  rw [he]

/-- What the damage leaves intact. -/
theorem Damaged.intact {w₁ : World} (D : Damaged ext cfg schema rootPath root w w₁)
    (hr : NoOutputRead w cfg root) (hd : OutputsDistinct w root) (hg : GlobalsApart w cfg rootPath root) :
    (∀ p, FoundIn root p → ∀ q, Spec.Reads w cfg p q → w₁.read q = w.read q) ∧
    NoOutputRead w₁ cfg root ∧ OutputsDistinct w₁ root ∧ GlobalsApart w₁ cfg rootPath root := by
  have hread : ∀ p, FoundIn root p → ∀ q, Spec.Reads w cfg p q → w₁.read q = w.read q := by
    intro p hp q hq
    unfold World.read
    rw [D.resolve]
    exact D.others _ (hr p q hp hq) (hg.2 p q hp hq)
  have hout : ∀ id, IsOutput w₁ root id ↔ IsOutput w root id := by
    intro id; unfold IsOutput; rw [D.resolve]
  have hgid : globalsId w₁ cfg rootPath = globalsId w cfg rootPath := by
    unfold globalsId; rw [D.resolve]
  refine ⟨hread, ?_, ?_, ?_, ?_⟩
  · intro p q hp hq
    rw [hout, D.resolve]
    exact hr p q hp ((reads_congr cfg w w₁ p (hread p hp) q).1 hq)
  · unfold OutputsDistinct; rw [D.resolve]; exact hd
  · rw [hout, hgid]; exact hg.1
  · intro p q hp hq
    rw [hgid, D.resolve]
    exact hg.2 p q hp ((reads_congr cfg w w₁ p (hread p hp) q).1 hq)

/-- Damage on top of damage is damage. -/
theorem damaged_trans {w₁ w₂ : World} (hr : NoOutputRead w cfg root) (hd : OutputsDistinct w root)
    (hg : GlobalsApart w cfg rootPath root) (D : Damaged ext cfg schema rootPath root w w₁)
    (E : Damaged ext cfg schema rootPath root w₁ w₂) : Damaged ext cfg schema rootPath root w w₂ := by
  obtain ⟨hread, _, _, _⟩ := D.intact hr hd hg
  have hout : ∀ id, IsOutput w₁ root id ↔ IsOutput w root id := by
    intro id; unfold IsOutput; rw [D.resolve]
  have hgid : globalsId w₁ cfg rootPath = globalsId w cfg rootPath := by
    unfold globalsId; rw [D.resolve]
  have hgen : ∀ p, FoundIn root p → ∀ ω fuel,
      generateFile ω fuel ext cfg schema w₁ p = generateFile ω fuel ext cfg schema w p :=
    fun p hp ω fuel => generateFile_congr cfg w w₁ ω fuel ext schema p (hread p hp)
  refine ⟨E.resolve.trans D.resolve, E.writeErr.trans D.writeErr, ?_, ?_, ?_⟩
  · intro id ho hi
    rw [E.others id (by rw [hout]; exact ho) (by rw [hgid]; exact hi), D.others id ho hi]
  · intro p hp
    have := E.outputs p hp
    rw [D.resolve] at this
    rcases this with h | ⟨ω, fuel, t, m, out, h1, h2⟩
    · rw [h]; exact D.outputs p hp
    · refine .inr ⟨ω, fuel, t, m, out, by rw [← hgen p hp]; exact h1, ?_⟩
      rw [D.resolve] at h2
      exact (leaves_congr D.writeErr).1 h2
  · have := E.globals
    rw [hgid] at this
    rcases this with h | ⟨ω, ω', fuel, used, text, t, hne, hret, hus, hc, hL⟩
    · rw [h]; exact D.globals
    · refine .inr ⟨ω, ω', fuel, used, text, t, hne, ?_, ?_, hc, (leaves_congr D.writeErr).1 hL⟩
      · intro p hp
        obtain ⟨gs, m, e⟩ := hret p hp
        rw [poolCompile_outcome ω fuel ext cfg schema p w w₁ (hgen p hp _ _) D.resolve D.writeErr] at e
        exact ⟨gs, m, e⟩
      · have hgf : ∀ p, FoundIn root p → globalsOfFile ω fuel ext cfg schema w₁ p =
            globalsOfFile ω fuel ext cfg schema w p := by
          intro p hp
          rw [globalsOfFile_eq, globalsOfFile_eq, hgen p hp]
          cases generateFile (ω p) fuel ext cfg schema w p with
          | none => rfl
          | some x =>
            cases x with
            | panic => rfl
            | done y =>
              cases y with
              | error e => rfl
              | ok mc =>
                simp only
                rw [write_error w₁ w _ _ D.resolve D.writeErr]
        intro n
        rw [hus]
        constructor
        · rintro ⟨p, hp, h⟩; exact ⟨p, hp, by rw [← hgf p hp]; exact h⟩
        · rintro ⟨p, hp, h⟩; exact ⟨p, hp, by rw [hgf p hp]; exact h⟩

theorem damaged_stopped {w₁ : World} (hr : NoOutputRead w cfg root) (hd : OutputsDistinct w root)
    (hg : GlobalsApart w cfg rootPath root) (hn : (filesOf root).Nodup)
    (h : StoppedRuns ext cfg schema rootPath root w w₁) : Damaged ext cfg schema rootPath root w w₁ := by
  induction h with
  | none => exact ⟨rfl, rfl, fun _ _ _ => rfl, fun _ _ => .inl rfl, .inl rfl⟩
  | workers _ hF ih =>
    obtain ⟨_, hr₁, hd₁, hg₁⟩ := ih.intact hr hd hg
    exact damaged_trans hr hd hg ih (damaged_workers hr₁ hd₁ hg₁ hn hF)
  | globals _ hF hf hp hG ih =>
    obtain ⟨_, hr₁, hd₁, hg₁⟩ := ih.intact hr hd hg
    exact damaged_trans hr hd hg ih (damaged_globals hr₁ hd₁ hg₁ hn hF hf hp hG)

/-- C65, workers interrupted: stop a run at any point while workers are busy, then run the program to the
end over what it left.  The files are then those that a run over the original files leaves. -/
theorem C65_rerun_after_interrupted_workers {ω₀ ω₁ ω₂ : Path → Hash} {ω₁' ω₂' : Hash}
    {fuel₀ fuel₁ fuel₂ threads₀ threads₁ threads₂ : Nat} {F : FinePool} {s₁ s₂ : PoolSt World}
    {ms₁ ms₂ : List Msg} {w' w'' : World} (hcon : Consistent schema) (hk : InputFieldsOnce schema)
    (hr : NoOutputRead w cfg root) (hd : OutputsDistinct w root) (hg : GlobalsApart w cfg rootPath root)
    (hn : (filesOf root).Nodup) (hh : ∀ p, FoundIn root p → HashProof ext schema w cfg p)
    (hF : FineReached ω₀ fuel₀ ext cfg schema w root threads₀ F)
    (R₁ : RunsTo ω₁ ω₁' fuel₁ ext cfg schema rootPath root threads₁ w s₁ ms₁ w')
    (R₂ : RunsTo ω₂ ω₂' fuel₂ ext cfg schema rootPath root threads₂ F.pool.world s₂ ms₂ w'') :
    SameFiles w' w'' :=
  damaged_repaired hcon hk hr hd hg hh (damaged_workers hr hd hg hn hF) R₁ R₂

/-- C65, main thread interrupted: the same if the run is stopped while the globals file is written. -/
theorem C65_rerun_after_interrupted_globals {ω₀ ω₁ ω₂ : Path → Hash} {ω₀' ω₁' ω₂' : Hash}
    {fuel₀ fuel₁ fuel₂ threads₀ threads₁ threads₂ : Nat} {F : FinePool} {s₁ s₂ : PoolSt World}
    {now : (Flight (Option (List Msg)) ⊕ Option (List Msg)) × World}
    {ms₁ ms₂ : List Msg} {w' w'' : World} (hcon : Consistent schema) (hk : InputFieldsOnce schema)
    (hr : NoOutputRead w cfg root) (hd : OutputsDistinct w root) (hg : GlobalsApart w cfg rootPath root)
    (hn : (filesOf root).Nodup) (hh : ∀ p, FoundIn root p → HashProof ext schema w cfg p)
    (hF : FineReached ω₀ fuel₀ ext cfg schema w root threads₀ F) (hf : F.pool.finished = true)
    (hp : pending F.pool = []) (hG : FineFinish ω₀' fuel₀ cfg schema rootPath F now)
    (R₁ : RunsTo ω₁ ω₁' fuel₁ ext cfg schema rootPath root threads₁ w s₁ ms₁ w')
    (R₂ : RunsTo ω₂ ω₂' fuel₂ ext cfg schema rootPath root threads₂ now.2 s₂ ms₂ w'') :
    SameFiles w' w'' :=
  damaged_repaired hcon hk hr hd hg hh (damaged_globals hr hd hg hn hF hf hp hG) R₁ R₂

/-- C65, any history: run the program any number of times, stopping it anywhere each time, with any hash
orders, schedules and numbers of threads, then run it to the end.  The files are then those that a single run
over the original files leaves. -/
theorem C65_rerun_after_any_interruptions {ω₁ ω₂ : Path → Hash} {ω₁' ω₂' : Hash}
    {fuel₁ fuel₂ threads₁ threads₂ : Nat} {s₁ s₂ : PoolSt World}
    {ms₁ ms₂ : List Msg} {w₁ w' w'' : World} (hcon : Consistent schema) (hk : InputFieldsOnce schema)
    (hr : NoOutputRead w cfg root) (hd : OutputsDistinct w root) (hg : GlobalsApart w cfg rootPath root)
    (hn : (filesOf root).Nodup) (hh : ∀ p, FoundIn root p → HashProof ext schema w cfg p)
    (hS : StoppedRuns ext cfg schema rootPath root w w₁)
    (R₁ : RunsTo ω₁ ω₁' fuel₁ ext cfg schema rootPath root threads₁ w s₁ ms₁ w')
    (R₂ : RunsTo ω₂ ω₂' fuel₂ ext cfg schema rootPath root threads₂ w₁ s₂ ms₂ w'') :
    SameFiles w' w'' :=
  damaged_repaired hcon hk hr hd hg hh (damaged_stopped hr hd hg hn hS) R₁ R₂

end Again

/-! ### The demo files, stopped and run again -/

/-- The demo with single file operations; all partial writes have the same size. -/
def demoFine (sched : List (Nat × Nat)) : FinePool :=
  (FinePool.init Demo.world 1 Demo.fileTree).run
    (fun p => compileOps .inOrder 5 Demo.ext Demo.cfg Demo.schema p) 1 sched

theorem demo_nodup : (filesOf Demo.fileTree).Nodup := by decide +kernel

theorem demo_fine (sched : List (Nat × Nat)) : FineReached (fun _ => .inOrder) 5 Demo.ext Demo.cfg
    Demo.schema Demo.world Demo.fileTree 1 (demoFine sched) := ⟨sched, rfl⟩

/-- Fifteen steps, then fifty bytes of the output of the query: the program is stopped there. -/
def demoStopped : FinePool := demoFine (List.replicate 15 (0, 0) ++ [(0, 50)])

/-- One worker is inside `fs::write`, fifty bytes in; no other file has been written. -/
example : (match demoStopped.flights 0 with
      | some (.writing p text n _) => p.comps == ["r", "q.graphql.d.ts"] && n == 50 && 900 < byteLength text
      | _ => false) = true ∧
    (demoStopped.pool.world.disk "/r/f.graphql.d.ts").toOption = none := by decide +kernel

/-- The first bytes of a text, and bytes that end inside a character. -/
example : (cut "añb" 0).toOption = some "" ∧ (cut "añb" 1).toOption = some "a" ∧
    (cut "añb" 2).toOption = none ∧ (cut "añb" 3).toOption = some "añ" := by decide +kernel

/-- The state before: the output of the query has just been opened, so it is empty. -/
def demoOpened : FinePool := demoFine (List.replicate 15 (0, 0))

/-- C64 says what the truncated output is a part of. -/
example : ∃ t n, WouldLeave .inOrder 5 Demo.ext Demo.cfg Demo.schema Demo.world Demo.qPath t ∧
    demoOpened.pool.world.disk (Demo.world.resolve (outputPath Demo.qPath)) = cut t n := by
  have hq : FoundIn Demo.fileTree Demo.qPath := (mem_filesOf _ _).1 (by decide +kernel)
  rcases C64_outputs_old_or_prefix demo_noOutputRead demo_outputsDistinct demo_nodup demoOpened
    (demo_fine _) Demo.qPath hq with h | h
  · exfalso
    have h1 : (demoOpened.pool.world.disk (Demo.world.resolve (outputPath Demo.qPath))).toOption.isSome =
      true := by decide +kernel
    have h2 : (Demo.world.disk (Demo.world.resolve (outputPath Demo.qPath))).toOption.isSome = false := by
      decide +kernel
    rw [h, h2] at h1
    simp at h1
  · exact h

/-- C65: running again completes the truncated output. -/
example : ∃ ms w', RunsTo (fun _ => .reversed) .reversed 5 Demo.ext Demo.cfg Demo.schema ⟨true, ["r"]⟩
      Demo.fileTree 1 demoStopped.pool.world (demoRun .reversed demoStopped.pool.world) ms w' ∧
    SameFiles demoAfter w' := by
  obtain ⟨ms₁, w₁, e₁, R₁⟩ := demo_runs (ω := .inOrder) (w := Demo.world) (by decide +kernel)
  have ew : demoAfter = w₁ := by unfold demoAfter; rw [e₁]
  obtain ⟨ms₂, w₂, e₂, R₂⟩ := demo_runs (ω := .reversed) (w := demoStopped.pool.world) (by decide +kernel)
  refine ⟨ms₂, w₂, R₂, ?_⟩
  rw [ew]
  exact C65_rerun_after_interrupted_workers (F := demoStopped) demo_consistent
    (ofJson_inputFieldsOnce (j := Demo.json) rfl) demo_noOutputRead demo_outputsDistinct demo_globalsApart
    demo_nodup (fun p hp => demo_hashProof hp) (demo_fine _) R₁ R₂

/-- All workers have exited. -/
def demoFinished : FinePool := demoFine (List.replicate 40 (0, 1000))

/-- The main thread stopped after thirty bytes of the globals file. -/
def demoHalfGlobals : (Flight (Option (List Msg)) ⊕ Option (List Msg)) × World :=
  Flight.steps demoFinished.pool.world [0, 30]
    (.ops (finishOps .inOrder 5 Demo.cfg Demo.schema ⟨true, ["r"]⟩ demoFinished.pool.aggregate))

example : (match demoHalfGlobals.1 with
    | .inl (.writing p text n _) => p.comps == ["r", "globals.ts"] && n == 30 && 30 < byteLength text
    | _ => false) = true := by decide +kernel

/-- C65 for the globals file. -/
example : ∃ ms w', RunsTo (fun _ => .reversed) .reversed 5 Demo.ext Demo.cfg Demo.schema ⟨true, ["r"]⟩
      Demo.fileTree 1 demoHalfGlobals.2 (demoRun .reversed demoHalfGlobals.2) ms w' ∧
    SameFiles demoAfter w' := by
  obtain ⟨ms₁, w₁, e₁, R₁⟩ := demo_runs (ω := .inOrder) (w := Demo.world) (by decide +kernel)
  have ew : demoAfter = w₁ := by unfold demoAfter; rw [e₁]
  obtain ⟨ms₂, w₂, e₂, R₂⟩ := demo_runs (ω := .reversed) (w := demoHalfGlobals.2) (by decide +kernel)
  refine ⟨ms₂, w₂, R₂, ?_⟩
  rw [ew]
  have hp : (pending demoFinished.pool).isEmpty = true := by decide +kernel
  exact C65_rerun_after_interrupted_globals (F := demoFinished) (now := demoHalfGlobals) demo_consistent
    (ofJson_inputFieldsOnce (j := Demo.json) rfl) demo_noOutputRead demo_outputsDistinct demo_globalsApart
    demo_nodup (fun p hp => demo_hashProof hp) (demo_fine _) (by decide +kernel) (List.isEmpty_iff.1 hp)
    ⟨[0, 30], rfl⟩ R₁ R₂

/-- The run over what `demoStopped` left is stopped too, in the middle of the same write. -/
def demoStoppedAgain : FinePool :=
  (FinePool.init demoStopped.pool.world 1 Demo.fileTree).run
    (fun p => compileOps .reversed 5 Demo.ext Demo.cfg Demo.schema p) 1 (List.replicate 15 (0, 0) ++ [(0, 7)])

theorem demo_stoppedRuns : StoppedRuns Demo.ext Demo.cfg Demo.schema ⟨true, ["r"]⟩ Demo.fileTree Demo.world
    demoStoppedAgain.pool.world := by
  have h1 : StoppedRuns Demo.ext Demo.cfg Demo.schema ⟨true, ["r"]⟩ Demo.fileTree Demo.world
      demoStopped.pool.world := .workers (F := demoStopped) .none (demo_fine _)
  have h2 : FineReached (fun _ => .reversed) 5 Demo.ext Demo.cfg Demo.schema demoStopped.pool.world
      Demo.fileTree 1 demoStoppedAgain := ⟨List.replicate 15 (0, 0) ++ [(0, 7)], rfl⟩
  exact .workers h1 h2

/-- C65 after two interruptions. -/
example : ∃ ms w', RunsTo (fun _ => .reversed) .reversed 5 Demo.ext Demo.cfg Demo.schema ⟨true, ["r"]⟩
      Demo.fileTree 1 demoStoppedAgain.pool.world (demoRun .reversed demoStoppedAgain.pool.world) ms w' ∧
    SameFiles demoAfter w' := by
  obtain ⟨ms₁, w₁, e₁, R₁⟩ := demo_runs (ω := .inOrder) (w := Demo.world) (by decide +kernel)
  have ew : demoAfter = w₁ := by unfold demoAfter; rw [e₁]
  obtain ⟨ms₂, w₂, e₂, R₂⟩ := demo_runs (ω := .reversed) (w := demoStoppedAgain.pool.world) (by decide +kernel)
  refine ⟨ms₂, w₂, R₂, ?_⟩
  rw [ew]
  exact C65_rerun_after_any_interruptions demo_consistent
    (ofJson_inputFieldsOnce (j := Demo.json) rfl) demo_noOutputRead demo_outputsDistinct demo_globalsApart
    demo_nodup (fun p hp => demo_hashProof hp) demo_stoppedRuns R₁ R₂

/-- C66: a complete run of single file operations, and the run of whole compiles it corresponds to. -/
example : ∃ ms w' w'', FineRunsTo (fun _ => .inOrder) .inOrder 5 Demo.ext Demo.cfg Demo.schema
      ⟨true, ["r"]⟩ Demo.fileTree 1 Demo.world demoFinished ms w' ∧
    RunsTo (fun _ => .inOrder) .inOrder 5 Demo.ext Demo.cfg Demo.schema ⟨true, ["r"]⟩ Demo.fileTree 1
      Demo.world demoFinished.pool ms w'' ∧ SameFiles w'' w' := by
  have hp : (pending demoFinished.pool).isEmpty = true := by decide +kernel
  have hend : (match (Flight.steps demoFinished.pool.world [0, 1000, 1000, 0, 0] (.ops (finishOps .inOrder 5
      Demo.cfg Demo.schema ⟨true, ["r"]⟩ demoFinished.pool.aggregate))).1 with
    | .inr (some _) => true
    | _ => false) = true := by decide +kernel
  cases hs : Flight.steps demoFinished.pool.world [0, 1000, 1000, 0, 0] (.ops (finishOps .inOrder 5
      Demo.cfg Demo.schema ⟨true, ["r"]⟩ demoFinished.pool.aggregate)) with
  | mk a w' =>
    rw [hs] at hend
    cases a with
    | inl f => simp at hend
    | inr r =>
      cases r with
      | none => simp at hend
      | some ms =>
        have R : FineRunsTo (fun _ => .inOrder) .inOrder 5 Demo.ext Demo.cfg Demo.schema
            ⟨true, ["r"]⟩ Demo.fileTree 1 Demo.world demoFinished ms w' :=
          ⟨demo_fine _, by decide +kernel, List.isEmpty_iff.1 hp, ⟨_, hs.symm⟩⟩
        obtain ⟨w'', R', hw⟩ := C66_whole_program demo_noOutputRead demo_outputsDistinct demo_nodup
          demoFinished ms w' R
        exact ⟨ms, w', w'', R, R', hw⟩

end Qlc
