import Verif.Spec.Files
import Verif.Props.PoolResults
import Verif.Lemmas.Hash
/-
Whole directory trees: C57 (the files on disk do not depend on the schedule) and C58 (running twice).
-/
set_option autoImplicit false

namespace Qlc
open Spec

/-! ### Compiling a file looks only at the files it reads -/

section Congr
variable (cfg : CompileConfig) (w w' : World)

theorem handleAll_congr {step step' : ImportLine → ImportSt → Option (PanicOr ImportSt)}
    (ils : List ImportLine) (h : ∀ il ∈ ils, ∀ s, step il s = step' il s) :
    ∀ s, handleAll step ils s = handleAll step' ils s := by
  induction ils with
  | nil => intro s; rfl
  | cons il ils ih =>
    intro s
    have ih := ih (fun il' h' => h il' (List.mem_cons_of_mem _ h'))
    simp only [handleAll]
    rw [h il (List.mem_cons_self ..)]
    cases step' il s with
    | none => rfl
    | some r =>
      cases r with
      | panic => rfl
      | done s' => exact ih s'

/-- Scanning imports depends only on the files read. -/
theorem addImported_congr (p0 : Path) (h : ∀ q, Reads w cfg p0 q → w'.read q = w.read q) (fuel : Nat) :
    ∀ (file : Path) (contents : String) (s : ImportSt), Reads w cfg p0 file →
      w.read file = .ok contents →
      addImported w' cfg fuel file contents s = addImported w cfg fuel file contents s := by
  induction fuel with
  | zero => intros; rfl
  | succ n ih =>
    intro file contents s hf hr
    rw [imports_are_the_leading_block, imports_are_the_leading_block]
    apply handleAll_congr
    intro il hil s
    unfold handleImport
    dsimp only
    cases ht : getFilePathOfFragment cfg il.after file.pop with
    | none => rfl
    | some q =>
      have hq : Reads w cfg p0 q := .imported hf hr ⟨hil, ht⟩
      simp only
      rw [h q hq]
      cases hrq : w.read q with
      | error e => rfl
      | ok c => simp only; rw [ih q c s hq hrq]

/-- Everything before the write depends only on the files read. -/
theorem generateFile_congr (ω : Hash) (fuel : Nat) (ext : Ext) (schema : Schema) (p : Path)
    (h : ∀ q, Reads w cfg p q → w'.read q = w.read q) :
    generateFile ω fuel ext cfg schema w' p = generateFile ω fuel ext cfg schema w p := by
  unfold generateFile readGraphqlFile
  rw [h p .self]
  cases hr : w.read p with
  | error e => rfl
  | ok contents =>
    simp only
    rw [addImported_congr cfg w w' p h fuel p contents _ .self hr]

theorem reads_congr (p : Path) (h : ∀ q, Reads w cfg p q → w'.read q = w.read q) (q : Path) :
    Reads w' cfg p q ↔ Reads w cfg p q := by
  constructor
  · intro hq
    induction hq with
    | self => exact .self
    | imported _ hr hi ih => exact .imported ih (by rw [← h _ ih]; exact hr) hi
  · intro hq
    induction hq with
    | self => exact .self
    | imported h0 hr hi ih => exact .imported ih (by rw [h _ h0]; exact hr) hi

end Congr

/-! ### What one compile does to the disk -/

section Run
variable (ω : Path → Hash) (fuel : Nat) (ext : Ext) (cfg : CompileConfig) (schema : Schema) (w : World)
  (root : Entry)

/-- The file system differs from the first one at outputs at most. -/
structure Stable (w' : World) : Prop where
  resolve : w'.resolve = w.resolve
  writeErr : w'.writeErr = w.writeErr
  others : ∀ id, ¬ IsOutput w root id → w'.disk id = w.disk id

theorem Stable.read {w' : World} (h : Stable w root w') (hr : NoOutputRead w cfg root) {p q : Path}
    (hp : FoundIn root p) (hq : Reads w cfg p q) : w'.read q = w.read q := by
  unfold World.read
  rw [h.resolve]
  exact h.others _ (hr p q hp hq)

/-- What a compile of `p` leaves in `p`'s output, given the generated text. -/
theorem poolCompile_world (p : Path) (w' : World) :
    (poolCompile ω fuel ext cfg schema w' p).2 =
      match generateFile (ω p) fuel ext cfg schema w' p with
      | some (.done (.ok (_, c))) => (w'.write (outputPath p) c.contents).2
      | _ => w' := by
  unfold poolCompile compileFile
  cases generateFile (ω p) fuel ext cfg schema w' p with
  | none => rfl
  | some r =>
    cases r with
    | panic => rfl
    | done r =>
      cases r with
      | error m => rfl
      | ok mc =>
        simp only
        cases hw : w'.write (outputPath p) mc.2.contents with
        | mk o w2 => cases o <;> rfl

theorem write_world (w' : World) (p : Path) (text : String) :
    (w'.write p text).2.resolve = w'.resolve ∧ (w'.write p text).2.writeErr = w'.writeErr ∧
    ∀ id, id ≠ w'.resolve p → (w'.write p text).2.disk id = w'.disk id := by
  unfold World.write
  cases w'.writeErr (w'.resolve p) with
  | none => exact ⟨rfl, rfl, fun id h => by simp [World.put, h]⟩
  | some e =>
    obtain ⟨e, l⟩ := e
    cases l with
    | none => exact ⟨rfl, rfl, fun _ _ => rfl⟩
    | some l => exact ⟨rfl, rfl, fun id h => by simp [World.put, h]⟩

/-- Writing gives the same contents in file systems that agree there. -/
theorem write_disk (w1 w2 : World) (p : Path) (text : String) (hr : w1.resolve = w2.resolve)
    (he : w1.writeErr = w2.writeErr)
    (hd : w1.disk (w2.resolve p) = w2.disk (w2.resolve p) ∨
      w1.disk (w2.resolve p) = (w2.write p text).2.disk (w2.resolve p)) :
    (w1.write p text).2.disk (w2.resolve p) = (w2.write p text).2.disk (w2.resolve p) := by
  unfold World.write at hd ⊢
  rw [hr, he]
  rw [hr] at *
  cases hw : w2.writeErr (w2.resolve p) with
  | none => simp [World.put]
  | some e =>
    obtain ⟨e, l⟩ := e
    cases l with
    | none =>
      rw [hw] at hd
      simp only at hd ⊢
      rcases hd with h | h <;> exact h
    | some l => simp [World.put]

theorem write_error (w1 w2 : World) (p : Path) (text : String) (hr : w1.resolve = w2.resolve)
    (he : w1.writeErr = w2.writeErr) : (w1.write p text).1 = (w2.write p text).1 := by
  unfold World.write
  rw [hr, he]
  cases w2.writeErr (w2.resolve p) with
  | none => rfl
  | some e =>
    obtain ⟨e, l⟩ := e
    cases l <;> rfl

/-- What a compile reports depends only on what it reads and on whether writes fail. -/
theorem poolCompile_outcome (p : Path) (w w' : World)
    (hg : generateFile (ω p) fuel ext cfg schema w' p = generateFile (ω p) fuel ext cfg schema w p)
    (hr : w'.resolve = w.resolve) (he : w'.writeErr = w.writeErr) :
    (poolCompile ω fuel ext cfg schema w' p).1 = (poolCompile ω fuel ext cfg schema w p).1 := by
  unfold poolCompile compileFile
  rw [hg]
  cases generateFile (ω p) fuel ext cfg schema w p with
  | none => rfl
  | some r =>
    cases r with
    | panic => rfl
    | done r =>
      cases r with
      | error m => rfl
      | ok mc =>
        simp only
        have := write_error w' w (outputPath p) mc.2.contents hr he
        revert this
        generalize w'.write (outputPath p) mc.2.contents = a
        generalize w.write (outputPath p) mc.2.contents = b
        obtain ⟨a1, a2⟩ := a
        obtain ⟨b1, b2⟩ := b
        rintro rfl
        cases a1 <;> rfl

variable {w root}

/-- The state of the disk after some files of the tree have been compiled. -/
structure Written (w' : World) (done : List Path) : Prop where
  stable : Stable w root w'
  written : ∀ p ∈ done, w'.disk (w.resolve (outputPath p)) =
    (poolCompile ω fuel ext cfg schema w p).2.disk (w.resolve (outputPath p))
  returned : ∀ p ∈ done, ∃ gs ms, (poolCompile ω fuel ext cfg schema w p).1 = .done gs ms
  untouched : ∀ p, FoundIn root p → p ∉ done →
    w'.disk (w.resolve (outputPath p)) = w.disk (w.resolve (outputPath p))

theorem written_step (hr : NoOutputRead w cfg root) (hd : OutputsDistinct w root)
    {w' : World} {done : List Path} (hdone : ∀ p ∈ done, FoundIn root p)
    (W : Written ω fuel ext cfg schema (w := w) (root := root) w' done) {p : Path}
    (hp : FoundIn root p) {gs : List String} {ms : List Msg}
    (hret : (poolCompile ω fuel ext cfg schema w' p).1 = .done gs ms) :
    Written ω fuel ext cfg schema (w := w) (root := root)
      (poolCompile ω fuel ext cfg schema w' p).2 (done ++ [p]) := by
  have hg := generateFile_congr cfg w w' (ω p) fuel ext schema p
    (fun q hq => W.stable.read cfg w root hr hp hq)
  have hret0 : (poolCompile ω fuel ext cfg schema w p).1 = .done gs ms := by
    rw [← hret]
    exact (poolCompile_outcome ω fuel ext cfg schema p w w' hg W.stable.resolve W.stable.writeErr).symm
  have e1 := poolCompile_world ω fuel ext cfg schema p w'
  have e0 := poolCompile_world ω fuel ext cfg schema p w
  rw [hg] at e1
  have hout : IsOutput w root (w.resolve (outputPath p)) := ⟨p, hp, rfl⟩
  -- the file system is unchanged or written at the output of `p`
  have key : (poolCompile ω fuel ext cfg schema w' p).2.resolve = w.resolve ∧
      (poolCompile ω fuel ext cfg schema w' p).2.writeErr = w.writeErr ∧
      (∀ id, id ≠ w.resolve (outputPath p) →
        (poolCompile ω fuel ext cfg schema w' p).2.disk id = w'.disk id) ∧
      (poolCompile ω fuel ext cfg schema w' p).2.disk (w.resolve (outputPath p)) =
        (poolCompile ω fuel ext cfg schema w p).2.disk (w.resolve (outputPath p)) := by
    have hcur : w'.disk (w.resolve (outputPath p)) = w.disk (w.resolve (outputPath p)) ∨
        w'.disk (w.resolve (outputPath p)) =
          (poolCompile ω fuel ext cfg schema w p).2.disk (w.resolve (outputPath p)) := by
      by_cases hm : p ∈ done
      · exact .inr (W.written p hm)
      · exact .inl (W.untouched p hp hm)
    have plain : (poolCompile ω fuel ext cfg schema w' p).2 = w' →
        (poolCompile ω fuel ext cfg schema w p).2 = w →
        (poolCompile ω fuel ext cfg schema w' p).2.resolve = w.resolve ∧
        (poolCompile ω fuel ext cfg schema w' p).2.writeErr = w.writeErr ∧
        (∀ id, id ≠ w.resolve (outputPath p) →
          (poolCompile ω fuel ext cfg schema w' p).2.disk id = w'.disk id) ∧
        (poolCompile ω fuel ext cfg schema w' p).2.disk (w.resolve (outputPath p)) =
          (poolCompile ω fuel ext cfg schema w p).2.disk (w.resolve (outputPath p)) := by
      intro a b
      rw [a, b]
      rw [b] at hcur
      exact ⟨W.stable.resolve, W.stable.writeErr, fun _ _ => rfl, by rcases hcur with h | h <;> exact h⟩
    cases hgen : generateFile (ω p) fuel ext cfg schema w p with
    | none => rw [hgen] at e0 e1; exact plain e1 e0
    | some r =>
      cases r with
      | panic => rw [hgen] at e0 e1; exact plain e1 e0
      | done r =>
        cases r with
        | error m => rw [hgen] at e0 e1; exact plain e1 e0
        | ok mc =>
          rw [hgen] at e0 e1
          simp only at e0 e1
          rw [e0] at hcur
          rw [e1, e0]
          obtain ⟨a, b, c⟩ := write_world w' (outputPath p) mc.2.contents
          rw [W.stable.resolve] at c
          refine ⟨a.trans W.stable.resolve, b.trans W.stable.writeErr, c, ?_⟩
          exact write_disk w' w (outputPath p) _ W.stable.resolve W.stable.writeErr hcur
  obtain ⟨k1, k2, k3, k4⟩ := key
  refine ⟨⟨k1, k2, fun id hid => ?_⟩, ?_, ?_, ?_⟩
  · rw [k3 id (fun e => hid (e ▸ hout))]
    exact W.stable.others id hid
  · intro q hq
    by_cases hqp : q = p
    · subst hqp; exact k4
    · have hqd : q ∈ done := by simpa [hqp] using hq
      rw [k3 _ (fun e => hqp (hd q p (hdone q hqd) hp e))]
      exact W.written q hqd
  · intro q hq
    rcases List.mem_append.1 hq with hq | hq
    · exact W.returned q hq
    · rw [List.mem_singleton.1 hq]; exact ⟨gs, ms, hret0⟩
  · intro q hq hn
    simp only [List.mem_append, List.mem_singleton, not_or] at hn
    rw [k3 _ (fun e => hn.2 (hd q p hq hp e))]
    exact W.untouched q hq hn.1

/-- A panicking compile leaves the file system alone. -/
theorem poolCompile_panic {w' w2 : World} {p : Path}
    (h : poolCompile ω fuel ext cfg schema w' p = (.panic, w2)) : w2 = w' := by
  unfold poolCompile at h
  cases hc : compileFile (ω p) fuel ext cfg schema w' p with
  | none => rw [hc] at h; simp at h
  | some r =>
    cases r with
    | panic => rw [hc] at h; simpa using h.symm
    | done r =>
      rw [hc] at h
      simp only at h
      cases hr : r.result <;> rw [hr] at h <;> simp at h

theorem reached_written (hr : NoOutputRead w cfg root) (hd : OutputsDistinct w root)
    {threads : Nat} {sched : List Nat} {s : PoolSt World}
    (h : ReachedBy (poolCompile ω fuel ext cfg schema) w threads root sched s) :
    Conserved (poolCompile ω fuel ext cfg schema) root s ∧
      Written ω fuel ext cfg schema (w := w) (root := root) s.world s.log := by
  rw [h]
  refine run_invariant _ threads (fun s => Conserved (poolCompile ω fuel ext cfg schema) root s ∧
    Written ω fuel ext cfg schema (w := w) (root := root) s.world s.log) ?_ sched _ ?_
  · rintro s i ⟨C, W⟩
    have C' := step_conserved (poolCompile ω fuel ext cfg schema) threads root s i C
    refine ⟨C', ?_⟩
    have hlog : ∀ p ∈ s.log, FoundIn root p := by
      obtain ⟨lost, _, _, hp⟩ := C
      intro p hp'
      exact (mem_filesOf root p).1 (hp.mem_iff.1 (by simp [hp']))
    cases step_effect (poolCompile ω fuel ext cfg schema) threads s i with
    | quiet hp hw hl hm hg hn => rw [hw, hl]; exact W
    | listed p es ws rest hp hr hp' hw hl hm hg hn => rw [hw, hl]; exact W
    | unlisted e err p rest hp hr hp' hw hl hm hg hn => rw [hw, hl]; exact W
    | compiled p gs ms rest hp hrun hp' hl hm hg hn =>
      have hfound : FoundIn root p := (mem_filesOf root p).1 (pending_files C hp)
      have := written_step ω fuel ext cfg schema hr hd hlog W hfound (by rw [hrun])
      rw [hrun] at this
      rw [hl]
      exact this
    | panicked p rest hp hrun hp' hl hm hg hn =>
      rw [hl, poolCompile_panic ω fuel ext cfg schema hrun]
      exact W
  · refine ⟨init_conserved _ w threads root, ⟨⟨rfl, rfl, fun _ _ => rfl⟩, ?_, ?_, fun _ _ _ => rfl⟩⟩
    all_goals
      intro p hp
      simp [PoolSt.init] at hp

/-- C57: if nothing that is read is an output and different files have different outputs, then whatever
the number of threads and the schedule, when all workers have exited and no work is left, the output of
every file of the tree holds what compiling that file alone would have left there, and no other file has
changed. -/
theorem C57_files_independent_of_schedule (hr : NoOutputRead w cfg root) (hd : OutputsDistinct w root)
    (threads : Nat) (sched : List Nat) (s : PoolSt World)
    (h : ReachedBy (poolCompile ω fuel ext cfg schema) w threads root sched s)
    (hf : s.finished = true) (hp : pending s = []) :
    s.world.resolve = w.resolve ∧ s.world.writeErr = w.writeErr ∧
    (∀ p, FoundIn root p → s.world.disk (w.resolve (outputPath p)) =
      (poolCompile ω fuel ext cfg schema w p).2.disk (w.resolve (outputPath p))) ∧
    ∀ id, ¬ IsOutput w root id → s.world.disk id = w.disk id := by
  obtain ⟨⟨lost, l1, _, l2⟩, W⟩ := reached_written ω fuel ext cfg schema hr hd h
  rw [no_panic_of_finished hf] at l1
  rw [List.eq_nil_of_length_eq_zero l1, hp] at l2
  simp only [List.flatMap_nil, List.append_nil] at l2
  refine ⟨W.stable.resolve, W.stable.writeErr, fun p hpf => ?_, W.stable.others⟩
  exact W.written p (l2.mem_iff.2 ((mem_filesOf root p).2 hpf))

/-- C57 for two runs: the file systems agree. -/
theorem C57_two_schedules (hr : NoOutputRead w cfg root) (hd : OutputsDistinct w root)
    (threads threads' : Nat) (sched sched' : List Nat) (s s' : PoolSt World)
    (h : ReachedBy (poolCompile ω fuel ext cfg schema) w threads root sched s)
    (h' : ReachedBy (poolCompile ω fuel ext cfg schema) w threads' root sched' s')
    (hf : s.finished = true) (hp : pending s = []) (hf' : s'.finished = true) (hp' : pending s' = []) :
    SameFiles s.world s'.world := by
  obtain ⟨a1, a2, a3, a4⟩ := C57_files_independent_of_schedule ω fuel ext cfg schema hr hd threads sched
    s h hf hp
  obtain ⟨b1, b2, b3, b4⟩ := C57_files_independent_of_schedule ω fuel ext cfg schema hr hd threads'
    sched' s' h' hf' hp'
  refine ⟨by rw [a1, b1], by rw [a2, b2], fun id => ?_⟩
  by_cases ho : IsOutput w root id
  · obtain ⟨p, hpf, rfl⟩ := ho
    rw [a3 p hpf, b3 p hpf]
  · rw [a4 id ho, b4 id ho]

end Run

/-! ### Hash orders and one file -/

section HashOrders
variable (ext : Ext) (cfg : CompileConfig) (schema : Schema) (w : World) (p : Path)

theorem generate_det (hcon : Consistent schema) (hh : HashProof ext schema w cfg p) (ω ω' : Hash)
    (fuel fuel' : Nat) {msgs : List Msg} {c : Compile} {r' : Except (List Msg) (List Msg × Compile)}
    (h : generateFile ω fuel ext cfg schema w p = some (.done (.ok (msgs, c))))
    (h' : generateFile ω' fuel' ext cfg schema w p = some (.done r')) :
    ∃ msgs', r' = .ok (msgs', c) := by
  obtain ⟨contents, d, st, op, ws, G, _⟩ := (generateFile_ok ω fuel ext cfg schema w p _ c).1 h
  obtain ⟨hu, hfr, hv⟩ := hh contents d G.readable G.parses
  unfold generateFile readGraphqlFile at h'
  simp only [G.readable, (parse_ok _ _ p _).2 G.parses] at h'
  cases hs : addImported w cfg fuel' p contents ⟨[], []⟩ with
  | none => simp [hs] at h'
  | some x =>
    have := C36_outcome_unique w cfg fuel fuel' p contents _ _ _ G.scanned hs
    subst this
    have s1 := inScope_foreign ext cfg w p ω G.scanned hu
    have s2 := inScope_foreign ext cfg w p ω' G.scanned hu
    simp only [hs] at h'
    cases hc : Operation.compile ω' fuel' ⟨schema, cfg.showDeprecationWarnings,
        (parseForeignFragments ω' ext p st.imports st.messages).1⟩ d with
    | none => simp [hc] at h'
    | some y =>
      obtain ⟨r, ws'⟩ := y
      obtain ⟨rfl, hgen⟩ := compile_det schema ω ω' fuel fuel' cfg.showDeprecationWarnings cfg.toTsConfig
        (inScope_get ext cfg w p s1 s2) hcon (hfr _ s1).1 d (hfr _ s1).2 hv G.valid hc
      simp only [hc] at h'
      rw [← hgen, G.generated] at h'
      simp only [Option.some.injEq, PanicOr.done.injEq] at h'
      exact ⟨_, h'.symm⟩

/-- **C16 for one file.** If imported fragments have different names and are valid, no response key has
two named types and no variable is declared twice, then compiling a file under any two hash orders (and
any fuel) leaves the same file system, and reports the same global types or fails in both cases. -/
theorem C16_file_deterministic (hcon : Consistent schema) (hh : HashProof ext schema w cfg p)
    (ω ω' : Hash) (fuel fuel' : Nat) (r r' : CompileResult)
    (h : compileFile ω fuel ext cfg schema w p = some (.done r))
    (h' : compileFile ω' fuel' ext cfg schema w p = some (.done r')) :
    SameFiles r.world r'.world ∧
    ∀ gs, (∃ rep, r.result = .ok rep ∧ rep.globalTypesUsed = gs) ↔
      ∃ rep, r'.result = .ok rep ∧ rep.globalTypesUsed = gs := by
  have refl : ∀ w : World, SameFiles w w := fun w => ⟨rfl, rfl, fun _ => rfl⟩
  unfold compileFile at h h'
  cases hg : generateFile ω fuel ext cfg schema w p with
  | none => simp [hg] at h
  | some x =>
    cases x with
    | panic => simp [hg] at h
    | done y =>
      cases hg' : generateFile ω' fuel' ext cfg schema w p with
      | none => simp [hg'] at h'
      | some x' =>
        cases x' with
        | panic => simp [hg'] at h'
        | done y' =>
          cases y with
          | ok mc =>
            obtain ⟨m, c⟩ := mc
            obtain ⟨m', rfl⟩ := generate_det ext cfg schema w p hcon hh ω ω' fuel fuel' hg hg'
            simp only [hg, hg'] at h h'
            revert h h'
            generalize w.write (outputPath p) c.contents = a
            obtain ⟨a1, a2⟩ := a
            cases a1 with
            | none =>
              simp only [Option.some.injEq, PanicOr.done.injEq]
              rintro rfl rfl
              exact ⟨refl _, by simp⟩
            | some e =>
              simp only [Option.some.injEq, PanicOr.done.injEq]
              rintro rfl rfl
              exact ⟨refl _, by simp⟩
          | error es =>
            cases y' with
            | ok mc =>
              obtain ⟨m, c⟩ := mc
              obtain ⟨m', e⟩ := generate_det ext cfg schema w p hcon hh ω' ω fuel' fuel hg' hg
              simp at e
            | error es' =>
              simp only [hg, hg', Option.some.injEq, PanicOr.done.injEq] at h h'
              subst h; subst h'
              exact ⟨refl _, by simp⟩

/-- **C16 for the globals file.** Its text depends only on the set of used names: neither the order in
which they were gathered nor hash orders matter. -/
theorem C16_globals_deterministic (hk : InputFieldsOnce schema) (ω ω' : Hash) (fuel fuel' : Nat)
    (tcfg : TsConfig) (used used' : List String) (hu : ∀ n, n ∈ used ↔ n ∈ used')
    (r r' : Except TsError String) (h : compileGlobals ω fuel tcfg schema used = some r)
    (h' : compileGlobals ω' fuel' tcfg schema used' = some r') :
    ∀ text, r = .ok text ↔ r' = .ok text := by
  intro text
  constructor
  · rintro rfl
    exact compileGlobals_det hk ω ω' fuel fuel' tcfg hu h h'
  · rintro rfl
    exact compileGlobals_det hk ω' ω fuel' fuel tcfg (fun n => (hu n).symm) h' h

end HashOrders

/-! ### Whole runs -/

section Whole
variable {ext : Ext} {cfg : CompileConfig} {schema : Schema} {w : World} {root : Entry} {rootPath : Path}

/-- The globals a file uses according to the first file system. -/
def globalsOfFile (ω : Path → Hash) (fuel : Nat) (ext : Ext) (cfg : CompileConfig) (schema : Schema)
    (w : World) (p : Path) : List String :=
  match (poolCompile ω fuel ext cfg schema w p).1 with
  | .done gs _ => gs
  | _ => []

/-- The messages of a file according to the first file system. -/
def messagesOfFile (ω : Path → Hash) (fuel : Nat) (ext : Ext) (cfg : CompileConfig) (schema : Schema)
    (w : World) (p : Path) : List Msg :=
  match (poolCompile ω fuel ext cfg schema w p).1 with
  | .done _ ms => ms
  | _ => []

/-- What is known after a complete run. -/
structure After (ω : Path → Hash) (ω' : Hash) (fuel : Nat) (ext : Ext) (cfg : CompileConfig)
    (schema : Schema) (w : World) (rootPath : Path) (root : Entry) (s : PoolSt World) (ms : List Msg)
    (w' : World) : Prop where
  resolve : w'.resolve = w.resolve
  writeErr : w'.writeErr = w.writeErr
  outputs : ∀ p, FoundIn root p → w'.disk (w.resolve (outputPath p)) =
    (poolCompile ω fuel ext cfg schema w p).2.disk (w.resolve (outputPath p))
  others : ∀ id, ¬ IsOutput w root id → id ≠ globalsId w cfg rootPath → w'.disk id = w.disk id
  returned : ∀ p, FoundIn root p → ∃ gs ms, (poolCompile ω fuel ext cfg schema w p).1 = .done gs ms
  used : ∀ g, g ∈ s.aggregate.2 ↔
    ∃ p, FoundIn root p ∧ g ∈ globalsOfFile ω fuel ext cfg schema w p
  messages : s.aggregate.1.Perm
    (dirErrors root ++ (filesOf root).flatMap (messagesOfFile ω fuel ext cfg schema w))
  globals : (s.aggregate.2 = [] ∧ ms = s.aggregate.1 ∧
      w'.disk (globalsId w cfg rootPath) = w.disk (globalsId w cfg rootPath)) ∨
    (s.aggregate.2 ≠ [] ∧ ∃ r, compileGlobals ω' fuel cfg.toTsConfig schema s.aggregate.2 = some r ∧
      ((∃ e, r = .error e ∧ ms = s.aggregate.1 ++ [e.toMsg] ∧
          w'.disk (globalsId w cfg rootPath) = w.disk (globalsId w cfg rootPath)) ∨
        ∃ text, r = .ok text ∧ w'.disk (globalsId w cfg rootPath) =
          (w.write (globalsPath cfg rootPath) text).2.disk (globalsId w cfg rootPath) ∧
          ms = s.aggregate.1 ++ (match (w.write (globalsPath cfg rootPath) text).1 with
            | none => []
            | some e => [.ioError "write" e rootPath])))

theorem after_run {ω : Path → Hash} {ω' : Hash} {fuel threads : Nat} {s : PoolSt World} {ms : List Msg}
    {w' : World} (hr : NoOutputRead w cfg root) (hd : OutputsDistinct w root)
    (hg : GlobalsApart w cfg rootPath root)
    (R : RunsTo ω ω' fuel ext cfg schema rootPath root threads w s ms w') :
    After ω ω' fuel ext cfg schema w rootPath root s ms w' := by
  obtain ⟨sched, hreach⟩ := R.reached
  obtain ⟨a1, a2, a3, a4⟩ := C57_files_independent_of_schedule ω fuel ext cfg schema hr hd threads sched s
    hreach R.finished R.nothingLeft
  have hret : ∀ p, FoundIn root p →
      ∃ gs ms, (poolCompile ω fuel ext cfg schema w p).1 = .done gs ms := by
    obtain ⟨⟨lost, l1, _, l2⟩, W⟩ := reached_written ω fuel ext cfg schema hr hd hreach
    rw [no_panic_of_finished R.finished] at l1
    rw [List.eq_nil_of_length_eq_zero l1, R.nothingLeft] at l2
    simp only [List.flatMap_nil, List.append_nil] at l2
    intro p hp
    exact W.returned p (l2.mem_iff.2 ((mem_filesOf root p).2 hp))
  obtain ⟨u1, u2⟩ := C55_results_independent_of_schedule (poolCompile ω fuel ext cfg schema) w threads
    root (globalsOfFile ω fuel ext cfg schema w) (messagesOfFile ω fuel ext cfg schema w)
    (Stable w root) ⟨rfl, rfl, fun _ _ => rfl⟩
    (by
      intro w1 hs p hp
      have hgc := generateFile_congr cfg w w1 (ω p) fuel ext schema p
        (fun q hq => hs.read cfg w root hr hp hq)
      refine ⟨?_, ?_⟩
      · rw [poolCompile_outcome ω fuel ext cfg schema p w w1 hgc hs.resolve hs.writeErr]
        obtain ⟨gs, m, e⟩ := hret p hp
        unfold globalsOfFile messagesOfFile
        rw [e]
      · rw [poolCompile_world]
        split
        · obtain ⟨x, y, z⟩ := write_world w1 (outputPath p) _
          refine ⟨x.trans hs.resolve, y.trans hs.writeErr, fun id hid => ?_⟩
          rw [z id ?_]
          · exact hs.others id hid
          · rintro rfl
            exact hid ⟨p, hp, by rw [hs.resolve]⟩
        · exact hs)
    sched s hreach R.finished R.nothingLeft
  have hG : s.world.disk (globalsId w cfg rootPath) = w.disk (globalsId w cfg rootPath) := a4 _ hg.1
  have fin := R.globals
  unfold finishWork compileGlobalTypesFile at fin
  -- facts that hold if the file system is unchanged by the globals
  have plain : w' = s.world → ∀ (Q : (s.aggregate.2 = [] ∧ ms = s.aggregate.1 ∧
      w'.disk (globalsId w cfg rootPath) = w.disk (globalsId w cfg rootPath)) ∨
    (s.aggregate.2 ≠ [] ∧ ∃ r, compileGlobals ω' fuel cfg.toTsConfig schema s.aggregate.2 = some r ∧
      ((∃ e, r = .error e ∧ ms = s.aggregate.1 ++ [e.toMsg] ∧
          w'.disk (globalsId w cfg rootPath) = w.disk (globalsId w cfg rootPath)) ∨
        ∃ text, r = .ok text ∧ w'.disk (globalsId w cfg rootPath) =
          (w.write (globalsPath cfg rootPath) text).2.disk (globalsId w cfg rootPath) ∧
          ms = s.aggregate.1 ++ (match (w.write (globalsPath cfg rootPath) text).1 with
            | none => []
            | some e => [.ioError "write" e rootPath])))),
      After ω ω' fuel ext cfg schema w rootPath root s ms w' := by
    intro e Q
    subst e
    exact ⟨a1, a2, a3, fun id h1 _ => a4 id h1, hret, u1, u2, Q⟩
  by_cases hne : s.aggregate.2 = []
  · rw [if_pos (by simp [hne])] at fin
    simp only [Option.some.injEq, Prod.mk.injEq] at fin
    obtain ⟨rfl, rfl⟩ := fin
    exact plain rfl (.inl ⟨hne, rfl, hG⟩)
  · rw [if_neg (by simpa using hne)] at fin
    cases hc : compileGlobals ω' fuel cfg.toTsConfig schema s.aggregate.2 with
    | none => rw [hc] at fin; simp at fin
    | some r =>
      cases r with
      | error e =>
        rw [hc] at fin
        simp only [Option.some.injEq, Prod.mk.injEq] at fin
        obtain ⟨rfl, rfl⟩ := fin
        exact plain rfl (.inr ⟨hne, _, hc, .inl ⟨e, rfl, rfl, hG⟩⟩)
      | ok text =>
        rw [hc] at fin
        simp only at fin
        have hwe := write_error s.world w (globalsPath cfg rootPath) text a1 a2
        obtain ⟨b1, b2, b3⟩ := write_world s.world (globalsPath cfg rootPath) text
        have hwd := write_disk s.world w (globalsPath cfg rootPath) text a1 a2 (.inl hG)
        have hw' : w' = (s.world.write (globalsPath cfg rootPath) text).2 ∧
            ms = s.aggregate.1 ++ (match (s.world.write (globalsPath cfg rootPath) text).1 with
              | none => []
              | some e => [.ioError "write" e rootPath]) := by
          revert fin
          generalize s.world.write (globalsPath cfg rootPath) text = a
          obtain ⟨a1, a2⟩ := a
          cases a1 with
          | none =>
            simp only [Option.some.injEq, Prod.mk.injEq]
            rintro ⟨rfl, rfl⟩
            simp
          | some e =>
            simp only [Option.some.injEq, Prod.mk.injEq]
            rintro ⟨rfl, rfl⟩
            simp
        obtain ⟨hw', hms⟩ := hw'
        rw [hwe] at hms
        rw [a1] at b3
        subst hw'
        refine ⟨b1.trans a1, b2.trans a2, ?_, ?_, hret, u1, u2, .inr ⟨hne, _, hc, .inr ⟨text, rfl, hwd, hms⟩⟩⟩
        · intro p hp
          rw [b3 _ (fun e => hg.1 ⟨p, hp, e.symm⟩)]
          exact a3 p hp
        · intro id h1 h2
          rw [b3 _ h2]
          exact a4 id h1

/-- C57 for the whole program: two complete runs over the same file system, with any numbers of threads
and any schedules, leave the same files behind, globals file included, and print the same messages up to
order, provided the globals can be generated. -/
theorem C57_whole_program {ω : Path → Hash} {ω' : Hash} {fuel threads threads' : Nat}
    {s s' : PoolSt World} {ms ms' : List Msg} {w1 w2 : World} (hk : InputFieldsOnce schema)
    (hr : NoOutputRead w cfg root) (hd : OutputsDistinct w root) (hg : GlobalsApart w cfg rootPath root)
    (R : RunsTo ω ω' fuel ext cfg schema rootPath root threads w s ms w1)
    (R' : RunsTo ω ω' fuel ext cfg schema rootPath root threads' w s' ms' w2) :
    SameFiles w1 w2 ∧
    ((∀ n, GlobalName schema s.aggregate.2 n → ValidGlobal schema n) → ms.Perm ms') := by
  have A := after_run hr hd hg R
  have A' := after_run hr hd hg R'
  have hu : ∀ n, n ∈ s.aggregate.2 ↔ n ∈ s'.aggregate.2 := fun n => by rw [A.used, A'.used]
  have hms : s.aggregate.1.Perm s'.aggregate.1 := A.messages.trans A'.messages.symm
  have hmt : ∀ {l l' : List String}, (∀ n, n ∈ l ↔ n ∈ l') → l = [] → l' = [] := by
    intro l l' h e
    subst e
    exact List.eq_nil_iff_forall_not_mem.2 (fun n hn => by simpa using (h n).2 hn)
  have hGm : w2.disk (globalsId w cfg rootPath) = w1.disk (globalsId w cfg rootPath) ∧
      ((∀ n, GlobalName schema s.aggregate.2 n → ValidGlobal schema n) → ms.Perm ms') := by
    rcases A.globals with ⟨e1, m1, d1⟩ | ⟨n1, r, c1, q1⟩
    · rcases A'.globals with ⟨e2, m2, d2⟩ | ⟨n2, r', c2, q2⟩
      · rw [d1, d2, m1, m2]
        exact ⟨rfl, fun _ => hms⟩
      · exact absurd (hmt hu e1) n2
    · rcases A'.globals with ⟨e2, m2, d2⟩ | ⟨n2, r', c2, q2⟩
      · exact absurd (hmt (fun n => (hu n).symm) e2) n1
      · have hiff := C16_globals_deterministic schema hk ω' ω' fuel fuel _ _ _ hu r r' c1 c2
        rcases q1 with ⟨e, rfl, m1, d1⟩ | ⟨text, rfl, d1, m1⟩
        · rcases q2 with ⟨e', rfl, m2, d2⟩ | ⟨text, rfl, d2, m2⟩
          · rw [d1, d2]
            refine ⟨rfl, fun hv => ?_⟩
            obtain ⟨t, ht⟩ := (C32_globals_ok_iff ω' fuel cfg.toTsConfig schema s.aggregate.2 _ c1).2 hv
            simp at ht
          · have := (hiff text).2 rfl
            simp at this
        · have := (hiff text).1 rfl
          subst this
          rcases q2 with ⟨e', h, _⟩ | ⟨text', h, d2, m2⟩
          · simp at h
          · injection h with h
            subst h
            rw [d1, d2, m1, m2]
            exact ⟨rfl, fun _ => hms.append_right _⟩
  refine ⟨⟨by rw [A.resolve, A'.resolve], by rw [A.writeErr, A'.writeErr], fun id => ?_⟩, hGm.2⟩
  by_cases ho : IsOutput w root id
  · obtain ⟨p, hp, rfl⟩ := ho
    rw [A.outputs p hp, A'.outputs p hp]
  · by_cases hi : id = globalsId w cfg rootPath
    · subst hi; exact hGm.1
    · rw [A.others id ho hi, A'.others id ho hi]

/-- C58: run the program to the end, then run it again over the resulting files, with other hash orders
and another schedule.  If nothing that is read is generated, the second run leaves every file as it is. -/
theorem C58_second_run_changes_nothing {ω₁ ω₂ : Path → Hash} {ω₁' ω₂' : Hash}
    {fuel₁ fuel₂ threads₁ threads₂ : Nat} {s₁ s₂ : PoolSt World} {ms₁ ms₂ : List Msg} {w₁ w₂ : World}
    (hcon : Consistent schema) (hk : InputFieldsOnce schema)
    (hr : NoOutputRead w cfg root) (hd : OutputsDistinct w root) (hg : GlobalsApart w cfg rootPath root)
    (hh : ∀ p, FoundIn root p → HashProof ext schema w cfg p)
    (R₁ : RunsTo ω₁ ω₁' fuel₁ ext cfg schema rootPath root threads₁ w s₁ ms₁ w₁)
    (R₂ : RunsTo ω₂ ω₂' fuel₂ ext cfg schema rootPath root threads₂ w₁ s₂ ms₂ w₂) :
    SameFiles w₁ w₂ := by
  have A := after_run hr hd hg R₁
  -- what is read has not changed
  have hread : ∀ p, FoundIn root p → ∀ q, Reads w cfg p q → w₁.read q = w.read q := by
    intro p hp q hq
    unfold World.read
    rw [A.resolve]
    exact A.others _ (hr p q hp hq) (hg.2 p q hp hq)
  have hout : ∀ id, IsOutput w₁ root id ↔ IsOutput w root id := by
    intro id; unfold IsOutput; rw [A.resolve]
  have hgid : globalsId w₁ cfg rootPath = globalsId w cfg rootPath := by
    unfold globalsId; rw [A.resolve]
  have hr₁ : NoOutputRead w₁ cfg root := by
    intro p q hp hq
    rw [hout, A.resolve]
    exact hr p q hp ((reads_congr cfg w w₁ p (hread p hp) q).1 hq)
  have hd₁ : OutputsDistinct w₁ root := by unfold OutputsDistinct; rw [A.resolve]; exact hd
  have hg₁ : GlobalsApart w₁ cfg rootPath root := by
    refine ⟨by rw [hout, hgid]; exact hg.1, fun p q hp hq => ?_⟩
    rw [hgid, A.resolve]
    exact hg.2 p q hp ((reads_congr cfg w w₁ p (hread p hp) q).1 hq)
  have B := after_run hr₁ hd₁ hg₁ R₂
  -- both runs do the same to a file
  have hfile : ∀ p, FoundIn root p →
      (poolCompile ω₂ fuel₂ ext cfg schema w₁ p).2.disk (w.resolve (outputPath p)) =
        w₁.disk (w.resolve (outputPath p)) ∧
      globalsOfFile ω₂ fuel₂ ext cfg schema w₁ p = globalsOfFile ω₁ fuel₁ ext cfg schema w p := by
    intro p hp
    have hgc := generateFile_congr cfg w w₁ (ω₂ p) fuel₂ ext schema p (hread p hp)
    obtain ⟨gs, m, e1⟩ := A.returned p hp
    obtain ⟨gs', m', e2⟩ := B.returned p hp
    have ho := A.outputs p hp
    rw [poolCompile_world] at ho
    rw [poolCompile_world, hgc]
    unfold globalsOfFile
    rw [poolCompile_outcome ω₂ fuel₂ ext cfg schema p w w₁ hgc A.resolve A.writeErr]
    rw [poolCompile_outcome ω₂ fuel₂ ext cfg schema p w w₁ hgc A.resolve A.writeErr] at e2
    unfold poolCompile compileFile at e1 e2 ⊢
    cases g1 : generateFile (ω₁ p) fuel₁ ext cfg schema w p with
    | none => rw [g1] at e1; simp at e1
    | some x1 =>
      cases x1 with
      | panic => rw [g1] at e1; simp at e1
      | done y1 =>
        cases g2 : generateFile (ω₂ p) fuel₂ ext cfg schema w p with
        | none => rw [g2] at e2; simp at e2
        | some x2 =>
          cases x2 with
          | panic => rw [g2] at e2; simp at e2
          | done y2 =>
            cases y1 with
            | ok mc =>
              obtain ⟨m1, c⟩ := mc
              obtain ⟨m2, rfl⟩ := generate_det ext cfg schema w p hcon (hh p hp) (ω₁ p) (ω₂ p) fuel₁ fuel₂
                g1 g2
              rw [g1] at ho
              simp only at ho ⊢
              refine ⟨?_, ?_⟩
              · rw [ho]
                exact write_disk w₁ w (outputPath p) c.contents A.resolve A.writeErr (.inr ho)
              · generalize w.write (outputPath p) c.contents = a
                obtain ⟨a1, a2⟩ := a
                cases a1 <;> rfl
            | error es =>
              cases y2 with
              | ok mc =>
                obtain ⟨m1, c⟩ := mc
                obtain ⟨m2, e⟩ := generate_det ext cfg schema w p hcon (hh p hp) (ω₂ p) (ω₁ p) fuel₂ fuel₁
                  g2 g1
                simp at e
              | error es' => exact ⟨rfl, rfl⟩
  have hu : ∀ n, n ∈ s₁.aggregate.2 ↔ n ∈ s₂.aggregate.2 := by
    intro n
    rw [A.used, B.used]
    constructor
    · rintro ⟨p, hp, h⟩; exact ⟨p, hp, by rw [(hfile p hp).2]; exact h⟩
    · rintro ⟨p, hp, h⟩; exact ⟨p, hp, by rw [← (hfile p hp).2]; exact h⟩
  have hmt : ∀ {l l' : List String}, (∀ n, n ∈ l ↔ n ∈ l') → l = [] → l' = [] := by
    intro l l' h e
    subst e
    exact List.eq_nil_iff_forall_not_mem.2 (fun n hn => by simpa using (h n).2 hn)
  have hB := B.globals
  rw [hgid] at hB
  have hG : w₂.disk (globalsId w cfg rootPath) = w₁.disk (globalsId w cfg rootPath) := by
    rcases hB with ⟨e2, m2, d2⟩ | ⟨n2, r', c2, q2⟩
    · exact d2
    · rcases q2 with ⟨e', rfl, m2, d2⟩ | ⟨text, rfl, d2, m2⟩
      · exact d2
      · rcases A.globals with ⟨e1, m1, d1⟩ | ⟨n1, r, c1, q1⟩
        · exact absurd (hmt hu e1) n2
        · have := (C16_globals_deterministic schema hk ω₁' ω₂' fuel₁ fuel₂ _ _ _ hu r _ c1 c2 text).2 rfl
          subst this
          rcases q1 with ⟨e, h, _⟩ | ⟨text', h, d1, m1⟩
          · simp at h
          · injection h with h
            subst h
            rw [d2, d1]
            exact write_disk w₁ w (globalsPath cfg rootPath) text A.resolve A.writeErr (.inr d1)
  refine ⟨B.resolve, B.writeErr, fun id => ?_⟩
  by_cases ho : IsOutput w root id
  · obtain ⟨p, hp, rfl⟩ := ho
    have := B.outputs p hp
    rw [A.resolve] at this
    rw [this, (hfile p hp).1]
  · by_cases hi : id = globalsId w cfg rootPath
    · subst hi; exact hG
    · exact B.others id (by rw [hout]; exact ho) (by rw [hgid]; exact hi)

end Whole

/-! ### The demo files meet the hypotheses -/

namespace Demo
/-- The directory of the demo files. -/
def fileTree : Entry := .dir ⟨true, ["r"]⟩ [.file qPath, .file ⟨true, ["r", "f.graphql"]⟩]

/-- The fragment file. -/
def fPath : Path := ⟨true, ["r", "f.graphql"]⟩

/-- The schedule of a single worker, long enough for the demo files. -/
def fileSched : List Nat := List.replicate 40 0
end Demo

theorem demo_found {p : Path} (h : FoundIn Demo.fileTree p) : p = Demo.qPath ∨ p = Demo.fPath := by
  have : p ∈ filesOf Demo.fileTree := (mem_filesOf _ p).2 h
  have e : filesOf Demo.fileTree = [Demo.qPath, Demo.fPath] := by decide +kernel
  rw [e] at this
  simpa using this

theorem demo_imports_q {il : ImportLine} {r : Path}
    (h : Imports Demo.cfg Demo.qPath "#import \"f.graphql\"\n#import \"m.graphql\"\nquery Q" il r) :
    r = Demo.fPath ∨ r = ⟨true, ["r", "m.graphql"]⟩ := by
  obtain ⟨h1, h2⟩ := h
  have hall : ∀ il ∈ importsOf "#import \"f.graphql\"\n#import \"m.graphql\"\nquery Q",
      getFilePathOfFragment Demo.cfg il.after Demo.qPath.pop = some Demo.fPath ∨
      getFilePathOfFragment Demo.cfg il.after Demo.qPath.pop = some ⟨true, ["r", "m.graphql"]⟩ := by
    decide +kernel
  rcases hall il h1 with e | e
  · rw [e] at h2; injection h2 with h2; exact .inl h2.symm
  · rw [e] at h2; injection h2 with h2; exact .inr h2.symm

theorem demo_imports_f {p : Path} {il : ImportLine} {r : Path} :
    ¬ Imports Demo.cfg p "fragment F" il r := by
  rintro ⟨h1, _⟩
  have : (importsOf "fragment F").length = 0 := by decide +kernel
  rw [List.length_eq_zero_iff.1 this] at h1
  simp at h1

theorem demo_reads {p q : Path} (hp : p = Demo.qPath ∨ p = Demo.fPath)
    (h : Reads Demo.world Demo.cfg p q) :
    q = Demo.qPath ∨ q = Demo.fPath ∨ q = ⟨true, ["r", "m.graphql"]⟩ := by
  have rq : Demo.world.read Demo.qPath =
      .ok "#import \"f.graphql\"\n#import \"m.graphql\"\nquery Q" := rfl
  have rf : Demo.world.read Demo.fPath = .ok "fragment F" := rfl
  have rm : Demo.world.read ⟨true, ["r", "m.graphql"]⟩ = .error "missing" := rfl
  induction h with
  | self => rcases hp with h | h <;> simp [h]
  | imported _ hr hi ih =>
    rcases ih with rfl | rfl | rfl
    · rw [rq] at hr
      injection hr with hr
      subst hr
      rcases demo_imports_q hi with h | h <;> simp [h]
    · rw [rf] at hr
      injection hr with hr
      subst hr
      exact absurd hi demo_imports_f
    · rw [rm] at hr; simp at hr

theorem demo_output {id : String} (h : IsOutput Demo.world Demo.fileTree id) :
    id = "/r/q.graphql.d.ts" ∨ id = "/r/f.graphql.d.ts" := by
  obtain ⟨p, hp, rfl⟩ := h
  rcases demo_found hp with rfl | rfl
  · exact .inl (by decide +kernel)
  · exact .inr (by decide +kernel)

theorem demo_noOutputRead : NoOutputRead Demo.world Demo.cfg Demo.fileTree := by
  intro p q hp hq ho
  rcases demo_reads (demo_found hp) hq with rfl | rfl | rfl <;>
  · rcases demo_output ho with h | h
    · revert h; decide +kernel
    · revert h; decide +kernel

theorem demo_outputsDistinct : OutputsDistinct Demo.world Demo.fileTree := by
  intro p q hp hq h
  rcases demo_found hp with rfl | rfl <;> rcases demo_found hq with rfl | rfl <;>
    first | rfl | (exfalso; revert h; decide +kernel)

theorem demo_globalsApart : GlobalsApart Demo.world Demo.cfg ⟨true, ["r"]⟩ Demo.fileTree := by
  refine ⟨fun ho => ?_, fun p q hp hq => ?_⟩
  · rcases demo_output ho with h | h
    · revert h; decide +kernel
    · revert h; decide +kernel
  · rcases demo_reads (demo_found hp) hq with rfl | rfl | rfl <;> decide +kernel

theorem demo_imported_q {f : FragmentDef} :
    ImportedFragment Demo.ext Demo.world Demo.cfg Demo.qPath
      "#import \"f.graphql\"\n#import \"m.graphql\"\nquery Q" f ↔ f = Demo.fragF := by
  have rf : Demo.world.read Demo.fPath = .ok "fragment F" := rfl
  have rm : Demo.world.read ⟨true, ["r", "m.graphql"]⟩ = .error "missing" := rfl
  have pf : Demo.ext.parse "fragment F" = .ok [.fragment Demo.fragF] := rfl
  constructor
  · rintro ⟨q, c, hl, hr, hp⟩
    have hq : q = Demo.fPath := by
      cases hl with
      | direct hi hr' =>
        rcases demo_imports_q hi with h | h
        · exact h
        · subst h; rw [rm] at hr; simp at hr
      | trans hi hr' hl' =>
        exfalso
        rcases demo_imports_q hi with h | h
        · subst h
          rw [rf] at hr'
          injection hr' with hr'
          subst hr'
          cases hl' with
          | direct hi _ => exact demo_imports_f hi
          | trans hi _ _ => exact demo_imports_f hi
        · subst h; rw [rm] at hr'; simp at hr'
    subst hq
    rw [rf] at hr
    injection hr with hr
    subst hr
    rw [pf] at hp
    injection hp with hp
    injection hp with hp _
    injection hp with hp
    exact hp.symm
  · rintro rfl
    refine ⟨Demo.fPath, "fragment F", .direct (il := ⟨1, "#import \"f.graphql\"".toList,
      "f.graphql\"".toList⟩) ⟨?_, by decide +kernel⟩ rf, rf, pf⟩
    have hlen : (importsOf "#import \"f.graphql\"\n#import \"m.graphql\"\nquery Q").map
        (fun l => (l.number, l.line, l.after)) =
      [(1, "#import \"f.graphql\"".toList, "f.graphql\"".toList),
       (2, "#import \"m.graphql\"".toList, "m.graphql\"".toList)] := by decide +kernel
    cases h : importsOf "#import \"f.graphql\"\n#import \"m.graphql\"\nquery Q" with
    | nil => rw [h] at hlen; simp at hlen
    | cons a r =>
      rw [h] at hlen
      simp only [List.map_cons, List.cons.injEq, Prod.mk.injEq] at hlen
      obtain ⟨n, l, a'⟩ := a
      obtain ⟨⟨rfl, rfl, rfl⟩, _⟩ := hlen
      exact List.mem_cons_self ..

theorem demo_hashProof {p : Path} (hp : FoundIn Demo.fileTree p) :
    HashProof Demo.ext Demo.schema Demo.world Demo.cfg p := by
  intro contents d hr hd
  rcases demo_found hp with rfl | rfl
  · have rq : Demo.world.read Demo.qPath =
        .ok "#import \"f.graphql\"\n#import \"m.graphql\"\nquery Q" := rfl
    rw [rq] at hr
    injection hr with hr
    subst hr
    have pq : Demo.ext.parse "#import \"f.graphql\"\n#import \"m.graphql\"\nquery Q" =
        .ok [Demo.query] := rfl
    rw [pq] at hd
    injection hd with hd
    injection hd with hd _
    subst hd
    refine ⟨?_, ?_, by decide⟩
    · intro f f' h h' _
      rw [demo_imported_q.1 h, demo_imported_q.1 h']
    · intro frags hs
      have hget : ∀ n, AMap.get? Demo.ctx.fragments n = AMap.get? frags n := by
        intro n
        by_cases hn : n = "F"
        · subst hn
          rw [(hs "F" Demo.fragF).2 ⟨rfl, demo_imported_q.2 rfl⟩]
          rfl
        · have h0 : AMap.get? Demo.ctx.fragments n = none := by
            unfold Demo.ctx
            simp only [AMap.get?]
            rw [if_neg (fun e => hn e.symm)]
          rw [h0]
          cases hf : AMap.get? frags n with
          | none => rfl
          | some f =>
            obtain ⟨h1, h2⟩ := (hs n f).1 hf
            rw [demo_imported_q.1 h2] at h1
            exact absurd h1.symm hn
      refine ⟨fragsValid_congr hget demo_frags_valid, ?_⟩
      intro P hP
      have : P = "Query" := by
        have e : rootType Demo.query = some "Query" := rfl
        rw [e] at hP
        injection hP with hP
        exact hP.symm
      subst this
      obtain ⟨_, _, _, ho⟩ := demo_unambiguous
      exact oneTypePerKey_congr hget ho
  · have rf : Demo.world.read Demo.fPath = .ok "fragment F" := rfl
    rw [rf] at hr
    injection hr with hr
    subst hr
    have pf : Demo.ext.parse "fragment F" = .ok [.fragment Demo.fragF] := rfl
    rw [pf] at hd
    injection hd with hd
    injection hd with hd _
    subst hd
    have none : ∀ f, ¬ ImportedFragment Demo.ext Demo.world Demo.cfg Demo.fPath "fragment F" f := by
      rintro f ⟨q, c, hl, _⟩
      cases hl with
      | direct hi _ => exact demo_imports_f hi
      | trans hi _ _ => exact demo_imports_f hi
    refine ⟨fun f _ h => absurd h (none f), ?_, by decide⟩
    intro frags hs
    have hget : ∀ n, AMap.get? ([] : Frags) n = AMap.get? frags n := by
      intro n
      cases hf : AMap.get? frags n with
      | none => rfl
      | some f => exact absurd ((hs n f).1 hf).2 (none f)
    refine ⟨fragsValid_congr hget (frags_nil_valid _), ?_⟩
    intro P hP
    have : P = "Node" := by
      have e : rootType (.fragment Demo.fragF) = some "Node" := rfl
      rw [e] at hP
      injection hP with hP
      exact hP.symm
    subst this
    obtain ⟨op, ws, h, hd⟩ := compiledDistinct_iff.1 (show compiledDistinct
      (Operation.compile .inOrder 5 ⟨Demo.schema, true, []⟩ (.fragment Demo.fragF)) = true by
        decide +kernel)
    exact oneTypePerKey_congr hget ((C21_listed_once_iff .inOrder 5 true demo_consistent
      (frags_nil_valid _) (.fragment Demo.fragF) op ws "Node" rfl h).1 hd)

/-- Two complete runs of the demo over its two files, the second over the result of the first and with
another hash order. -/
def demoRun (ω : Hash) (w : World) : PoolSt World :=
  (PoolSt.init w 1 Demo.fileTree).run (poolCompile (fun _ => ω) 5 Demo.ext Demo.cfg Demo.schema) 1
    Demo.fileSched

/-- The end of the first run. -/
def demoEnd (ω : Hash) (w : World) : Option (List Msg × World) :=
  finishWork ω 5 Demo.cfg Demo.schema (demoRun ω w).world ⟨true, ["r"]⟩ (demoRun ω w).aggregate

/-- The run ends with no work left, and the globals are dealt with. -/
def demoOk (ω : Hash) (w : World) : Bool :=
  (demoRun ω w).finished && (pending (demoRun ω w)).isEmpty && (demoEnd ω w).isSome

theorem demo_runs {ω : Hash} {w : World} (h : demoOk ω w = true) : ∃ ms w', demoEnd ω w = some (ms, w') ∧
    RunsTo (fun _ => ω) ω 5 Demo.ext Demo.cfg Demo.schema ⟨true, ["r"]⟩ Demo.fileTree 1 w (demoRun ω w)
      ms w' := by
  unfold demoOk at h
  simp only [Bool.and_eq_true] at h
  obtain ⟨⟨h1, h2⟩, h3⟩ := h
  obtain ⟨⟨ms, w'⟩, h4⟩ := Option.isSome_iff_exists.1 h3
  exact ⟨ms, w', h4, ⟨_, rfl⟩, h1, List.isEmpty_iff.1 h2, h4⟩

/-- The file system after the first run. -/
def demoAfter : World := match demoEnd .inOrder Demo.world with
  | some (_, w) => w
  | none => Demo.world

/-- The demo: a first run that writes three files, and a second run over its result with another hash
order; all hypotheses of C57 and C58 are met. -/
example : ∃ s₁ s₂ ms₁ ms₂ w₁ w₂,
    RunsTo (fun _ => .inOrder) .inOrder 5 Demo.ext Demo.cfg Demo.schema ⟨true, ["r"]⟩ Demo.fileTree 1
      Demo.world s₁ ms₁ w₁ ∧
    RunsTo (fun _ => .reversed) .reversed 5 Demo.ext Demo.cfg Demo.schema ⟨true, ["r"]⟩ Demo.fileTree 1
      w₁ s₂ ms₂ w₂ ∧
    (∃ t, w₁.disk "/r/q.graphql.d.ts" = .ok t) ∧ (∃ t, w₁.disk "/r/f.graphql.d.ts" = .ok t) ∧
    (∃ t, w₁.disk "/r/globals.ts" = .ok t) ∧ SameFiles w₁ w₂ := by
  obtain ⟨ms₁, w₁, e₁, R₁⟩ := demo_runs (ω := .inOrder) (w := Demo.world) (by decide +kernel)
  have ew : w₁ = demoAfter := by unfold demoAfter; rw [e₁]
  have h2 : demoOk .reversed demoAfter = true := by decide +kernel
  rw [← ew] at h2
  obtain ⟨ms₂, w₂, e₂, R₂⟩ := demo_runs h2
  have isOk : ∀ r : Except String String, r.toOption.isSome = true → ∃ t, r = .ok t := by
    intro r h
    cases r with
    | ok t => exact ⟨t, rfl⟩
    | error e => simp [Except.toOption] at h
  have d1 : (demoAfter.disk "/r/q.graphql.d.ts").toOption.isSome = true := by decide +kernel
  have d2 : (demoAfter.disk "/r/f.graphql.d.ts").toOption.isSome = true := by decide +kernel
  have d3 : (demoAfter.disk "/r/globals.ts").toOption.isSome = true := by decide +kernel
  rw [← ew] at d1 d2 d3
  refine ⟨_, _, ms₁, ms₂, w₁, w₂, R₁, R₂, isOk _ d1, isOk _ d2, isOk _ d3, ?_⟩
  exact C58_second_run_changes_nothing demo_consistent (ofJson_inputFieldsOnce (j := Demo.json) rfl)
    demo_noOutputRead demo_outputsDistinct demo_globalsApart (fun p hp => demo_hashProof hp) R₁ R₂

end Qlc
