import Mathlib.Data.List.Induction
import Verif.Spec.Shared
import Verif.Lemmas.Bytes
import Verif.Lemmas.FineFair
import Verif.Props.Crash
/-
Several invocations at the same time: each is where it could be if it were alone, and what they write to a
file is the same text.
-/
set_option autoImplicit false

namespace Qlc
open Spec

/-! ### One system call, alone and in company -/

/-- What a system call that does not return does to the files. -/
inductive CallEffect {α : Type} (W : World) (fs : ByteFs) (m : Nat) (f : Flight α) :
    Flight α → World → ByteFs → Prop where
  | quiet (f' : Flight α) : (∀ p t n x, f' ≠ .writing p t n x) →
      (∀ p t n x, f = .writing p t n x → byteLength t ≤ n) → CallEffect W fs m f f' W fs
  | opened (p : Path) (t : String) (x : Ops α) : (∀ p t n x, f ≠ .writing p t n x) →
      CallEffect W fs m f (.writing p t 0 x) (W.set (W.resolve p) (.ok "")) (fs.truncate (W.resolve p))
  | wrote (p : Path) (t : String) (n : Nat) (x : Ops α) : f = .writing p t n x →
      CallEffect W fs m f (.writing p t (n + m) x) (W.set (W.resolve p) (cut t (n + m)))
        (fs.pwrite (W.resolve p) n (((utf8 t).drop n).take m))

theorem call_effect {α : Type} {W : World} {fs : ByteFs} {f : Flight α} (m : Nat)
    (hres : fs.resolve = W.resolve) (herr : fs.writeErr = W.writeErr)
    (hread : ∀ q k, f = .ops (.read q k) → readBytes (fs.files (W.resolve q)) = W.read q) :
    (∃ f' W' fs', f.step W m = .inl (f', W') ∧ fs.step m f = .inl (f', fs') ∧
      CallEffect W fs m f f' W' fs') ∨
    ∃ a, f = .ops (.ret a) ∧ f.step W m = .inr a ∧ fs.step m f = .inr a := by
  cases f with
  | ops o =>
    cases o with
    | ret a => exact .inr ⟨a, rfl, rfl, rfl⟩
    | read q k =>
      refine .inl ⟨.ops (k (W.read q)), W, fs, rfl, ?_, .quiet _ (by simp) (by simp)⟩
      simp only [ByteFs.step]
      rw [hres, hread q k rfl]
    | write q c k =>
      simp only [Flight.step, ByteFs.step, hres, herr]
      cases W.writeErr (W.resolve q) with
      | none => exact .inl ⟨_, _, _, rfl, rfl, .opened q c _ (by simp)⟩
      | some el =>
        obtain ⟨e, l⟩ := el
        cases l with
        | none =>
          exact .inl ⟨_, _, _, rfl, rfl, .quiet _ (by simp) (by simp)⟩
        | some l => exact .inl ⟨_, _, _, rfl, rfl, .opened q l _ (by simp)⟩
  | writing p t n x =>
    simp only [Flight.step, ByteFs.step, hres]
    by_cases hn : byteLength t ≤ n
    · rw [if_pos hn, if_pos hn]
      refine .inl ⟨_, _, _, rfl, rfl, .quiet _ (by simp) ?_⟩
      intro p' t' n' x' e
      injection e with e1 e2 e3 e4
      subst e2; subst e3
      exact hn
    · rw [if_neg hn, if_neg hn]
      exact .inl ⟨_, _, _, rfl, rfl, .wrote p t n x rfl⟩

/-! ### An invocation and the same invocation alone -/

theorem erase_const {σ τ : Type} {threads : Nat} {s : PoolSt σ} {i : Nat} {me : WorkerSt} {p : Path}
    (hme : s.workers[i]? = some me) (hr : me.pc = .running (.graphQl p)) (t : τ) (out : FileOutcome) :
    (erase s t).step (fun u _ => (out, u)) threads i = erase (s.step (fun u _ => (out, u)) threads i) t := by
  rw [step_of _ threads s i me hme, step_of _ threads (erase s t) i me hme]
  obtain ⟨pc, iw, iq, ms, gs⟩ := me
  simp only at hr
  subst hr
  cases out <;> simp [stepWorker, runWork, Work.run, erase]

theorem step_finished {σ : Type} (c : Compiler σ) (threads : Nat) {s : PoolSt σ} (hf : s.finished = true)
    (i : Nat) : s.step c threads i = s := by
  cases hme : s.workers[i]? with
  | none => unfold PoolSt.step; rw [hme]
  | some me =>
    rw [step_of c threads s i me hme]
    have hpc := exited_of_finished hf me (List.mem_of_getElem? hme)
    have h1 : stepWorker c threads s me = (s, me) := by
      unfold stepWorker
      rw [hpc]
    rw [h1]
    have : s.workers.set i me = s.workers := by
      obtain ⟨hlt, he⟩ := List.getElem?_eq_some_iff.1 hme
      rw [← he]
      exact List.set_getElem_self hlt
    simp only [this]

section Alone
variable (ext : Ext) (cfg : CompileConfig) (schema : Schema) (rootPath : Path) (root : Entry) (w : World)
variable (ω : Path → Hash) (ω' : Hash) (fuel threads : Nat)

/-- An invocation alone, started on `w`, can be where `P` is; the files are then `V`. -/
inductive Alone (P : Proc) (V : World) : Prop where
  | working (F : FinePool) : FineReached ω fuel ext cfg schema w root threads F →
      P = ⟨erase F.pool (), F.flights, .joining⟩ → V = F.pool.world → Alone P V
  | finishing (F : FinePool) (f : Flight (Option (List Msg))) :
      FineReached ω fuel ext cfg schema w root threads F → F.pool.finished = true →
      FineFinish ω' fuel cfg schema rootPath F (.inl f, V) →
      P = ⟨erase F.pool (), F.flights, .finishing f⟩ → Alone P V
  | returned (F : FinePool) (r : Option (List Msg)) :
      FineReached ω fuel ext cfg schema w root threads F → F.pool.finished = true →
      FineFinish ω' fuel cfg schema rootPath F (.inr r, V) →
      P = ⟨erase F.pool (), F.flights, .returned r⟩ → Alone P V

/-- A thread of the invocation is writing `t` to the file `id` and has written `n` bytes. -/
def Writing (P : Proc) (id t : String) (n : Nat) : Prop :=
  (∃ i p x, P.flights i = some (.writing p t n x) ∧ w.resolve p = id) ∨
  ∃ p x, P.main = .finishing (.writing p t n x) ∧ w.resolve p = id

/-- Text that some complete run could write to the file `id`. -/
def OutputText (id t : String) : Prop :=
  (∃ p ω₀ fuel₀, FoundIn root p ∧ id = w.resolve (outputPath p) ∧ WouldLeave ω₀ fuel₀ ext cfg schema w p t) ∨
  (id = globalsId w cfg rootPath ∧ ∃ ω₀ ω₀' fuel₀ used text, used ≠ [] ∧
      (∀ p, FoundIn root p → ∃ gs ms, (poolCompile ω₀ fuel₀ ext cfg schema w p).1 = .done gs ms) ∧
      (∀ n, n ∈ used ↔ ∃ p, FoundIn root p ∧ n ∈ globalsOfFile ω₀ fuel₀ ext cfg schema w p) ∧
      compileGlobals ω₀' fuel₀ cfg.toTsConfig schema used = some (.ok text) ∧
      Leaves w (globalsId w cfg rootPath) text t)

variable {ext cfg schema rootPath root w}

theorem leaves_unique {id c t t' : String} (h : Leaves w id c t) (h' : Leaves w id c t') : t = t' := by
  rcases h with ⟨h1, rfl⟩ | ⟨e, h1⟩ <;> rcases h' with ⟨h2, rfl⟩ | ⟨e', h2⟩
  · rfl
  · rw [h1] at h2; cases h2
  · rw [h1] at h2; cases h2
  · rw [h1] at h2
    have := Option.some.inj h2
    exact Option.some.inj (Prod.mk.inj this).2

/-- Two complete runs over the same files use the same global types. -/
theorem used_same {ω₁ ω₂ : Path → Hash} {fuel₁ fuel₂ : Nat} {used used' : List String} (hcon : Consistent schema)
    (hh : ∀ p, FoundIn root p → HashProof ext schema w cfg p)
    (h1 : ∀ p, FoundIn root p → ∃ gs ms, (poolCompile ω₁ fuel₁ ext cfg schema w p).1 = .done gs ms)
    (h2 : ∀ p, FoundIn root p → ∃ gs ms, (poolCompile ω₂ fuel₂ ext cfg schema w p).1 = .done gs ms)
    (u1 : ∀ n, n ∈ used ↔ ∃ p, FoundIn root p ∧ n ∈ globalsOfFile ω₁ fuel₁ ext cfg schema w p)
    (u2 : ∀ n, n ∈ used' ↔ ∃ p, FoundIn root p ∧ n ∈ globalsOfFile ω₂ fuel₂ ext cfg schema w p) (n : String) :
    n ∈ used ↔ n ∈ used' := by
  have heq : ∀ p, FoundIn root p → globalsOfFile ω₁ fuel₁ ext cfg schema w p =
      globalsOfFile ω₂ fuel₂ ext cfg schema w p := by
    intro p hp
    rw [globalsOfFile_eq, globalsOfFile_eq]
    rcases generate_same hcon (hh p hp) (h1 p hp) (h2 p hp) with ⟨m1, m2, c, g1, g2⟩ | ⟨e1, e2, g1, g2⟩
    · rw [g1, g2]
    · rw [g1, g2]
  rw [u1, u2]
  exact exists_congr (fun p => and_congr_right (fun hp => by rw [heq p hp]))

theorem outputText_unique {id t t' : String} (hcon : Consistent schema) (hk : InputFieldsOnce schema)
    (hd : OutputsDistinct w root) (hg : GlobalsApart w cfg rootPath root)
    (hh : ∀ p, FoundIn root p → HashProof ext schema w cfg p)
    (h : OutputText ext cfg schema rootPath root w id t)
    (h' : OutputText ext cfg schema rootPath root w id t') : t = t' := by
  rcases h with ⟨p, ω₁, fuel₁, hp, rfl, m1, c1, g1, L1⟩ | ⟨rfl, ω₁, ω₁', fuel₁, used, text, hne, r1, u1, c1, L1⟩
  · rcases h' with ⟨p', ω₂, fuel₂, hp', e, m2, c2, g2, L2⟩ | ⟨e, _⟩
    · have := hd p p' hp hp' e
      subst this
      obtain ⟨m', e⟩ := generate_det ext cfg schema w p hcon (hh p hp) ω₁ ω₂ fuel₁ fuel₂ g1 g2
      have := (Prod.mk.inj (Except.ok.inj e)).2
      subst this
      exact leaves_unique L1 L2
    · exact absurd ⟨p, hp, e.symm⟩ hg.1
  · rcases h' with ⟨p', ω₂, fuel₂, hp', e, _⟩ | ⟨_, ω₂, ω₂', fuel₂, used', text', hne', r2, u2, c2, L2⟩
    · exact absurd ⟨p', hp', e⟩ hg.1
    · have hu := used_same hcon hh r1 r2 u1 u2
      have := (C16_globals_deterministic schema hk ω₁' ω₂' fuel₁ fuel₂ _ _ _ hu _ _ c1 c2 text).1 rfl
      have := Except.ok.inj this
      subst this
      exact leaves_unique L1 L2

theorem write_of_leaves {q : Path} {c t : String} (h : Leaves w (w.resolve q) c t) :
    (w.write q c).2.disk (w.resolve q) = .ok t := by
  unfold World.write
  rcases h with ⟨h, rfl⟩ | ⟨e, h⟩ <;> simp [h, World.put]

/-- A complete run leaves that text. -/
theorem outputText_final {id t : String} {s : PoolSt World} {ms : List Msg} {w' : World} (hcon : Consistent schema)
    (hk : InputFieldsOnce schema) (hr : NoOutputRead w cfg root)
    (hd : OutputsDistinct w root) (hg : GlobalsApart w cfg rootPath root)
    (hh : ∀ p, FoundIn root p → HashProof ext schema w cfg p)
    (h : OutputText ext cfg schema rootPath root w id t)
    (R : RunsTo ω ω' fuel ext cfg schema rootPath root threads w s ms w') : w'.disk id = .ok t := by
  have A := after_run hr hd hg R
  rcases h with ⟨p, ω₁, fuel₁, hp, rfl, m1, c1, g1, L1⟩ | ⟨rfl, ω₁, ω₁', fuel₁, used, text, hne, r1, u1, c1, L1⟩
  · rw [A.outputs p hp, poolCompile_world]
    have := A.returned p hp
    have hex : ∃ y, generateFile (ω p) fuel ext cfg schema w p = some (.done y) := by
      obtain ⟨gs, m, e⟩ := this
      unfold poolCompile compileFile at e
      cases g : generateFile (ω p) fuel ext cfg schema w p with
      | none => rw [g] at e; simp at e
      | some x =>
        cases x with
        | panic => rw [g] at e; simp at e
        | done y => exact ⟨y, rfl⟩
    obtain ⟨y, hy⟩ := hex
    obtain ⟨m', e⟩ := generate_det ext cfg schema w p hcon (hh p hp) ω₁ (ω p) fuel₁ fuel g1 hy
    subst e
    rw [hy]
    exact write_of_leaves L1
  · have hu := used_same hcon hh r1 A.returned u1 A.used
    rcases A.globals with ⟨e, _⟩ | ⟨_, r, c2, q⟩
    · rw [e] at hu
      exact absurd (List.eq_nil_iff_forall_not_mem.2 (fun n hn => by simpa using (hu n).1 hn)) hne
    · have := (C16_globals_deterministic schema hk ω₁' ω' fuel₁ fuel _ _ _ hu _ _ c1 c2 text).1 rfl
      subst this
      rcases q with ⟨e, h, _⟩ | ⟨text', h, d, _⟩
      · cases h
      · have := Except.ok.inj h
        subst this
        rw [d]
        exact write_of_leaves L1

/-! ### What is known of an invocation under way -/

theorem fineReached_step {F : FinePool} (h : FineReached ω fuel ext cfg schema w root threads F) (im : Nat × Nat) :
    FineReached ω fuel ext cfg schema w root threads
      (F.step (fun p => compileOps (ω p) fuel ext cfg schema p) threads im) := by
  obtain ⟨sched, rfl⟩ := h
  refine ⟨sched ++ [im], ?_⟩
  unfold FinePool.run
  rw [List.foldl_append]
  rfl

theorem fineFinish_facts {F : FinePool} {now : (Flight (Option (List Msg)) ⊕ Option (List Msg)) × World}
    (hF : FineReached ω fuel ext cfg schema w root threads F)
    (hG : FineFinish ω' fuel cfg schema rootPath F now) :
    now.2.resolve = w.resolve ∧ now.2.writeErr = w.writeErr ∧
      ∀ id, ¬ IsOutput w root id → id ≠ globalsId w cfg rootPath → now.2.disk id = w.disk id := by
  have T := touch_reached ω fuel ext cfg schema threads hF
  obtain ⟨sizes, rfl⟩ := hG
  obtain ⟨g1, g2, g3⟩ := flightOnly_steps sizes
    (Flight.ops (finishOps ω' fuel cfg schema rootPath F.pool.aggregate)) F.pool.world
    (out := globalsPath cfg rootPath) (finishOps_writesOnly ω' fuel cfg schema rootPath F.pool.aggregate)
  refine ⟨g1.trans T.resolve, g2.trans T.writeErr, fun id h h' => ?_⟩
  rw [g3 id (by rw [T.resolve]; exact h'), T.disk id h]

theorem Alone.facts {P : Proc} {V : World} (h : Alone ext cfg schema rootPath root w ω ω' fuel threads P V) :
    V.resolve = w.resolve ∧ V.writeErr = w.writeErr ∧
      ∀ id, ¬ IsOutput w root id → id ≠ globalsId w cfg rootPath → V.disk id = w.disk id := by
  cases h with
  | working F hF _ hV =>
    have T := touch_reached ω fuel ext cfg schema threads hF
    subst hV
    exact ⟨T.resolve, T.writeErr, fun id h _ => T.disk id h⟩
  | finishing F f hF _ hG _ => exact fineFinish_facts ω ω' fuel threads hF hG
  | returned F r hF _ hG _ => exact fineFinish_facts ω ω' fuel threads hF hG

/-- Where the compile of a worker is. -/
theorem flight_onTrack {F : FinePool} (hr : NoOutputRead w cfg root) (hd : OutputsDistinct w root)
    (hn : (filesOf root).Nodup) (hF : FineReached ω fuel ext cfg schema w root threads F) {i : Nat}
    {f : Flight FileOutcome} (hf : F.flights i = some f) :
    ∃ p d, FoundIn root p ∧ OnTrack w (outputPath p) (compileOps (ω p) fuel ext cfg schema p) d f := by
  obtain ⟨sched, rfl⟩ := hF
  obtain ⟨sched', C, hC, S⟩ := sim_run ω fuel ext cfg schema threads hr hd hn sched
  have K := known_of_reached ω fuel ext cfg schema threads hr hd hn hC
  obtain ⟨p, hp, T⟩ := S.flying i f hf
  exact ⟨p, _, K.found i p hp, T⟩

/-- Where the main thread is. -/
theorem main_onTrack {F : FinePool} {f : Flight (Option (List Msg))} {V : World}
    (hG : FineFinish ω' fuel cfg schema rootPath F (.inl f, V)) :
    ∃ d, OnTrack F.pool.world (globalsPath cfg rootPath)
      (finishOps ω' fuel cfg schema rootPath F.pool.aggregate) d f := by
  obtain ⟨sizes, hs⟩ := hG
  have hW := finishOps_well ω' fuel cfg schema F.pool.world rootPath F.pool.aggregate
  rcases onTrack_steps hW sizes (.ops (finishOps ω' fuel cfg schema rootPath F.pool.aggregate))
    F.pool.world rfl rfl (fun _ _ => rfl) (.before _ .refl rfl) with ⟨f', e, T⟩ | ⟨e, _⟩
  · rw [← hs] at e T
    simp only [Sum.inl.injEq] at e
    subst e
    exact ⟨_, T⟩
  · rw [← hs] at e
    simp at e

/-- What an invocation writes is what a complete run would write. -/
theorem Alone.writing {P : Proc} {V : World} (hr : NoOutputRead w cfg root) (hd : OutputsDistinct w root)
    (hg : GlobalsApart w cfg rootPath root) (hn : (filesOf root).Nodup)
    (h : Alone ext cfg schema rootPath root w ω ω' fuel threads P V)
    (hp : P.pool.finished = true → pending P.pool = []) {id t : String} {n : Nat} (hw : Writing w P id t n) :
    OutputText ext cfg schema rootPath root w id t := by
  have key : ∀ F : FinePool, FineReached ω fuel ext cfg schema w root threads F → ∀ i p x,
      F.flights i = some (.writing p t n x) → w.resolve p = id →
      OutputText ext cfg schema rootPath root w id t := by
    intro F hF i p x hf hid
    obtain ⟨q, d, hq, T⟩ := flight_onTrack ω fuel threads hr hd hn hF hf
    cases T with
    | writing c k _ _ hR hL _ =>
      obtain ⟨msgs, out, hgen, hc⟩ := compileOps_writes hR
      subst hc
      exact .inl ⟨q, ω q, fuel, hq, hid.symm, msgs, out, hgen, hL⟩
  rcases hw with ⟨i, p, x, hf, hid⟩ | ⟨p, x, hm, hid⟩
  · cases h with
    | working F hF hP _ => subst hP; exact key F hF i p x hf hid
    | finishing F f hF _ _ hP => subst hP; exact key F hF i p x hf hid
    | returned F r hF _ _ hP => subst hP; exact key F hF i p x hf hid
  · cases h with
    | working F hF hP _ => subst hP; cases hm
    | returned F r hF _ _ hP => subst hP; cases hm
    | finishing F f hF hfin hG hP =>
      subst hP
      have T := touch_reached ω fuel ext cfg schema threads hF
      have hpe : pending F.pool = [] := hp hfin
      simp only [MainPc.finishing.injEq] at hm
      subst hm
      obtain ⟨d, hT⟩ := main_onTrack ω' fuel hG
      cases hT with
      | writing c k _ _ hR hL _ =>
        obtain ⟨hne, hc⟩ := finishOps_writes hR
        obtain ⟨sched, hreach⟩ := C66_interleaving_refines hr hd hn F hF hfin
        have hrun : RunsTo ω ω' fuel ext cfg schema rootPath root threads w F.pool
            (finishOps_ms ω' fuel cfg schema rootPath F.pool).1
            (finishOps_ms ω' fuel cfg schema rootPath F.pool).2 :=
          ⟨⟨sched, hreach⟩, hfin, hpe, finishOps_ms_eq hc hne⟩
        have A := after_run hr hd hg hrun
        refine .inr ⟨hid.symm, ω, ω', fuel, F.pool.aggregate.2, c, hne, A.returned, A.used, hc, ?_⟩
        rw [T.resolve] at hL
        rcases hL with ⟨e, h⟩ | ⟨e, h⟩
        · exact .inl ⟨by rw [← T.writeErr]; exact e, h⟩
        · exact .inr ⟨e, by rw [← T.writeErr]; exact h⟩

/-- A compile reads nothing that is written. -/
theorem flight_reads {F : FinePool} (hr : NoOutputRead w cfg root) (hd : OutputsDistinct w root)
    (hg : GlobalsApart w cfg rootPath root)
    (hn : (filesOf root).Nodup) (hF : FineReached ω fuel ext cfg schema w root threads F) {i : Nat} {q : Path}
    {k : Except String String → Ops FileOutcome} (hf : F.flights i = some (.ops (.read q k))) :
    ¬ IsOutput w root (w.resolve q) ∧ w.resolve q ≠ globalsId w cfg rootPath := by
  obtain ⟨p, d, hp, T⟩ := flight_onTrack ω fuel threads hr hd hn hF hf
  have hW := compileOps_well (ω p) fuel ext cfg schema w p
  have hq : Spec.Reads w cfg p q := by
    generalize hg : Flight.ops (.read q k) = g at T
    cases T with
    | before o hR _ =>
      injection hg with hg
      subst hg
      cases hR.well hW with
      | read _ _ h _ => exact h
    | writing => cases hg
    | after c k' hR _ =>
      injection hg with hg
      cases hR.well hW with
      | write _ _ h =>
        obtain ⟨a, ha⟩ := h (w.write (outputPath p) c).1
        rw [ha] at hg
        cases hg
  exact ⟨hr p q hp hq, hg.2 p q hp hq⟩

/-- The main thread reads nothing. -/
theorem main_reads {F : FinePool} {V : World} {q : Path} {k : Except String String → Ops (Option (List Msg))}
    (hG : FineFinish ω' fuel cfg schema rootPath F (.inl (.ops (.read q k)), V)) : False := by
  obtain ⟨d, T⟩ := main_onTrack ω' fuel hG
  have hW := finishOps_well ω' fuel cfg schema F.pool.world rootPath F.pool.aggregate
  generalize hg : Flight.ops (.read q k) = g at T
  cases T with
  | before o hR _ =>
    injection hg with hg
    subst hg
    cases hR.well hW with
    | read _ _ h _ => exact h
  | writing => cases hg
  | after c k' hR _ =>
    injection hg with hg
    cases hR.well hW with
    | write _ _ h =>
      obtain ⟨a, ha⟩ := h (F.pool.world.write (globalsPath cfg rootPath) c).1
      rw [ha] at hg
      cases hg

/-! ### One step of one thread -/

/-- What a step of an invocation does to the files, and to what it is writing. -/
inductive ProcEffect (w V : World) (fs : ByteFs) (m : Nat) (P : Proc) : Proc → World → ByteFs → Prop where
  | quiet (P' : Proc) (V' : World) : V'.disk = V.disk →
      (∀ id t n, Writing w P' id t n → Writing w P id t n) →
      (∀ id t n, Writing w P id t n → Writing w P' id t n ∨ byteLength t ≤ n) →
      ProcEffect w V fs m P P' V' fs
  | opened (P' : Proc) (V' : World) (id t : String) : Writing w P' id t 0 →
      (∀ id', id' ≠ id → V'.disk id' = V.disk id') →
      (∀ id' t' n', Writing w P id' t' n' → Writing w P' id' t' n') →
      (∀ id' t' n', Writing w P' id' t' n' → Writing w P id' t' n' ∨ id' = id) →
      ProcEffect w V fs m P P' V' (fs.truncate id)
  | wrote (P' : Proc) (V' : World) (id t : String) (n : Nat) : Writing w P id t n →
      Writing w P' id t (n + m) → (∀ id', id' ≠ id → V'.disk id' = V.disk id') →
      (∀ id' t' n', Writing w P id' t' n' → Writing w P' id' t' n' ∨ (id' = id ∧ t' = t ∧ n' = n)) →
      (∀ id' t' n', Writing w P' id' t' n' → Writing w P id' t' n' ∨ id' = id) →
      ProcEffect w V fs m P P' V' (fs.pwrite id n (((utf8 t).drop n).take m))

theorem writing_setFlight {P : Proc} {i : Nat} {f : Option (Flight FileOutcome)} {id t : String} {n : Nat} :
    Writing w (P.setFlight i f) id t n ↔
      (∃ p x, f = some (.writing p t n x) ∧ w.resolve p = id) ∨
      (∃ j p x, j ≠ i ∧ P.flights j = some (.writing p t n x) ∧ w.resolve p = id) ∨
      ∃ p x, P.main = .finishing (.writing p t n x) ∧ w.resolve p = id := by
  unfold Writing Proc.setFlight
  simp only
  constructor
  · rintro (⟨j, p, x, h, e⟩ | h)
    · by_cases hj : j = i
      · rw [if_pos hj] at h; exact .inl ⟨p, x, h, e⟩
      · rw [if_neg hj] at h; exact .inr (.inl ⟨j, p, x, hj, h, e⟩)
    · exact .inr (.inr h)
  · rintro (⟨p, x, h, e⟩ | ⟨j, p, x, hj, h, e⟩ | h)
    · exact .inl ⟨i, p, x, by rw [if_pos rfl]; exact h, e⟩
    · exact .inl ⟨j, p, x, by rw [if_neg hj]; exact h, e⟩
    · exact .inr h

theorem writing_split {P : Proc} (i : Nat) {id t : String} {n : Nat} :
    Writing w P id t n ↔
      (∃ p x, P.flights i = some (.writing p t n x) ∧ w.resolve p = id) ∨
      (∃ j p x, j ≠ i ∧ P.flights j = some (.writing p t n x) ∧ w.resolve p = id) ∨
      ∃ p x, P.main = .finishing (.writing p t n x) ∧ w.resolve p = id := by
  unfold Writing
  constructor
  · rintro (⟨j, p, x, h, e⟩ | h)
    · by_cases hj : j = i
      · subst hj; exact .inl ⟨p, x, h, e⟩
      · exact .inr (.inl ⟨j, p, x, hj, h, e⟩)
    · exact .inr (.inr h)
  · rintro (⟨p, x, h, e⟩ | ⟨j, p, x, hj, h, e⟩ | h)
    · exact .inl ⟨i, p, x, h, e⟩
    · exact .inl ⟨j, p, x, h, e⟩
    · exact .inr h

/-- Replacing a compile that is not in the middle of a write by one that is not either. -/
theorem effect_setFlight_quiet {P : Proc} {V : World} {fs : ByteFs} {m i : Nat} {f : Option (Flight FileOutcome)}
    (V' : World) (hV : V'.disk = V.disk) (h1 : ∀ p t n x, f ≠ some (.writing p t n x))
    (h2 : ∀ p t n x, P.flights i = some (.writing p t n x) → byteLength t ≤ n) :
    ProcEffect w V fs m P (P.setFlight i f) V' fs := by
  refine .quiet _ _ hV ?_ ?_
  · intro id t n h
    rcases writing_setFlight.1 h with ⟨p, x, h, _⟩ | h
    · exact absurd h (h1 _ _ _ _)
    · exact (writing_split i).2 (.inr h)
  · intro id t n h
    rcases (writing_split i).1 h with ⟨p, x, h, _⟩ | h
    · exact .inr (h2 _ _ _ _ h)
    · exact .inl (writing_setFlight.2 (.inr h))

theorem effect_pool {P : Proc} {V : World} {fs : ByteFs} {m : Nat} {Q : Proc} {V' : World} {fs' : ByteFs}
    (s : PoolSt Unit) (h : ProcEffect w V fs m P Q V' fs') :
    ProcEffect w V fs m P { Q with pool := s } V' fs' := by
  cases h with
  | quiet h1 h2 h3 => exact .quiet _ _ h1 h2 h3
  | opened id t h1 h2 h3 h4 => exact .opened _ _ id t h1 h2 h3 h4
  | wrote id t n h1 h2 h3 h4 h5 => exact .wrote _ _ id t n h1 h2 h3 h4 h5

theorem effect_refl {P : Proc} {V : World} {fs : ByteFs} {m : Nat} : ProcEffect w V fs m P P V fs :=
  .quiet _ _ rfl (fun _ _ _ h => h) (fun _ _ _ h => .inl h)

/-- A system call of a worker. -/
theorem effect_call {P : Proc} {V : World} (hres : V.resolve = w.resolve) {fs : ByteFs} {m i : Nat}
    {f f' : Flight FileOutcome} {V' : World} {fs' : ByteFs} (hf : P.flights i = some f)
    (h : CallEffect V fs m f f' V' fs') : ProcEffect w V fs m P (P.setFlight i (some f')) V' fs' := by
  cases h with
  | quiet _ h1 h2 =>
    refine effect_setFlight_quiet V rfl (fun p t n x e => h1 p t n x (Option.some.inj e)) ?_
    intro p t n x e
    rw [hf] at e
    exact h2 p t n x (Option.some.inj e)
  | opened p t x h1 =>
    rw [hres]
    refine .opened _ _ (w.resolve p) t (writing_setFlight.2 (.inl ⟨p, x, rfl, rfl⟩)) ?_ ?_ ?_
    · intro id' h; simp [World.set, h]
    · intro id' t' n' h
      rcases (writing_split i).1 h with ⟨p', x', h, _⟩ | h
      · rw [hf] at h
        exact absurd (Option.some.inj h) (h1 _ _ _ _)
      · exact writing_setFlight.2 (.inr h)
    · intro id' t' n' h
      rcases writing_setFlight.1 h with ⟨p', x', h, e⟩ | h
      · right
        have := Option.some.inj h
        injection this with h1
        subst h1
        exact e.symm
      · exact .inl ((writing_split i).2 (.inr h))
  | wrote p t n x h1 =>
    subst h1
    rw [hres]
    refine .wrote _ _ (w.resolve p) t n ((writing_split i).2 (.inl ⟨p, x, hf, rfl⟩))
      (writing_setFlight.2 (.inl ⟨p, x, rfl, rfl⟩)) ?_ ?_ ?_
    · intro id' h; simp [World.set, h]
    · intro id' t' n' h
      rcases (writing_split i).1 h with ⟨p', x', h, e⟩ | h
      · right
        rw [hf] at h
        have := Option.some.inj h
        injection this with h1 h2 h3 h4
        subst h1
        exact ⟨e.symm, h2.symm, h3.symm⟩
      · exact .inl (writing_setFlight.2 (.inr h))
    · intro id' t' n' h
      rcases writing_setFlight.1 h with ⟨p', x', h, e⟩ | h
      · right
        have := Option.some.inj h
        injection this with h1
        subst h1
        exact e.symm
      · exact .inl ((writing_split i).2 (.inr h))

/-- A system call of the main thread. -/
theorem effect_mainCall {P : Proc} {V : World} (hres : V.resolve = w.resolve) {fs : ByteFs} {m : Nat}
    {f f' : Flight (Option (List Msg))} {V' : World} {fs' : ByteFs} (hf : P.main = .finishing f)
    (h : CallEffect V fs m f f' V' fs') : ProcEffect w V fs m P { P with main := .finishing f' } V' fs' := by
  cases h with
  | quiet _ h1 h2 =>
    refine .quiet _ _ rfl ?_ ?_
    · rintro id t n (h | ⟨p, x, h, _⟩)
      · exact .inl h
      · injection h with h
        exact absurd h (h1 _ _ _ _)
    · rintro id t n (h | ⟨p, x, h, _⟩)
      · exact .inl (.inl h)
      · rw [hf] at h
        injection h with h
        exact .inr (h2 _ _ _ _ h)
  | opened p t x h1 =>
    rw [hres]
    refine .opened _ _ (w.resolve p) t (.inr ⟨p, x, rfl, rfl⟩) ?_ ?_ ?_
    · intro id' h; simp [World.set, h]
    · rintro id' t' n' (h | ⟨p, x, h, _⟩)
      · exact .inl h
      · rw [hf] at h
        injection h with h
        exact absurd h (h1 _ _ _ _)
    · rintro id' t' n' (h | ⟨p', x, h, e⟩)
      · exact .inl (.inl h)
      · right
        injection h with h
        injection h with h1
        subst h1
        exact e.symm
  | wrote p t n x h1 =>
    subst h1
    rw [hres]
    refine .wrote _ _ (w.resolve p) t n (.inr ⟨p, x, hf, rfl⟩) (.inr ⟨p, x, rfl, rfl⟩) ?_ ?_ ?_
    · intro id' h; simp [World.set, h]
    · rintro id' t' n' (h | ⟨p', x', h, e⟩)
      · exact .inl (.inl h)
      · right
        rw [hf] at h
        injection h with h
        injection h with h1 h2 h3 h4
        subst h1
        exact ⟨e.symm, h2.symm, h3.symm⟩
    · rintro id' t' n' (h | ⟨p', x', h, e⟩)
      · exact .inl (.inl h)
      · right
        injection h with h
        injection h with h1
        subst h1
        exact e.symm

theorem work_finished {F : FinePool} {mpc : MainPc} (hf : F.pool.finished = true) (c : Path → Ops FileOutcome)
    (fs : ByteFs) (i m : Nat) :
    Proc.work c threads fs ⟨erase F.pool (), F.flights, mpc⟩ i m = (⟨erase F.pool (), F.flights, mpc⟩, fs) := by
  unfold Proc.work
  simp only
  cases hme : (erase F.pool ()).workers[i]? with
  | none => rfl
  | some me =>
    have hpc := exited_of_finished hf me (List.mem_of_getElem? hme)
    simp only [hpc]
    have hf' : (erase F.pool ()).finished = true := hf
    rw [step_finished _ threads hf' i]

/-- The files that are read are as they were. -/
structure SourcesKept (cfg : CompileConfig) (rootPath : Path) (root : Entry) (w : World) (fs : ByteFs) : Prop where
  resolve : fs.resolve = w.resolve
  writeErr : fs.writeErr = w.writeErr
  others : ∀ id, ¬ IsOutput w root id → id ≠ globalsId w cfg rootPath → readBytes (fs.files id) = w.disk id

/-- A worker in company does what it would do alone. -/
theorem alone_work {P : Proc} {V : World} {fs : ByteFs} (hr : NoOutputRead w cfg root)
    (hd : OutputsDistinct w root) (hg : GlobalsApart w cfg rootPath root) (hn : (filesOf root).Nodup)
    (h : Alone ext cfg schema rootPath root w ω ω' fuel threads P V)
    (hs : SourcesKept cfg rootPath root w fs) (i m : Nat) :
    ∃ V', Alone ext cfg schema rootPath root w ω ω' fuel threads
        (P.work (fun p => compileOps (ω p) fuel ext cfg schema p) threads fs i m).1 V' ∧
      ProcEffect w V fs m P (P.work (fun p => compileOps (ω p) fuel ext cfg schema p) threads fs i m).1 V'
        (P.work (fun p => compileOps (ω p) fuel ext cfg schema p) threads fs i m).2 := by
  obtain ⟨hVr, hVe, hVd⟩ := h.facts
  cases h with
  | finishing F f hF hfin hG hP =>
    subst hP
    rw [work_finished threads hfin]
    exact ⟨V, .finishing F f hF hfin hG rfl, effect_refl⟩
  | returned F r hF hfin hG hP =>
    subst hP
    rw [work_finished threads hfin]
    exact ⟨V, .returned F r hF hfin hG rfl, effect_refl⟩
  | working F hF hP hV =>
    have hF' := fineReached_step ω fuel threads hF (i, m)
    unfold FinePool.step at hF'
    simp only at hF'
    unfold Proc.work
    have hPp : P.pool = erase F.pool () := by rw [hP]
    have hPf : P.flights = F.flights := by rw [hP]
    have hPm : P.main = .joining := by rw [hP]
    have hPw : P.pool.workers = F.pool.workers := by rw [hPp]; rfl
    rw [hPw]
    cases hme : F.pool.workers[i]? with
    | none =>
      simp only
      exact ⟨V, .working F hF hP hV, effect_refl⟩
    | some me =>
      simp only [hme] at hF' ⊢
      by_cases hrun : ∃ p, me.pc = .running (.graphQl p)
      · obtain ⟨p, hpc⟩ := hrun
        simp only [hpc] at hF' ⊢
        rw [hPf]
        cases hfl : F.flights i with
        | none =>
          simp only [hfl] at hF' ⊢
          refine ⟨V, .working _ hF' ?_ hV, effect_setFlight_quiet V rfl (by simp) ?_⟩
          · subst hP; rfl
          · intro p t n x e; rw [hPf, hfl] at e; cases e
        | some f =>
          simp only [hfl] at hF' ⊢
          have hread : ∀ q k, f = .ops (.read q k) → readBytes (fs.files (V.resolve q)) = V.read q := by
            intro q k e
            subst e
            obtain ⟨a1, a2⟩ := flight_reads ω fuel threads hr hd hg hn hF hfl
            unfold World.read
            rw [hVr, hs.others _ a1 a2, hVd _ a1 a2]
          rcases call_effect m (hs.resolve.trans hVr.symm) (hs.writeErr.trans hVe.symm) hread with
            ⟨f', V', fs', e1, e2, hE⟩ | ⟨a, rfl, e1, e2⟩
          · rw [e2]
            rw [← hV, e1] at hF'
            simp only at hF' ⊢
            refine ⟨V', .working _ hF' ?_ rfl, effect_call hVr (by rw [hPf]; exact hfl) hE⟩
            subst hP
            rfl
          · rw [e2]
            rw [← hV, e1] at hF'
            have goal : ∀ out : FileOutcome, a = out →
                FineReached ω fuel ext cfg schema w root threads
                  { F.setFlight i none with pool := F.pool.step (fun u _ => (out, u)) threads i } →
                ∃ V', Alone ext cfg schema rootPath root w ω ω' fuel threads
                    { P.setFlight i none with pool := P.pool.step (fun _ _ => (out, ())) threads i } V' ∧
                  ProcEffect w V fs m P
                    { P.setFlight i none with pool := P.pool.step (fun _ _ => (out, ())) threads i } V' fs := by
              intro out ho hF''
              refine ⟨_, .working _ hF'' ?_ rfl, effect_pool _ (effect_setFlight_quiet _ ?_ (by simp) ?_)⟩
              · have := erase_const (threads := threads) hme hpc () out
                rw [hPp]
                subst hP
                exact congrArg (fun s => (⟨s, _, _⟩ : Proc)) this
              · show (F.pool.step (fun u _ => (out, u)) threads i).world.disk = V.disk
                rw [step_world_const, hV]
              · intro p' t n x e
                rw [hPf, hfl] at e
                cases Option.some.inj e
            cases a with
            | diverge => exact ⟨V, .working F hF hP hV, effect_refl⟩
            | panic => exact goal .panic rfl hF'
            | done gs ms => exact goal (.done gs ms) rfl hF'
      · have hnr : ∀ p, me.pc ≠ .running (.graphQl p) := fun p h => hrun ⟨p, h⟩
        have goal : FineReached ω fuel ext cfg schema w root threads
              { F with pool := F.pool.step (fun u _ => (.diverge, u)) threads i } →
            ∃ V', Alone ext cfg schema rootPath root w ω ω' fuel threads
                { P with pool := P.pool.step (fun _ _ => (.diverge, ())) threads i } V' ∧
              ProcEffect w V fs m P
                { P with pool := P.pool.step (fun _ _ => (.diverge, ())) threads i } V' fs := by
          intro hF''
          refine ⟨_, .working _ hF'' ?_ rfl, effect_pool _ (.quiet _ _ ?_ (fun _ _ _ h => h) (fun _ _ _ h => .inl h))⟩
          · have := erase_elsewhere (threads := threads) hme hnr () (fun _ _ => (.diverge, ()))
              (fun u _ => (.diverge, u))
            rw [hPp]
            subst hP
            exact congrArg (fun s => (⟨s, _, _⟩ : Proc)) this
          · show (F.pool.step (fun u _ => (FileOutcome.diverge, u)) threads i).world.disk = V.disk
            rw [step_world_const, hV]
        cases hpc : me.pc with
        | running wk =>
          cases wk with
          | graphQl p => exact absurd hpc (hnr p)
          | dirEntry e => simp only [hpc] at hF' ⊢; exact goal hF'
        | _ => simp only [hpc] at hF' ⊢; exact goal hF'

/-- The main thread in company does what it would do alone. -/
theorem alone_main {P : Proc} {V : World} {fs : ByteFs}
    (h : Alone ext cfg schema rootPath root w ω ω' fuel threads P V)
    (hs : SourcesKept cfg rootPath root w fs) (m : Nat) :
    ∃ V', Alone ext cfg schema rootPath root w ω ω' fuel threads
        (P.mainStep (finishOps ω' fuel cfg schema rootPath) fs m).1 V' ∧
      ProcEffect w V fs m P (P.mainStep (finishOps ω' fuel cfg schema rootPath) fs m).1 V'
        (P.mainStep (finishOps ω' fuel cfg schema rootPath) fs m).2 := by
  obtain ⟨hVr, hVe, hVd⟩ := h.facts
  cases h with
  | returned F r hF hfin hG hP =>
    subst hP
    exact ⟨V, .returned F r hF hfin hG rfl, effect_refl⟩
  | working F hF hP hV =>
    subst hP
    unfold Proc.mainStep
    simp only
    by_cases hf : F.pool.finished = true
    · rw [if_pos (show (erase F.pool ()).finished = true from hf)]
      subst hV
      refine ⟨_, .finishing F _ hF hf ⟨[], rfl⟩ rfl, .quiet _ _ rfl ?_ ?_⟩
      · rintro id t n (h | ⟨p, x, h, _⟩)
        · exact .inl h
        · cases h
      · rintro id t n (h | ⟨p, x, h, _⟩)
        · exact .inl (.inl h)
        · cases h
    · rw [if_neg (show ¬ (erase F.pool ()).finished = true from hf)]
      exact ⟨V, .working F hF rfl hV, effect_refl⟩
  | finishing F f hF hfin hG hP =>
    have hread : ∀ q k, f = .ops (.read q k) → readBytes (fs.files (V.resolve q)) = V.read q := by
      intro q k e
      subst e
      exact (main_reads ω' fuel hG).elim
    have hPm : P.main = .finishing f := by rw [hP]
    unfold Proc.mainStep
    rw [hPm]
    simp only
    obtain ⟨sizes, hst⟩ := hG
    rcases call_effect m (hs.resolve.trans hVr.symm) (hs.writeErr.trans hVe.symm) hread with
      ⟨f', V', fs', e1, e2, hE⟩ | ⟨a, rfl, e1, e2⟩
    · rw [e2]
      refine ⟨V', .finishing F f' hF hfin ⟨sizes ++ [m], ?_⟩ ?_, effect_mainCall hVr hPm hE⟩
      · rw [steps_append, ← hst]
        simp only [Flight.steps, e1]
      · subst hP; rfl
    · rw [e2]
      refine ⟨V, .returned F a hF hfin ⟨sizes ++ [m], ?_⟩ ?_, .quiet _ _ rfl ?_ ?_⟩
      · rw [steps_append, ← hst]
        simp only [Flight.steps, e1]
      · subst hP; rfl
      · rintro id t n (h | ⟨p, x, h, _⟩)
        · exact .inl h
        · cases h
      · rintro id t n (h | ⟨p, x, h, _⟩)
        · exact .inl (.inl h)
        · rw [hPm] at h
          injection h with h
          cases h

end Alone

/-! ### All invocations -/

theorem pool_work_finished {P : Proc} (hf : P.pool.finished = true) (c : Path → Ops FileOutcome)
    (threads : Nat) (fs : ByteFs) (i m : Nat) : (P.work c threads fs i m).1.pool = P.pool := by
  unfold Proc.work
  cases hme : P.pool.workers[i]? with
  | none => rfl
  | some me =>
    have hpc := exited_of_finished hf me (List.mem_of_getElem? hme)
    simp only [hpc]
    rw [step_finished _ threads hf i]

theorem pool_mainStep (P : Proc) (f : List Msg × List String → Ops (Option (List Msg))) (fs : ByteFs) (m : Nat) :
    (P.mainStep f fs m).1.pool = P.pool := by
  unfold Proc.mainStep
  cases P.main with
  | joining => simp only; split <;> rfl
  | finishing g => simp only; split <;> rfl
  | returned r => rfl

section System
variable (ext : Ext) (cfg : CompileConfig) (schema : Schema) (rootPath : Path) (root : Entry)
variable (n : Nat) (ω : Nat → Path → Hash) (ω' : Nat → Hash) (fuel threads : Nat → Nat)

/-- The invocations of `RunTogether`. -/
abbrev jobsOf (k : Nat) : Job := ⟨cfg, schema, ω k, ω' k, fuel k, threads k⟩

/-- No invocation has stopped with work left. -/
def NoneLeft (S : Sys) : Prop := ∀ k, k < n → (S.procs k).pool.finished = true → pending (S.procs k).pool = []

/-- What holds at any moment. -/
structure Company (fs₀ : ByteFs) (S : Sys) (V : Nat → World) : Prop where
  resolve : S.fs.resolve = fs₀.resolve
  writeErr : S.fs.writeErr = fs₀.writeErr
  alone : ∀ k, k < n →
    Alone ext cfg schema rootPath root fs₀.view (ω k) (ω' k) (fuel k) (threads k) (S.procs k) (V k)
  file : ∀ id,
    (S.fs.files id = fs₀.files id ∧ (∀ k, k < n → (V k).disk id = fs₀.view.disk id) ∧
      ∀ k t i, k < n → ¬ Writing fs₀.view (S.procs k) id t i) ∨
    ∃ t i b, OutputText ext cfg schema rootPath root fs₀.view id t ∧ S.fs.files id = .ok b ∧
      AgreeTo b (utf8 t) i ∧ ((utf8 t).length ≤ i ∨ ∃ k, k < n ∧ Writing fs₀.view (S.procs k) id t i)

variable {ext cfg schema rootPath root n ω ω' fuel threads}

theorem outputText_id {w : World} {id t : String} (h : OutputText ext cfg schema rootPath root w id t) :
    IsOutput w root id ∨ id = globalsId w cfg rootPath := by
  rcases h with ⟨p, _, _, hp, e, _⟩ | ⟨e, _⟩
  · exact .inl ⟨p, hp, e⟩
  · exact .inr e

theorem Company.sources {fs₀ : ByteFs} {S : Sys} {V : Nat → World}
    (h : Company ext cfg schema rootPath root n ω ω' fuel threads fs₀ S V) :
    SourcesKept cfg rootPath root fs₀.view S.fs := by
  refine ⟨h.resolve, h.writeErr, fun id h1 h2 => ?_⟩
  rcases h.file id with ⟨e, _⟩ | ⟨t, i, b, hO, _⟩
  · rw [e]; rfl
  · rcases outputText_id hO with h | h
    · exact absurd h h1
    · exact absurd h h2

theorem company_init (fs₀ : ByteFs) :
    Company ext cfg schema rootPath root n ω ω' fuel threads fs₀
      (Sys.init fs₀ (jobsOf cfg schema ω ω' fuel threads) root) (fun _ => fs₀.view) := by
  refine ⟨rfl, rfl, fun k _ => .working (FinePool.init fs₀.view (threads k) root) ⟨[], rfl⟩ rfl rfl, fun id => .inl ?_⟩
  refine ⟨rfl, fun _ _ => rfl, ?_⟩
  rintro k t i _ (⟨_, _, _, h, _⟩ | ⟨_, _, h, _⟩)
  · cases h
  · cases h

/-- A step of invocation `k` with a known effect. -/
theorem company_effect {fs₀ : ByteFs} {S : Sys} {V : Nat → World} (hcon : Consistent schema)
    (hk : InputFieldsOnce schema) (hr : NoOutputRead fs₀.view cfg root)
    (hd : OutputsDistinct fs₀.view root) (hg : GlobalsApart fs₀.view cfg rootPath root)
    (hn : (filesOf root).Nodup) (hh : ∀ p, FoundIn root p → HashProof ext schema fs₀.view cfg p)
    (h : Company ext cfg schema rootPath root n ω ω' fuel threads fs₀ S V) {k : Nat} (hkn : k < n) {m : Nat}
    {P' : Proc} {V' : World} {fs' : ByteFs}
    (hA : Alone ext cfg schema rootPath root fs₀.view (ω k) (ω' k) (fuel k) (threads k) P' V')
    (hp : P'.pool.finished = true → pending P'.pool = [])
    (hE : ProcEffect fs₀.view (V k) S.fs m (S.procs k) P' V' fs') :
    Company ext cfg schema rootPath root n ω ω' fuel threads fs₀
      ⟨fs', fun j => if j = k then P' else S.procs j⟩ (fun j => if j = k then V' else V j) := by
  have hal : ∀ j, j < n → Alone ext cfg schema rootPath root fs₀.view (ω j) (ω' j) (fuel j) (threads j)
      (if j = k then P' else S.procs j) (if j = k then V' else V j) := by
    intro j hj
    by_cases e : j = k
    · subst e; simp only [if_true]; exact hA
    · simp only [if_neg e]; exact h.alone j hj
  have hout : ∀ id t i, Writing fs₀.view P' id t i → OutputText ext cfg schema rootPath root fs₀.view id t :=
    fun id t i hw => hA.writing (ω k) (ω' k) (fuel k) (threads k) hr hd hg hn hp hw
  cases hE with
  | quiet h1 h2 h3 =>
    refine ⟨h.resolve, h.writeErr, hal, fun id => ?_⟩
    rcases h.file id with ⟨a, b, c⟩ | ⟨t, i, b, hO, hf, hag, hw⟩
    · refine .inl ⟨a, fun j hj => ?_, fun j t i hj hw => ?_⟩
      · by_cases e : j = k
        · subst e; simp only [if_true]; rw [h1]; exact b j hj
        · simp only [if_neg e]; exact b j hj
      · by_cases e : j = k
        · subst e; simp only [if_true] at hw; exact c j t i hj (h2 _ _ _ hw)
        · simp only [if_neg e] at hw; exact c j t i hj hw
    · refine .inr ⟨t, i, b, hO, hf, hag, ?_⟩
      rcases hw with hw | ⟨j, hj, hw⟩
      · exact .inl hw
      · by_cases e : j = k
        · subst e
          rcases h3 _ _ _ hw with hw | hw
          · exact .inr ⟨j, hj, by simp only [if_true]; exact hw⟩
          · exact .inl (by rw [utf8_length]; exact hw)
        · exact .inr ⟨j, hj, by simp only [if_neg e]; exact hw⟩
  | opened id₀ t₀ h1 h2 h3 h4 =>
    refine ⟨h.resolve, h.writeErr, hal, fun id => ?_⟩
    by_cases hid : id = id₀
    · subst hid
      refine .inr ⟨t₀, 0, [], hout _ _ _ h1, ?_, agreeTo_nil _, .inr ⟨k, hkn, ?_⟩⟩
      · simp [ByteFs.truncate]
      · simp only [if_true]; exact h1
    · have hfile : (S.fs.truncate id₀).files id = S.fs.files id := by simp [ByteFs.truncate, hid]
      rcases h.file id with ⟨a, b, c⟩ | ⟨t, i, b, hO, hf, hag, hw⟩
      · refine .inl ⟨hfile.trans a, fun j hj => ?_, fun j t i hj hw => ?_⟩
        · by_cases e : j = k
          · subst e; simp only [if_true]; rw [h2 _ hid]; exact b j hj
          · simp only [if_neg e]; exact b j hj
        · by_cases e : j = k
          · subst e
            simp only [if_true] at hw
            rcases h4 _ _ _ hw with hw | hw
            · exact c j t i hj hw
            · exact hid hw
          · simp only [if_neg e] at hw; exact c j t i hj hw
      · refine .inr ⟨t, i, b, hO, hfile.trans hf, hag, ?_⟩
        rcases hw with hw | ⟨j, hj, hw⟩
        · exact .inl hw
        · refine .inr ⟨j, hj, ?_⟩
          by_cases e : j = k
          · subst e; simp only [if_true]; exact h3 _ _ _ hw
          · simp only [if_neg e]; exact hw
  | wrote id₀ t₀ i₀ h0 h1 h2 h3 h4 =>
    refine ⟨h.resolve, h.writeErr, hal, fun id => ?_⟩
    by_cases hid : id = id₀
    · subst hid
      rcases h.file id with ⟨a, b, c⟩ | ⟨t, i, b, hO, hf, hag, hw⟩
      · exact absurd h0 (c k t₀ i₀ hkn)
      · have ht : t = t₀ := outputText_unique hcon hk hd hg hh hO (hout _ _ _ h1)
        subst ht
        have hfile : (S.fs.pwrite id i₀ (((utf8 t).drop i₀).take m)).files id =
            .ok (overlay b i₀ (((utf8 t).drop i₀).take m)) := by
          simp [ByteFs.pwrite, hf]
        rcases hw with hw | ⟨j, hj, hw⟩
        · exact .inr ⟨t, i, _, hO, hfile, hag.other _ _, .inl hw⟩
        · by_cases e : j = k
          · subst e
            rcases h3 _ _ _ hw with hw | ⟨_, _, e3⟩
            · exact .inr ⟨t, i, _, hO, hfile, hag.other _ _, .inr ⟨j, hj, by simp only [if_true]; exact hw⟩⟩
            · subst e3
              exact .inr ⟨t, i + m, _, hO, hfile, hag.own _, .inr ⟨j, hj, by simp only [if_true]; exact h1⟩⟩
          · exact .inr ⟨t, i, _, hO, hfile, hag.other _ _, .inr ⟨j, hj, by simp only [if_neg e]; exact hw⟩⟩
    · have hfile : (S.fs.pwrite id₀ i₀ (((utf8 t₀).drop i₀).take m)).files id = S.fs.files id := by
        simp [ByteFs.pwrite, hid]
      rcases h.file id with ⟨a, b, c⟩ | ⟨t, i, b, hO, hf, hag, hw⟩
      · refine .inl ⟨hfile.trans a, fun j hj => ?_, fun j t i hj hw => ?_⟩
        · by_cases e : j = k
          · subst e; simp only [if_true]; rw [h2 _ hid]; exact b j hj
          · simp only [if_neg e]; exact b j hj
        · by_cases e : j = k
          · subst e
            simp only [if_true] at hw
            rcases h4 _ _ _ hw with hw | hw
            · exact c j t i hj hw
            · exact hid hw
          · simp only [if_neg e] at hw; exact c j t i hj hw
      · refine .inr ⟨t, i, b, hO, hfile.trans hf, hag, ?_⟩
        rcases hw with hw | ⟨j, hj, hw⟩
        · exact .inl hw
        · refine .inr ⟨j, hj, ?_⟩
          by_cases e : j = k
          · subst e
            simp only [if_true]
            rcases h3 _ _ _ hw with hw | ⟨e1, _, _⟩
            · exact hw
            · exact absurd e1 hid
          · simp only [if_neg e]; exact hw

theorem noneLeft_back {S : Sys} {e : Nat × Actor × Nat}
    (h : NoneLeft n (S.step ext rootPath (jobsOf cfg schema ω ω' fuel threads) e)) : NoneLeft n S := by
  intro k hk hf
  have := h k hk
  obtain ⟨k', a, m⟩ := e
  simp only [Sys.step] at this
  by_cases e : k = k'
  · subst e
    simp only [if_true] at this
    cases a with
    | worker i =>
      simp only at this
      rw [pool_work_finished hf] at this
      exact this hf
    | main =>
      simp only at this
      rw [pool_mainStep] at this
      exact this hf
  · simp only [if_neg e] at this
    exact this hf

theorem company_run {fs₀ : ByteFs} (hcon : Consistent schema)
    (hk : InputFieldsOnce schema) (hr : NoOutputRead fs₀.view cfg root)
    (hd : OutputsDistinct fs₀.view root) (hg : GlobalsApart fs₀.view cfg rootPath root)
    (hn : (filesOf root).Nodup) (hh : ∀ p, FoundIn root p → HashProof ext schema fs₀.view cfg p)
    (es : List (Nat × Actor × Nat)) (hes : ∀ e ∈ es, e.1 < n)
    (hL : NoneLeft n ((Sys.init fs₀ (jobsOf cfg schema ω ω' fuel threads) root).run ext rootPath
      (jobsOf cfg schema ω ω' fuel threads) es)) :
    ∃ V, Company ext cfg schema rootPath root n ω ω' fuel threads fs₀
      ((Sys.init fs₀ (jobsOf cfg schema ω ω' fuel threads) root).run ext rootPath
        (jobsOf cfg schema ω ω' fuel threads) es) V := by
  induction es using List.reverseRecOn with
  | nil => exact ⟨_, company_init fs₀⟩
  | append_singleton es e ih =>
    unfold Sys.run at ih hL ⊢
    rw [List.foldl_append] at hL ⊢
    simp only [List.foldl_cons, List.foldl_nil] at hL ⊢
    have hes' : ∀ e ∈ es, e.1 < n := fun e h => hes e (List.mem_append.2 (.inl h))
    have hen : e.1 < n := hes e (List.mem_append.2 (.inr (List.mem_singleton.2 rfl)))
    obtain ⟨V, hC⟩ := ih hes' (noneLeft_back hL)
    generalize List.foldl (Sys.step ext rootPath (jobsOf cfg schema ω ω' fuel threads))
      (Sys.init fs₀ (jobsOf cfg schema ω ω' fuel threads) root) es = S at hC hL ⊢
    obtain ⟨k, a, m⟩ := e
    have hk' := hL k hen
    simp only [Sys.step, if_true] at hk'
    unfold Sys.step
    cases a with
    | worker i =>
      obtain ⟨V', hA, hE⟩ := alone_work (ω k) (ω' k) (fuel k) (threads k) hr hd hg hn (hC.alone k hen)
        hC.sources i m
      exact ⟨_, company_effect hcon hk hr hd hg hn hh hC hen hA hk' hE⟩
    | main =>
      obtain ⟨V', hA, hE⟩ := alone_main (ω k) (ω' k) (fuel k) (threads k) (hC.alone k hen) hC.sources m
      exact ⟨_, company_effect hcon hk hr hd hg hn hh hC hen hA hk' hE⟩

theorem no_flight_finished {F : FinePool} {w : World} {ω₀ : Path → Hash} {fuel₀ threads₀ : Nat}
    (hr : NoOutputRead w cfg root) (hd : OutputsDistinct w root)
    (hn : (filesOf root).Nodup) (hF : FineReached ω₀ fuel₀ ext cfg schema w root threads₀ F)
    (hf : F.pool.finished = true) (i : Nat) : F.flights i = none := by
  obtain ⟨sched, rfl⟩ := hF
  obtain ⟨sched', C, hC, S⟩ := sim_run ω₀ fuel₀ ext cfg schema threads₀ hr hd hn sched
  cases h : ((FinePool.init w threads₀ root).run (fun p => compileOps (ω₀ p) fuel₀ ext cfg schema p)
    threads₀ sched).flights i with
  | none => rfl
  | some f =>
    obtain ⟨p, ⟨me, h1, h2⟩, _⟩ := S.flying i f h
    have hw : ((FinePool.init w threads₀ root).run (fun p => compileOps (ω₀ p) fuel₀ ext cfg schema p)
      threads₀ sched).pool.workers = C.workers := by rw [S.pool]
    have := exited_of_finished hf me (by rw [hw]; exact List.mem_of_getElem? h1)
    rw [this] at h2
    cases h2

end System

end Qlc
