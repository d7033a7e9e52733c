import Verif.Spec.Quiet
import Verif.Lemmas.Quiet
import Verif.Props.Program
import Verif.Props.Diagnostics
/-
Property C141: asking for warnings about deprecated fields changes nothing but these warnings.
-/
set_option autoImplicit false

namespace Qlc
open Spec

theorem not_deprecation {m : Msg} (h : m.level ≠ .compileWarning) : ¬ IsDeprecation m := by
  rintro ⟨f, t, p, c, pos, rfl⟩
  exact h rfl

theorem Spec.Quieter.errors : (l : List Msg) → (∀ m ∈ l, m.level ≠ .compileWarning) → Quieter l l
  | [], _ => .nil
  | m :: l, h => .keep m (not_deprecation (h m List.mem_cons_self))
      (Quieter.errors l (fun m hm => h m (List.mem_cons_of_mem _ hm)))

theorem Spec.Quieter.error {m : Msg} (h : m.level ≠ .compileWarning) : Quieter [m] [m] :=
  .keep m (not_deprecation h) .nil

theorem Spec.Quieter.append {l l' m m' : List Msg} (h : Quieter l l') (k : Quieter m m') : Quieter (l ++ m) (l' ++ m') := by
  induction h with
  | nil => exact k
  | keep x hx _ ih => exact .keep x hx ih
  | drop x hx _ ih => exact .drop x hx ih

theorem quieter_warnings (contents : String) (p : Path) (ws : List Warning) :
    Quieter (ws.map (Warning.toMsg contents p)) ((quiet ws).map (Warning.toMsg contents p)) := by
  induction ws with
  | nil => exact .nil
  | cons x ws ih =>
    cases x with
    | overFragmentNarrowing pos ps t =>
      refine .keep _ ?_ ih
      rintro ⟨f, t', p', c', pos', h⟩
      have h := congrArg (fun m : Msg => m.message.toList.head?) h
      simp [Warning.toMsg, Msg.located, String.toList_append] at h
    | deprecatedFieldUse pos f t => exact .drop _ ⟨f, t, p, contents, pos, rfl⟩ ih

theorem quieter_code {l l' : List Msg} (paint : Paint) (h : Quieter l l') :
    (printExitInfo paint l').code = (printExitInfo paint l).code := by
  have key : (∃ m ∈ l, m.level ≠ .compileWarning) ↔ ∃ m ∈ l', m.level ≠ .compileWarning := by
    induction h with
    | nil => rfl
    | keep m _ _ ih => simp only [List.mem_cons, exists_eq_or_imp, ih]
    | drop m hm _ ih =>
      obtain ⟨f, t, p, c, pos, rfl⟩ := hm
      simp [ih, Msg.located]
  have h1 := C43_exit_zero_iff_no_error paint l
  have h2 := C43_exit_zero_iff_no_error paint l'
  by_cases he : ∃ m ∈ l, m.level ≠ .compileWarning
  · rw [h1.2.2 he, h2.2.2 (key.1 he)]
  · have n1 : ∀ m ∈ l, m.level = .compileWarning := fun m hm => Classical.not_not.1 (fun h => he ⟨m, hm, h⟩)
    have n2 : ∀ m ∈ l', m.level = .compileWarning :=
      fun m hm => Classical.not_not.1 (fun h => he (key.2 ⟨m, hm, h⟩))
    rw [h1.1.2 n1, h2.1.2 n2]

section
variable {ω : Path → Hash} {ω' : Hash} {fuel : Nat} {ext : Ext} {paint : Paint} {cpus : Nat} {schema : Schema}
  {on off : CompileConfig}

/-- The settings are the same, but for the warnings about deprecated fields. -/
structure OnOff (on off : CompileConfig) : Prop where
  enabled : on.showDeprecationWarnings = true
  rest : off = { on with showDeprecationWarnings := false }

theorem addImported_off (h : OnOff on off) (w : World) (n : Nat) :
    addImported w off n = addImported w on n := by
  have hg : ∀ after dir, getFilePathOfFragment off after dir = getFilePathOfFragment on after dir := by
    rw [h.rest]; intro _ _; rfl
  have hl : ∀ (cf cd : Path) (rec : Path → String → ImportSt → Option (PanicOr ImportSt)) (ls : List (List Char))
      (idx : Nat) (s : ImportSt), importLoop w off cf cd rec idx ls s = importLoop w on cf cd rec idx ls s := by
    intro cf cd rec ls
    induction ls with
    | nil => intro _ _; rfl
    | cons l ls ih =>
      intro idx s
      simp only [importLoop, hg, ih]
  induction n with
  | zero => rfl
  | succ n ih =>
    funext file contents s
    simp only [addImported, ih, hl]

theorem readGraphqlFile_level {w : World} {p : Path} {m : Msg} (h : readGraphqlFile w p = .error m) :
    m.level ≠ .compileWarning := by
  unfold readGraphqlFile at h
  split at h
  · cases h
  · injection h with h; subst h; simp [Msg.ioError]

theorem parseGraphqlFile_level {contents : String} {p : Path} {m : Msg}
    (h : parseGraphqlFile ext contents p = .error m) : m.level ≠ .compileWarning := by
  unfold parseGraphqlFile at h
  split at h
  all_goals first
    | cases h; done
    | (injection h with h; subst h; simp [Msg.simpleCompileError, Msg.withSource])

theorem addImported_level (w : World) (cfg : CompileConfig) (n : Nat) : ∀ (file : Path) (contents : String)
    (s s' : ImportSt), (∀ m ∈ s.messages, m.level ≠ .compileWarning) →
    addImported w cfg n file contents s = some (.done s') → ∀ m ∈ s'.messages, m.level ≠ .compileWarning := by
  induction n with
  | zero => intro _ _ _ _ _ h; cases h
  | succ n ih =>
    intro file contents s s' hs h
    unfold addImported at h
    generalize 0 = idx at h
    generalize linesC contents.toList = ls at h
    induction ls generalizing idx s with
    | nil => simp only [importLoop, Option.some.injEq, PanicOr.done.injEq] at h; subst h; exact hs
    | cons l ls il =>
      unfold importLoop at h
      split at h
      · exact il _ hs _ h
      · injection h with h; injection h with h; subst h; exact hs
      · simp only at h
        split at h
        · cases h
        · split at h
          · rename_i m hm
            refine il _ ?_ _ h
            intro x hx
            rcases List.mem_append.1 hx with hx | hx
            · exact hs x hx
            · rw [List.mem_singleton.1 hx]; exact (show m.level ≠ _ from readGraphqlFile_level hm)
          · split at h
            · cases h
            · cases h
            · rename_i s1 hrec
              refine il _ ?_ _ h
              exact fun x hx => ih _ _ _ _ hs hrec x hx

theorem foreignLoop_level (path : Path) : ∀ (l : List (Path × (String × Location))) (fr : AMap String FragmentDef)
    (ms : List Msg), (∀ m ∈ ms, m.level ≠ .compileWarning) →
    ∀ m ∈ (foreignLoop ext path l fr ms).2, m.level ≠ .compileWarning := by
  intro l
  induction l with
  | nil => intro _ _ h; exact h
  | cons x l ih =>
    obtain ⟨op, c, loc⟩ := x
    intro fr ms h
    unfold foreignLoop
    split
    · exact ih _ _ h
    · exact ih _ _ h
    · refine ih _ _ ?_
      intro m hm
      rcases List.mem_append.1 hm with hm | hm
      · exact h m hm
      · rw [List.mem_singleton.1 hm]; simp [Msg.simpleCompileError, Msg.withSource]

/-- What compiling a document yields with and without the warnings. -/
def SameButQuieter : FileOutcome → FileOutcome → Prop
  | .done gs ms, .done gs' ms' => gs' = gs ∧ Quieter ms ms'
  | .panic, .panic => True
  | .diverge, .diverge => True
  | _, _ => False

theorem poolCompile_quiet (h : OnOff on off) (w : World) (p : Path) :
    SameButQuieter (poolCompile ω fuel ext on schema w p).1 (poolCompile ω fuel ext off schema w p).1 ∧
    (poolCompile ω fuel ext off schema w p).2 = (poolCompile ω fuel ext on schema w p).2 := by
  have ht : off.toTsConfig = on.toTsConfig := by rw [h.rest]
  have hs : off.showDeprecationWarnings = false := by rw [h.rest]
  unfold poolCompile compileFile generateFile
  simp only [addImported_off h, ht, hs, h.enabled]
  cases hrd : readGraphqlFile w p with
  | error m => exact ⟨⟨rfl, .error (readGraphqlFile_level hrd)⟩, rfl⟩
  | ok contents =>
    simp only
    cases hpa : parseGraphqlFile ext contents p with
    | error m => exact ⟨⟨rfl, .error (parseGraphqlFile_level hpa)⟩, rfl⟩
    | ok d =>
      simp only
      cases himp : addImported w on fuel p contents ⟨[], []⟩ with
      | none => exact ⟨trivial, rfl⟩
      | some r =>
        cases r with
        | panic => exact ⟨trivial, rfl⟩
        | done st =>
          have hf : Quieter (parseForeignFragments (ω p) ext p st.imports st.messages).2
              (parseForeignFragments (ω p) ext p st.imports st.messages).2 :=
            .errors _ (foreignLoop_level p _ _ _ (addImported_level w on fuel _ _ _ _ (by simp) himp))
          simp only
          rw [compile_quiet]
          cases Operation.compile (ω p) fuel
            ⟨schema, true, (parseForeignFragments (ω p) ext p st.imports st.messages).1⟩ d with
          | none => exact ⟨trivial, rfl⟩
          | some r =>
            obtain ⟨res, ws⟩ := r
            cases res with
            | error es =>
              refine ⟨⟨rfl, hf.append (Quieter.append (.errors _ ?_) (quieter_warnings contents p ws))⟩, rfl⟩
              intro m hm
              obtain ⟨e, _, rfl⟩ := List.mem_map.1 hm
              exact irError_level _ _ _ e
            | ok op =>
              simp only [Option.map_some]
              cases compileIr (ω p) op on.toTsConfig schema with
              | error e =>
                exact ⟨⟨rfl, (hf.append (quieter_warnings contents p ws)).append (.error (tsError_level e))⟩, rfl⟩
              | ok c =>
                simp only
                rcases w.write (outputPath p) c.contents with ⟨_ | e, w'⟩
                · exact ⟨⟨rfl, hf.append (quieter_warnings contents p ws)⟩, rfl⟩
                · exact ⟨⟨rfl, .error (by simp [Msg.ioError])⟩, rfl⟩

theorem stepWorker_quiet (h : OnOff on off) (threads : Nat) (s : PoolSt World) (tw : List WorkerSt) (a : WorkerSt)
    (m : List Msg) (hm : Quieter a.messages m) :
    ∃ m', Quieter (stepWorker (poolCompile ω fuel ext on schema) threads s a).2.messages m' ∧
      stepWorker (poolCompile ω fuel ext off schema) threads { s with workers := tw } { a with messages := m } =
        ({ (stepWorker (poolCompile ω fuel ext on schema) threads s a).1 with workers := tw },
          { (stepWorker (poolCompile ω fuel ext on schema) threads s a).2 with messages := m' }) := by
  obtain ⟨pc, iw, iq, ms, gs⟩ := a
  simp only at hm
  have waits : ∀ (b : Bool) (pc' : PC), ∃ m', Quieter (setWaiting b s ⟨pc', iw, iq, ms, gs⟩).2.messages m' ∧
      setWaiting b { s with workers := tw } ⟨pc', iw, iq, m, gs⟩ =
        ({ (setWaiting b s ⟨pc', iw, iq, ms, gs⟩).1 with workers := tw },
          { (setWaiting b s ⟨pc', iw, iq, ms, gs⟩).2 with messages := m' }) := by
    intro b pc'
    refine ⟨m, ?_, ?_⟩ <;> unfold setWaiting <;> cases b <;> cases iw <;> first | exact hm | rfl
  have quits : ∀ (b : Bool) (pc' : PC), ∃ m', Quieter (setQuitting b s ⟨pc', iw, iq, ms, gs⟩).2.messages m' ∧
      setQuitting b { s with workers := tw } ⟨pc', iw, iq, m, gs⟩ =
        ({ (setQuitting b s ⟨pc', iw, iq, ms, gs⟩).1 with workers := tw },
          { (setQuitting b s ⟨pc', iw, iq, ms, gs⟩).2 with messages := m' }) := by
    intro b pc'
    refine ⟨m, ?_, ?_⟩ <;> unfold setQuitting <;> cases b <;> cases iq <;> first | exact hm | rfl
  cases pc with
  | recv =>
    obtain ⟨w, lg, qu, nw, nq, wk⟩ := s
    rcases qu with _ | ⟨⟨x⟩ | _, q⟩ <;> exact ⟨m, hm, rfl⟩
  | gotWork x => obtain ⟨m', h1, h2⟩ := waits false (.gotWork x); simp only [stepWorker, h2]; exact ⟨m', h1, rfl⟩
  | gotWork2 x => obtain ⟨m', h1, h2⟩ := quits false (.gotWork2 x); simp only [stepWorker, h2]; exact ⟨m', h1, rfl⟩
  | running x =>
    simp only [stepWorker, runWork]
    cases x with
    | dirEntry e =>
      cases e with
      | dir p es =>
        simp only [Work.run]
        cases runEntries es with
        | ok ws => exact ⟨m, hm, rfl⟩
        | error e => exact ⟨m ++ [.ioError "read" e p], hm.append (.error (by simp [Msg.ioError])), rfl⟩
      | badDir p e => exact ⟨m ++ [.ioError "read" e p], hm.append (.error (by simp [Msg.ioError])), rfl⟩
      | bad e => exact ⟨m ++ [.ioError "read" e ⟨false, []⟩], hm.append (.error (by simp [Msg.ioError])), rfl⟩
      | file p => exact ⟨m ++ [.ioError "read" "Not a directory" p], hm.append (.error (by simp [Msg.ioError])), rfl⟩
      | other p => exact ⟨m ++ [.ioError "read" "Not a directory" p], hm.append (.error (by simp [Msg.ioError])), rfl⟩
    | graphQl p =>
      obtain ⟨h1, h2⟩ := poolCompile_quiet (ω := ω) (fuel := fuel) (ext := ext) (schema := schema) h s.world p
      simp only [Work.run]
      revert h1 h2
      generalize poolCompile ω fuel ext on schema s.world p = x
      generalize poolCompile ω fuel ext off schema s.world p = y
      rcases x with ⟨⟨g, l⟩ | _ | _, w'⟩ <;> rcases y with ⟨⟨g', l'⟩ | _ | _, w''⟩ <;> intro h1 h2 <;>
        simp only at h2 <;> subst h2 <;> first | exact h1.elim | skip
      · obtain ⟨rfl, h1⟩ := h1
        exact ⟨m ++ l', hm.append h1, rfl⟩
      · exact ⟨m, hm, rfl⟩
      · exact ⟨m, hm, rfl⟩
  | sending ws => cases ws <;> exact ⟨m, hm, rfl⟩
  | gotQuit => obtain ⟨m', h1, h2⟩ := waits true .gotQuit; simp only [stepWorker, h2]; exact ⟨m', h1, rfl⟩
  | gotQuit2 => obtain ⟨m', h1, h2⟩ := quits true .gotQuit2; simp only [stepWorker, h2]; exact ⟨m', h1, rfl⟩
  | quitLoad => exact ⟨m, hm, rfl⟩
  | quitLoad2 n =>
    refine ⟨m, ?_, ?_⟩ <;> simp only [stepWorker] <;> split <;> first | exact hm | rfl | (split <;> first | exact hm | rfl)
  | empty => obtain ⟨m', h1, h2⟩ := waits true .empty; simp only [stepWorker, h2]; exact ⟨m', h1, rfl⟩
  | empty2 => obtain ⟨m', h1, h2⟩ := quits false .empty2; simp only [stepWorker, h2]; exact ⟨m', h1, rfl⟩
  | emptyLoad => refine ⟨m, ?_, ?_⟩ <;> simp only [stepWorker] <;> split <;> first | exact hm | rfl
  | sendQuit n => cases n <;> exact ⟨m, hm, rfl⟩
  | exited => exact ⟨m, hm, rfl⟩
  | panicked => exact ⟨m, hm, rfl⟩

/-- Two workers in the same state, but for the messages they have collected. -/
def WorkerQuieter (a b : WorkerSt) : Prop := ∃ m, b = { a with messages := m } ∧ Quieter a.messages m

/-- Two pools in the same state, but for the messages. -/
structure PoolQuieter (s t : PoolSt World) : Prop where
  rest : t = { s with workers := t.workers }
  workers : List.Forall₂ WorkerQuieter s.workers t.workers

theorem forall₂_set {α : Type} {R : α → α → Prop} {l l' : List α} (h : List.Forall₂ R l l') (i : Nat) {x y : α}
    (hx : R x y) : List.Forall₂ R (l.set i x) (l'.set i y) := by
  induction h generalizing i with
  | nil => exact .nil
  | cons h t ih =>
    cases i with
    | zero => exact .cons hx t
    | succ i => exact .cons h (ih i)

theorem step_quiet (h : OnOff on off) (threads : Nat) {s t : PoolSt World} (k : PoolQuieter s t) (i : Nat) :
    PoolQuieter (s.step (poolCompile ω fuel ext on schema) threads i)
      (t.step (poolCompile ω fuel ext off schema) threads i) := by
  obtain ⟨hr, hw⟩ := k
  generalize t.workers = tw at hr hw
  subst hr
  have hi : (s.workers[i]? = none ∧ tw[i]? = none) ∨
      ∃ a b, s.workers[i]? = some a ∧ tw[i]? = some b ∧ WorkerQuieter a b := by
    clear h
    generalize s.workers = sw at hw
    induction hw generalizing i with
    | nil => exact .inl ⟨rfl, rfl⟩
    | cons h t ih =>
      cases i with
      | zero => exact .inr ⟨_, _, rfl, rfl, h⟩
      | succ i => exact ih i
  unfold PoolSt.step
  rcases hi with ⟨h1, h2⟩ | ⟨a, b, h1, h2, m, rfl, hm⟩
  · simp only [h1, h2]
    exact ⟨rfl, hw⟩
  · obtain ⟨m', k1, k2⟩ := stepWorker_quiet (ω := ω) (fuel := fuel) (ext := ext) (schema := schema) h threads s tw a m hm
    simp only [h1, h2, k2]
    exact ⟨rfl, forall₂_set hw i ⟨m', rfl, k1⟩⟩

theorem run_quiet (h : OnOff on off) (threads : Nat) (sched : List Nat) {s t : PoolSt World} (k : PoolQuieter s t) :
    PoolQuieter (s.run (poolCompile ω fuel ext on schema) threads sched)
      (t.run (poolCompile ω fuel ext off schema) threads sched) := by
  induction sched generalizing s t with
  | nil => exact k
  | cons i is ih => exact ih (step_quiet h threads k i)

theorem poolQuieter_end {s t : PoolSt World} (k : PoolQuieter s t) :
    t.finished = s.finished ∧ t.world = s.world ∧ t.aggregate.2 = s.aggregate.2 ∧
      Quieter s.aggregate.1 t.aggregate.1 := by
  obtain ⟨hr, hw⟩ := k
  refine ⟨?_, by rw [hr], ?_, ?_⟩ <;> clear hr
  · unfold PoolSt.finished
    generalize s.workers = sw, t.workers = tw at hw ⊢
    induction hw with
    | nil => rfl
    | cons h _ ih => obtain ⟨m, rfl, _⟩ := h; simp only [List.all_cons, ih]
  · unfold PoolSt.aggregate
    simp only
    generalize s.workers = sw, t.workers = tw at hw ⊢
    generalize ([] : List String) = acc
    induction hw generalizing acc with
    | nil => rfl
    | cons h _ ih => obtain ⟨m, rfl, _⟩ := h; simp only [List.foldl_cons, ih]
  · unfold PoolSt.aggregate
    simp only
    generalize s.workers = sw, t.workers = tw at hw ⊢
    induction hw with
    | nil => exact .nil
    | cons h _ ih => obtain ⟨m, rfl, hm⟩ := h; exact hm.append ih

theorem init_quiet (w : World) (threads : Nat) (root : Entry) :
    PoolQuieter (PoolSt.init w threads root) (PoolSt.init w threads root) := by
  refine ⟨rfl, ?_⟩
  have : ∀ l : List WorkerSt, (∀ a ∈ l, a.messages = []) → List.Forall₂ WorkerQuieter l l := by
    intro l
    induction l with
    | nil => intro _; exact .nil
    | cons a l ih =>
      intro h
      refine .cons ⟨a.messages, rfl, ?_⟩ (ih (fun b hb => h b (List.mem_cons_of_mem _ hb)))
      rw [h a List.mem_cons_self]
      exact .nil
  refine this _ ?_
  intro a ha
  unfold PoolSt.init at ha
  simp only [List.mem_replicate] at ha
  rw [ha.2]
  rfl

theorem finishWork_quiet (h : OnOff on off) (w : World) (rootPath : Path) {l l' : List Msg} {gs : List String}
    (hl : Quieter l l') :
    (finishWork ω' fuel on schema w rootPath (l, gs) = none ∧ finishWork ω' fuel off schema w rootPath (l', gs) = none) ∨
    ∃ ms ms' w', finishWork ω' fuel on schema w rootPath (l, gs) = some (ms, w') ∧
      finishWork ω' fuel off schema w rootPath (l', gs) = some (ms', w') ∧ Quieter ms ms' := by
  have ht : off.toTsConfig = on.toTsConfig := by rw [h.rest]
  have hp : globalsPath off rootPath = globalsPath on rootPath := by rw [h.rest]; rfl
  unfold finishWork compileGlobalTypesFile
  simp only [ht, hp]
  by_cases he : gs.isEmpty = true
  · simp only [he, if_true]
    exact .inr ⟨l, l', w, rfl, rfl, hl⟩
  · simp only [he, Bool.false_eq_true, if_false]
    cases compileGlobals ω' fuel on.toTsConfig schema gs with
    | none => exact .inl ⟨rfl, rfl⟩
    | some r =>
      cases r with
      | error e => exact .inr ⟨_, _, w, rfl, rfl, hl.append (.error (tsError_level e))⟩
      | ok c =>
        simp only
        rcases w.write (globalsPath on rootPath) c with ⟨_ | e, w'⟩
        · exact .inr ⟨l, l', w', rfl, rfl, hl⟩
        · exact .inr ⟨_, _, w', rfl, rfl, hl.append (.error (by simp [Msg.ioError]))⟩

/-- The whole pool, up to the final report. -/
theorem work_quiet (h : OnOff on off) (threads : Nat) (w : World) (root : Entry) (rootPath : Path) (sched : List Nat) :
    let s := (PoolSt.init w threads root).run (poolCompile ω fuel ext on schema) threads sched
    let t := (PoolSt.init w threads root).run (poolCompile ω fuel ext off schema) threads sched
    t.finished = s.finished ∧
    ((finishWork ω' fuel on schema s.world rootPath s.aggregate = none ∧
        finishWork ω' fuel off schema t.world rootPath t.aggregate = none) ∨
      ∃ ms ms' w', finishWork ω' fuel on schema s.world rootPath s.aggregate = some (ms, w') ∧
        finishWork ω' fuel off schema t.world rootPath t.aggregate = some (ms', w') ∧ Quieter ms ms') := by
  intro s t
  obtain ⟨h1, h2, h3, h4⟩ := poolQuieter_end (run_quiet (ω := ω) (fuel := fuel) (ext := ext) (schema := schema) h
    threads sched (init_quiet w threads root))
  refine ⟨h1, ?_⟩
  have := finishWork_quiet (ω' := ω') (fuel := fuel) (schema := schema) h s.world rootPath (gs := s.aggregate.2) h4
  have e : t.aggregate = (t.aggregate.1, s.aggregate.2) := by rw [← h3]
  have e' : t.world = s.world := h2
  rw [e, e']
  exact this

variable {read : Path → ConfigRead} {readSchema : Path → SchemaRead} {tree : Path → Entry} {w : World}
  {a : CliArgs}

/-- Without the option, everything else is set as with it. -/
theorem fromCli_off (hon : a.showDeprecationWarnings = true)
    (hfile : ∀ c, read (a.configFile.getD ⟨false, [".qlcrc.json"]⟩) = .parsed c → c.showDeprecationWarnings ≠ some true) :
    (∃ m, RuntimeConfig.fromCli cpus read a = .error m ∧
      RuntimeConfig.fromCli cpus read { a with showDeprecationWarnings := false } = .error m ∧
      m.level ≠ .compileWarning) ∨
    ∃ r, RuntimeConfig.fromCli cpus read a = .ok r ∧
      RuntimeConfig.fromCli cpus read { a with showDeprecationWarnings := false } =
        .ok { r with showDeprecationWarnings := false } ∧ r.showDeprecationWarnings = true := by
  have e : Path.ofString ".qlcrc.json" = ⟨false, [".qlcrc.json"]⟩ := by decide
  unfold RuntimeConfig.fromCli ConfigFile.fromFileParse
  simp only [e]
  cases hr : read (a.configFile.getD ⟨false, [".qlcrc.json"]⟩) with
  | parsed c =>
    have := hfile c hr
    refine .inr ⟨_, rfl, ?_, ?_⟩
    · unfold RuntimeConfig.merge
      rcases hc : c.showDeprecationWarnings with _ | _ | _ <;> simp_all
    · simp [RuntimeConfig.merge, hon]
  | serdeError s => exact .inl ⟨_, rfl, rfl, by simp [Msg.simpleProgramError]⟩
  | ioError s => exact .inl ⟨_, rfl, rfl, by simp [Msg.ioError]⟩
  | notFound s =>
    simp only
    by_cases hs : a.configFile.isSome = true
    · simp only [hs, if_true]
      exact .inl ⟨_, rfl, rfl, by simp [Msg.ioError]⟩
    · simp only [hs, Bool.false_eq_true, if_false]
      refine .inr ⟨_, rfl, ?_, ?_⟩
      · simp [RuntimeConfig.merge]
      · simp [RuntimeConfig.merge, hon]

theorem parseSchema_level {p : Path} {x : SchemaRead} {ms : List Msg} (h : parseSchema p x = .error ms) :
    ∀ m ∈ ms, m.level ≠ .compileWarning := by
  unfold parseSchema at h
  split at h
  · injection h with h; subst h; simp [Msg.ioError]
  · injection h with h; subst h; simp [Msg.simpleCompileError]
  · split at h
    · injection h with h; subst h; simp [SchemaError.toMsg, Msg.simpleCompileError]
    · cases h

theorem sameButWarnings_of {ms ms' : List Msg} (h : Quieter ms ms') :
    SameButWarnings paint ⟨printExitInfo paint ms, w⟩ ⟨printExitInfo paint ms', w⟩ :=
  ⟨rfl, quieter_code paint h, ms, ms', rfl, rfl, h⟩

/-- **C141.** `--show-deprecation-warnings` on the command line changes nothing but the report, and there nothing but
the warnings about deprecated fields: whatever the program can do with the option it can do without it (the same
hash orders and the same schedule), and conversely, with the same files afterwards, the same exit status and the same
messages apart from these warnings, none of which is printed without the option.  The configuration file, if there
is one, must not ask for the warnings itself; nothing is assumed about schema, documents, or what goes wrong. -/
theorem C141_only_warnings (hon : a.showDeprecationWarnings = true)
    (hfile : ∀ c, read (a.configFile.getD ⟨false, [".qlcrc.json"]⟩) = .parsed c →
      c.showDeprecationWarnings ≠ some true) :
    (∀ f, Runs ω ω' fuel ext paint cpus read readSchema tree w a f →
      ∃ f', Runs ω ω' fuel ext paint cpus read readSchema tree w { a with showDeprecationWarnings := false } f' ∧
        SameButWarnings paint f f') ∧
    (∀ f', Runs ω ω' fuel ext paint cpus read readSchema tree w { a with showDeprecationWarnings := false } f' →
      ∃ f, Runs ω ω' fuel ext paint cpus read readSchema tree w a f ∧ SameButWarnings paint f f') := by
  rcases fromCli_off (cpus := cpus) hon hfile with ⟨m, h1, h2, hm⟩ | ⟨r, h1, h2, hr⟩
  · constructor
    · intro f R
      cases R with
      | badConfig m' h =>
        rw [h1] at h; injection h with h; subst h
        exact ⟨_, .badConfig m h2, sameButWarnings_of (.error hm)⟩
      | badSchema r ms h => rw [h1] at h; cases h
      | finished r _ _ _ _ _ h => rw [h1] at h; cases h
    · intro f R
      cases R with
      | badConfig m' h =>
        rw [h2] at h; injection h with h; subst h
        exact ⟨_, .badConfig m h1, sameButWarnings_of (.error hm)⟩
      | badSchema r ms h => rw [h2] at h; cases h
      | finished r _ _ _ _ _ h => rw [h2] at h; cases h
  · have hoo : OnOff (.ofRuntime r) (.ofRuntime { r with showDeprecationWarnings := false }) := ⟨hr, rfl⟩
    constructor
    · intro f R
      cases R with
      | badConfig m' h => rw [h1] at h; cases h
      | badSchema r' ms h hs =>
        rw [h1] at h; injection h with h; subst h
        exact ⟨_, .badSchema _ ms h2 hs, sameButWarnings_of (.errors _ (parseSchema_level hs))⟩
      | finished r' schema sched ms w' s h hs hrun hfin hend =>
        rw [h1] at h; injection h with h; subst h
        obtain ⟨k1, k2⟩ := work_quiet (ω := ω) (ω' := ω') (fuel := fuel) (ext := ext) (schema := schema) hoo
          r.numberThreads w (tree r.rootDir) r.rootDir sched
        subst hrun
        rcases k2 with ⟨k2, _⟩ | ⟨ms1, ms', w1, k2, k3, k4⟩
        · rw [k2] at hend; cases hend
        · rw [k2] at hend; injection hend with hend; injection hend with e1 e2; subst e1; subst e2
          exact ⟨_, .finished _ schema sched ms' w1 _ h2 hs rfl (k1.trans hfin) k3, sameButWarnings_of k4⟩
    · intro f R
      cases R with
      | badConfig m' h => rw [h2] at h; cases h
      | badSchema r' ms h hs =>
        rw [h2] at h; injection h with h; subst h
        exact ⟨_, .badSchema _ ms h1 hs, sameButWarnings_of (.errors _ (parseSchema_level hs))⟩
      | finished r' schema sched ms w' s h hs hrun hfin hend =>
        rw [h2] at h; injection h with h; subst h
        obtain ⟨k1, k2⟩ := work_quiet (ω := ω) (ω' := ω') (fuel := fuel) (ext := ext) (schema := schema) hoo
          r.numberThreads w (tree r.rootDir) r.rootDir sched
        subst hrun
        rcases k2 with ⟨_, k2⟩ | ⟨ms1, ms', w1, k2, k3, k4⟩
        · rw [k2] at hend; cases hend
        · rw [k3] at hend; injection hend with hend; injection hend with e1 e2; subst e1; subst e2
          exact ⟨_, .finished _ schema sched ms1 w1 _ h1 hs rfl (k1.symm.trans hfin) k2, sameButWarnings_of k4⟩

end

/-! ### An example -/

/-- `qlc /r -s s.json --num-threads 1`, with or without the option. -/
def quietArgs (flag : Bool) : CliArgs :=
  { rootDir := some ⟨true, ["r"]⟩, schemaPath := some ⟨false, ["s.json"]⟩, numThreads := some 1,
    showDeprecationWarnings := flag }

/-- The settings it gives. -/
def quietSettings (flag : Bool) : RuntimeConfig := RuntimeConfig.merge 4 (quietArgs flag) {}

/-- The pool after a run over a directory with one document, which uses a deprecated field. -/
def quietRun (flag : Bool) : PoolSt World :=
  (PoolSt.init (Demo.oneFile Demo.oldText) 1 (.dir ⟨true, ["r"]⟩ [.file Demo.qPath])).run
    (poolCompile (fun _ => .inOrder) 9 (Demo.fixedParse (.ok [Demo.oldDef])) (.ofRuntime (quietSettings flag))
      Demo.schema) 1 (List.replicate 40 0)

/-- What it reports and generates. -/
def quietEnd (flag : Bool) : Option (List String × Nat × Except String String) :=
  match finishWork .inOrder 9 (.ofRuntime (quietSettings flag)) Demo.schema (quietRun flag).world ⟨true, ["r"]⟩
    (quietRun flag).aggregate with
  | some (ms, w) =>
    if (quietRun flag).finished then
      some ((printExitInfo .plain ms).printed, (printExitInfo .plain ms).code, w.disk "/r/q.graphql.d.ts")
    else none
  | none => none

/-- Both runs of the program are possible; with the option a warning and a summary are printed, without it nothing is;
both exit with 0 and generate the same file. -/
theorem C141_demo :
    (∀ flag, ∃ f, Runs (fun _ => .inOrder) .inOrder 9 (Demo.fixedParse (.ok [Demo.oldDef])) .plain 4
      (fun _ => .notFound "missing") (fun _ => .parsed Demo.json) (fun _ => .dir ⟨true, ["r"]⟩ [.file Demo.qPath])
      (Demo.oneFile Demo.oldText) (quietArgs flag) f ∧
      quietEnd flag = some (f.exit.printed, f.exit.code, f.world.disk "/r/q.graphql.d.ts")) ∧
    (quietEnd true).map (fun x => (x.1.length, x.2.1)) = some (2, 0) ∧
    (quietEnd false).map (fun x => (x.1.length, x.2.1)) = some (0, 0) ∧
    (quietEnd true).map (fun x => x.2.2.toOption) = (quietEnd false).map (fun x => x.2.2.toOption) ∧
    ((quietEnd true).bind (fun x => x.2.2.toOption)).isSome = true := by
  refine ⟨?_, by decide +kernel, by decide +kernel, by decide +kernel, by decide +kernel⟩
  intro flag
  have hsome : (quietEnd flag).isSome = true := by cases flag <;> decide +kernel
  have hj : parseSchema (quietSettings flag).schemaPath (.parsed Demo.json) = .ok Demo.schema := by
    unfold parseSchema Demo.schema
    have : ∃ s, Schema.ofJson Demo.json = .ok s := by
      cases h : Schema.ofJson Demo.json with
      | ok s => exact ⟨s, rfl⟩
      | error e =>
        have : (match Schema.ofJson Demo.json with | .ok _ => true | .error _ => false) = true := by decide +kernel
        rw [h] at this
        cases this
    obtain ⟨s, hs⟩ := this
    simp only [hs]
  unfold quietEnd at hsome ⊢
  split at hsome
  · rename_i ms w' hend
    split at hsome
    · rename_i hfin
      refine ⟨⟨printExitInfo .plain ms, w'⟩, .finished (quietSettings flag) Demo.schema (List.replicate 40 0) ms w'
        (quietRun flag) ?_ hj rfl hfin hend, ?_⟩
      · cases flag <;> rfl
      · simp only [hfin, if_true]
    · cases hsome
  · cases hsome

end Qlc
