import Verif.Spec.Program
import Verif.Props.Files
import Verif.Props.Cli
import Verif.Props.Schema
import Verif.Props.Compile
/-
Whole runs of the program: C72 (a bad configuration or schema stops the run), C74 (exit status, output
and files of a complete run).
-/
set_option autoImplicit false

namespace Qlc
open Spec

/-! ### C72 -/

theorem refFault_named {k : String} {nm : Option String} {t : Option JFieldType} {b : ModBuilder}
    {e : SchemaError} (hw : ¬ WrapperKind k) (h : FieldType.ofJsonAux b (.mk k nm t) = .error e) :
    RefFault (.mk k nm t) e.reason := by
  unfold FieldType.ofJsonAux at h
  rw [if_neg (fun e => hw (.inr e)), if_neg (fun e => hw (.inl e))] at h
  split at h
  · injection h with h
    subst h
    exact .noName k t hw
  · rename_i n
    split at h
    · rename_i e' hd
      injection h with h
      subst h
      have hn : ¬ NamedKind k := by
        intro hn
        obtain ⟨d, hd'⟩ := defOfKind_exists hn n
        rw [(fieldTypeDefOfKind_iff k n d).2 hd'] at hd
        simp at hd
      have he : e' = .unknownType n k := by
        unfold fieldTypeDefOfKind at hd
        repeat' split at hd
        all_goals first
          | (injection hd with hd; exact hd.symm)
          | simp at hd
      subst he
      exact .unknownKind k n t hw hn
    · simp at h

theorem refFault : ∀ (j : JFieldType) (b : ModBuilder) (e : SchemaError),
    FieldType.ofJsonAux b j = .error e → RefFault j e.reason
  | .mk k nm none, b, e, h => by
    by_cases hw : WrapperKind k
    · have he : e = .missingTypeOfForList ∨ e = .missingTypeOfForNonNull := by
        unfold FieldType.ofJsonAux at h
        split at h
        · injection h with h; exact .inr h.symm
        · rename_i hk
          rw [if_pos (hw.resolve_right hk)] at h
          injection h with h; exact .inl h.symm
      rcases he with rfl | rfl <;> exact .noOfType k nm hw
    · exact refFault_named hw h
  | .mk k nm (some j), b, e, h => by
    by_cases hw : WrapperKind k
    · refine .inside k nm j _ hw ?_
      unfold FieldType.ofJsonAux at h
      by_cases hk : k = "NON_NULL"
      · rw [if_pos hk] at h
        exact refFault j _ e h
      · rw [if_neg hk, if_pos (hw.resolve_right hk)] at h
        exact refFault j _ e h
    · exact refFault_named hw h

theorem firstFault_cons {α : Type} {Good : α → Prop} {Fault : α → String → Prop} {x : α} {l : List α}
    {r : String} (hx : Good x) (h : FirstFault Good Fault l r) : FirstFault Good Fault (x :: l) r := by
  obtain ⟨pre, y, post, e, h1, h2⟩ := h
  refine ⟨x :: pre, y, post, by rw [e]; rfl, ?_, h2⟩
  intro z hz
  rcases List.mem_cons.1 hz with rfl | hz
  · exact hx
  · exact h1 z hz

theorem fieldsFault : ∀ {fs : List JField} {m : FieldsLookup} {e : SchemaError},
    insertJsonFields m fs = .error e →
    FirstFault (fun f => RefOk f.typeInformation) (fun f => RefFault f.typeInformation) fs e.reason
  | [], m, e, h => by simp [insertJsonFields] at h
  | j :: fs, m, e, h => by
    unfold insertJsonFields at h
    cases hj : SField.ofJson j with
    | error e' =>
      rw [hj] at h
      injection h with h
      subst h
      unfold SField.ofJson at hj
      split at hj
      · rename_i e2 h2
        injection hj with hj
        subst hj
        exact ⟨[], j, fs, rfl, by simp, refFault _ _ _ h2⟩
      · simp at hj
    | ok f =>
      rw [hj] at h
      exact firstFault_cons ((sfield_ofJson_ok_iff j).1 ⟨f, hj⟩) (fieldsFault h)

theorem typeFault {t : JType} {e : SchemaError} (h : TypeDef.ofJson t = .error e) : TypeFault t e.reason := by
  unfold TypeDef.ofJson getFieldsForComplex at h
  split at h
  · rename_i hk
    split at h
    · rename_i hf
      injection h with h
      subst h
      exact .noFields (.inl hk) hf
    · rename_i fs hf
      split at h
      · rename_i e' he
        injection h with h
        subst h
        exact .field fs _ (.inl ⟨.inl hk, hf⟩) (by rw [hk]; simp) (fieldsFault he)
      · simp at h
  · rename_i k1
    split at h
    · rename_i hk
      split at h
      · rename_i hf
        injection h with h
        subst h
        exact .noValues hk hf
      · simp at h
    · rename_i k2
      split at h
      · simp at h
      · rename_i k3
        split at h
        · rename_i hk
          split at h
          · rename_i hf
            injection h with h
            subst h
            exact .noFields (.inr hk) hf
          · rename_i fs hf
            split at h
            · rename_i hp
              injection h with h
              subst h
              exact .noImplementations hk (by rw [hf]; rfl) hp
            · rename_i ps hp
              split at h
              · rename_i e' he
                injection h with h
                subst h
                exact .field fs _ (.inl ⟨.inr hk, hf⟩) (by rw [hp]; simp) (fieldsFault he)
              · simp at h
        · rename_i k4
          split at h
          · rename_i hk
            split at h
            · rename_i hf
              injection h with h
              subst h
              exact .noInputFields hk hf
            · rename_i fs hf
              split at h
              · rename_i e' he
                injection h with h
                subst h
                exact .field fs _ (.inr ⟨hk, hf⟩) (by rw [hk]; simp) (fieldsFault he)
              · simp at h
          · rename_i k5
            split at h
            · rename_i hk
              split at h
              · rename_i hf
                injection h with h
                subst h
                exact .noMembers hk hf
              · simp at h
            · rename_i k6
              injection h with h
              subst h
              refine .kind ?_
              unfold NamedKind
              simp only [List.mem_cons, List.not_mem_nil, or_false]
              tauto

theorem typesFault : ∀ {ts : List JType} {m : Schema} {e : SchemaError},
    insertJsonTypes m ts = .error e → FirstFault TypeOk TypeFault ts e.reason
  | [], m, e, h => by simp [insertJsonTypes] at h
  | t :: ts, m, e, h => by
    have hok : ∀ {st}, SType.ofJson t = .ok st → TypeOk t := by
      intro st hst
      have := (insertJsonTypes_ok_iff [t] []).1 ⟨AMap.insert [] t.name st, by simp [insertJsonTypes, hst]⟩
      exact this t (by simp)
    unfold insertJsonTypes at h
    cases hj : SType.ofJson t with
    | error e' =>
      rw [hj] at h
      injection h with h
      subst h
      unfold SType.ofJson at hj
      split at hj
      · rename_i e2 h2
        injection hj with hj
        subst hj
        exact ⟨[], t, ts, rfl, by simp, typeFault h2⟩
      · simp at hj
    | ok st =>
      rw [hj] at h
      exact firstFault_cons (hok hj) (typesFault h)

/-- Reading the schema file fails exactly if it is not usable, and then says why. -/
theorem parseSchema_spec (path : Path) (read : SchemaRead) :
    (SchemaUsable read ∧ ∃ s, parseSchema path read = .ok s) ∨
    (¬ SchemaUsable read ∧ ∃ text, SchemaComplaint path read text ∧
      parseSchema path read = .error [⟨.compileError, none, text⟩]) := by
  cases read with
  | ioError e => exact .inr ⟨id, _, .unreadable e, rfl⟩
  | serdeError e => exact .inr ⟨id, _, .notJson e, rfl⟩
  | parsed j =>
    unfold parseSchema
    cases hj : Schema.ofJson j with
    | ok s =>
      exact .inl ⟨(C04_schema_loads_iff_well_described j).1 ⟨s, hj⟩, s, by simp only [hj]⟩
    | error e =>
      refine .inr ⟨fun hu => ?_, _, .faulty j e.reason (typesFault hj), by simp only [hj]; rfl⟩
      obtain ⟨s, hs⟩ := (C04_schema_loads_iff_well_described j).2 hu
      rw [hs] at hj
      simp at hj

/-- A single error is printed with a summary, and the status is 1. -/
theorem print_one_error (paint : Paint) (m : Msg) (hm : m.level ≠ .compileWarning) :
    printExitInfo paint [m] = ⟨[m.render paint ++ "\n\n",
      (Msg.simpleCompileError "failure due to 1 error").render paint ++ "\n"], 1⟩ := by
  unfold printExitInfo countMsgs countMsgs
  have e : "failure due to " ++ toString 1 ++ " error" ++ "" = "failure due to 1 error" := by decide
  cases hl : m.level with
  | compileWarning => exact absurd hl hm
  | compileError =>
    simp
    rfl
  | programError =>
    simp
    rfl

section Program
variable {ω : Path → Hash} {ω' : Hash} {fuel : Nat} {ext : Ext} {paint : Paint} {cpus : Nat}
  {readConfig : Path → ConfigRead} {readSchema : Path → SchemaRead} {tree : Path → Entry} {w : World}
  {args : CliArgs} {f : Finished}

/-- **C72.** If the configuration cannot be read the program prints that one error, exits with status 1, and
touches no file. -/
theorem C72_bad_config_stops
    (run : Runs ω ω' fuel ext paint cpus readConfig readSchema tree w args f) (m : Msg)
    (hcfg : RuntimeConfig.fromCli cpus readConfig args = .error m) :
    f.exit = ⟨[m.render paint ++ "\n\n",
      (Msg.simpleCompileError "failure due to 1 error").render paint ++ "\n"], 1⟩ ∧ f.world = w := by
  have hm : m.level ≠ .compileWarning := by
    unfold RuntimeConfig.fromCli at hcfg
    split at hcfg
    · rename_i m' hm'
      injection hcfg with hcfg
      subst hcfg
      unfold ConfigFile.fromFileParse at hm'
      simp only at hm'
      split at hm'
      · simp at hm'
      · injection hm' with hm'; subst hm'; simp [Msg.simpleProgramError]
      · injection hm' with hm'; subst hm'; simp [Msg.ioError]
      · split at hm'
        · injection hm' with hm'; subst hm'; simp [Msg.ioError]
        · simp at hm'
    · simp at hcfg
  cases run with
  | badConfig m' h =>
    rw [hcfg] at h
    injection h with h
    subst h
    exact ⟨print_one_error paint m hm, rfl⟩
  | badSchema r ms h => rw [hcfg] at h; simp at h
  | finished r schema sched ms w' s h => rw [hcfg] at h; simp at h

/-- **C72.** If the schema file cannot be used, because it cannot be read, is not JSON of the right shape, or
describes some type badly, the program prints one error that says what is wrong with the first thing that
is wrong, exits with status 1, and touches no file. -/
theorem C72_bad_schema_stops
    (run : Runs ω ω' fuel ext paint cpus readConfig readSchema tree w args f) (r : RuntimeConfig)
    (hcfg : RuntimeConfig.fromCli cpus readConfig args = .ok r)
    (hbad : ¬ SchemaUsable (readSchema r.schemaPath)) :
    ∃ text, SchemaComplaint r.schemaPath (readSchema r.schemaPath) text ∧
      f.exit = ⟨[(⟨.compileError, none, text⟩ : Msg).render paint ++ "\n\n",
        (Msg.simpleCompileError "failure due to 1 error").render paint ++ "\n"], 1⟩ ∧ f.world = w := by
  rcases parseSchema_spec r.schemaPath (readSchema r.schemaPath) with ⟨hu, _⟩ | ⟨_, text, hc, hp⟩
  · exact absurd hu hbad
  refine ⟨text, hc, ?_⟩
  cases run with
  | badConfig m' h => rw [hcfg] at h; simp at h
  | badSchema r' ms h hs =>
    rw [hcfg] at h
    injection h with h
    subst h
    rw [hp] at hs
    injection hs with hs
    subst hs
    exact ⟨print_one_error paint _ (by simp), rfl⟩
  | finished r' schema sched ms w' s h hs =>
    rw [hcfg] at h
    injection h with h
    subst h
    rw [hp] at hs
    simp at hs

/-! ### Examples for C72 -/

/-- **C72.** A usable schema file is loaded: the run goes on to the files. -/
theorem C72_usable_schema_is_loaded (r : RuntimeConfig) (hu : SchemaUsable (readSchema r.schemaPath)) :
    ∃ schema, parseSchema r.schemaPath (readSchema r.schemaPath) = .ok schema := by
  rcases parseSchema_spec r.schemaPath (readSchema r.schemaPath) with ⟨_, s, hs⟩ | ⟨hn, _⟩
  · exact ⟨s, hs⟩
  · exact absurd hu hn

end Program

/-- The first fault of a document with a good type, then an interface without implementations. -/
example : FirstFault TypeOk TypeFault
    [⟨"SCALAR", "Date", none, none, none, none, none⟩, ⟨"INTERFACE", "Node", none, none, none, some [], none⟩]
    "interface `Node` has no implementations" :=
  ⟨[⟨"SCALAR", "Date", none, none, none, none, none⟩], _, [], rfl,
    by intro y hy; simp only [List.mem_singleton] at hy; subst hy; simp [TypeOk],
    .noImplementations rfl rfl rfl⟩

/-- Unusable schema files. -/
example : ¬ SchemaUsable (.ioError "No such file") ∧
    SchemaComplaint ⟨true, ["s.json"]⟩ (.ioError "No such file") "could not read `/s.json`: No such file" ∧
    ¬ SchemaUsable (.parsed ⟨[⟨"ENUM", "Color", none, none, none, none, none⟩]⟩) := by
  refine ⟨id, ?_, ?_⟩
  · have e : "could not read `/s.json`: No such file" =
        "could not read `" ++ (⟨true, ["s.json"]⟩ : Path).display ++ "`: " ++ "No such file" := by decide
    rw [e]
    exact .unreadable "No such file"
  · intro h
    have := h ⟨"ENUM", "Color", none, none, none, none, none⟩ (List.mem_singleton.2 rfl)
    simp [TypeOk] at this

/-! ### C74 -/

theorem compile_error_ne {ω : Hash} {fuel : Nat} {ctx : Ctx} {d : Definition} {es : List IrError}
    {ws : List Warning} (h : Operation.compile ω fuel ctx d = some (.error es, ws)) : es ≠ [] := by
  have hloop : ∀ (rec : CollectFn) (js : JumpState) (items : List Selection) (s : LoopSt) (c : Collected)
      (es : List IrError), collectLoop ω ctx rec js items s = some c → c.result = .error es → es ≠ [] := by
    intro rec js items
    induction items with
    | nil =>
      intro s c es hc hr
      simp only [collectLoop, Option.some.injEq] at hc
      subst hc
      simp only at hr
      split at hr
      · simp at hr
      · rename_i hne
        injection hr with hr
        subst hr
        simpa using hne
    | cons sel items ih =>
      intro s c es hc hr
      unfold collectLoop at hc
      split at hc
      · simp at hc
      · injection hc with hc
        subst hc
        injection hr with hr
        subst hr
        simp
      · exact ih _ c es hc hr
  have hcol : ∀ (fuel : Nat) (js : JumpState) (items : List Selection) (p : CTrav) (ws : List Warning)
      (c : Collected) (es : List IrError), collect ω ctx fuel js items p ws = some c →
      c.result = .error es → es ≠ [] := by
    intro fuel js items p ws c es hc hr
    cases fuel with
    | zero => simp [collect] at hc
    | succ n => exact hloop _ _ _ _ c es hc hr
  have one : ∀ (e : IrError) (ws' : List Warning),
      some (Except.error [e], ws') = some ((.error es, ws) : Except (List IrError) Operation × List Warning) →
      es ≠ [] := by
    intro e ws' h
    injection h with h
    injection h with h _
    injection h with h
    subst h
    simp
  unfold Operation.compile at h
  split at h
  · exact one _ _ h
  · simp only at h
    split at h
    · exact one _ _ h
    · split at h
      · simp at h
      · rename_i c hc
        split at h
        · rename_i es' hr
          injection h with h
          injection h with h _
          injection h with h
          subst h
          exact hcol _ _ _ _ _ c _ hc hr
        · split at h
          · exact one _ _ h
          · split at h
            · exact one _ _ h
            · simp at h
  · split at h
    · exact one _ _ h
    · split at h
      · simp at h
      · rename_i c hc
        split at h
        · rename_i es' hr
          injection h with h
          injection h with h _
          injection h with h
          subst h
          exact hcol _ _ _ _ _ c _ hc hr
        · split at h
          · exact one _ _ h
          · simp at h

theorem irError_level (dist : String → String → Nat) (contents : String) (p : Path) (e : IrError) :
    (e.toMsg dist contents p).level ≠ .compileWarning := by
  cases e <;> simp [IrError.toMsg, Msg.located, Msg.simpleCompileError, Msg.simpleProgramError, Msg.withSource]
  all_goals
    rename_i v
    cases v <;> simp [VarError.toMsg, Msg.located, Msg.simpleCompileError, Msg.simpleProgramError, Msg.withSource]

theorem tsError_level (e : TsError) : e.toMsg.level ≠ .compileWarning := by
  cases e <;> simp [TsError.toMsg, Msg.simpleCompileError, Msg.simpleProgramError]

/-- A file for which nothing is generated or written has an error. -/
theorem failed_has_error {ω : Hash} {fuel : Nat} {ext : Ext} {cfg : CompileConfig} {schema : Schema}
    {w : World} {p : Path} {r : CompileResult} {ms : List Msg}
    (h : compileFile ω fuel ext cfg schema w p = some (.done r)) (hr : r.result = .error ms) :
    ∃ m ∈ ms, m.level ≠ .compileWarning := by
  unfold compileFile at h
  split at h
  · simp at h
  · simp at h
  · rename_i msgs hg
    injection h with h
    injection h with h
    subst h
    injection hr with hr
    subst hr
    unfold generateFile at hg
    split at hg
    · rename_i m hm
      injection hg with hg
      injection hg with hg
      injection hg with hg
      subst hg
      unfold readGraphqlFile at hm
      split at hm
      · simp at hm
      · injection hm with hm
        subst hm
        exact ⟨_, List.mem_singleton.2 rfl, by simp [Msg.ioError]⟩
    · rename_i contents hc
      split at hg
      · rename_i m hm
        injection hg with hg
        injection hg with hg
        injection hg with hg
        subst hg
        refine ⟨m, by simp, ?_⟩
        unfold parseGraphqlFile at hm
        split at hm
        all_goals first
          | (injection hm with hm; subst hm; simp [Msg.simpleCompileError, Msg.withSource])
          | simp at hm
      · split at hg
        · simp at hg
        · simp at hg
        · simp only at hg
          split at hg
          · simp at hg
          · rename_i es ws hcomp
            injection hg with hg
            injection hg with hg
            injection hg with hg
            subst hg
            cases es with
            | nil => exact absurd rfl (compile_error_ne hcomp)
            | cons e es =>
              exact ⟨_, List.mem_append.2 (.inr (by rw [List.map_cons]; exact List.mem_cons_self)),
                irError_level ext.dist contents p e⟩
          · split at hg
            · rename_i e he
              injection hg with hg
              injection hg with hg
              injection hg with hg
              subst hg
              exact ⟨_, List.mem_append.2 (.inr (List.mem_singleton.2 rfl)), tsError_level e⟩
            · simp at hg
  · split at h
    · injection h with h
      injection h with h
      subst h
      injection hr with hr
      subst hr
      exact ⟨_, List.mem_singleton.2 rfl, by simp [Msg.ioError]⟩
    · injection h with h
      injection h with h
      subst h
      simp at hr

theorem globalName_nil {schema : Schema} (n : String) : ¬ GlobalName schema [] n := by
  have hE : ∀ t, ¬ Expanded schema [] t := by
    intro t h
    induction h with
    | used h _ => simp at h
    | sub _ _ ih => exact ih
  intro h
  cases h with
  | used h => simp at h
  | field h _ _ => exact hE _ h

section Complete
variable {ω : Path → Hash} {ω' : Hash} {fuel threads : Nat} {ext : Ext} {cfg : CompileConfig}
  {schema : Schema} {w w' : World} {root : Entry} {rootPath : Path} {s : PoolSt World} {ms : List Msg}

theorem compilesWith_of_done {p : Path} {gs : List String} {msgs : List Msg}
    (h : (poolCompile ω fuel ext cfg schema w p).1 = .done gs msgs) :
    CompilesWith ω fuel ext cfg schema w p msgs gs := by
  unfold poolCompile at h
  split at h
  · simp at h
  · simp at h
  · rename_i r hr
    split at h
    · rename_i rep hrep
      injection h with h1 h2
      exact ⟨r, hr, .inl ⟨rep, hrep, h2.symm, h1.symm⟩⟩
    · rename_i es hes
      injection h with h1 h2
      exact ⟨r, hr, .inr ⟨by rw [hes, h2], h1.symm⟩⟩

theorem compilesWith_iff {p : Path} {gs : List String} {msgs : List Msg} :
    CompilesWith ω fuel ext cfg schema w p msgs gs ↔
      (poolCompile ω fuel ext cfg schema w p).1 = .done gs msgs := by
  refine ⟨?_, compilesWith_of_done⟩
  rintro ⟨r, hr, ⟨rep, h1, rfl, rfl⟩ | ⟨h1, rfl⟩⟩ <;> simp [poolCompile, hr, h1]

theorem usedGlobal_iff (A : After ω ω' fuel ext cfg schema w rootPath root s ms w') (g : String) :
    g ∈ s.aggregate.2 ↔ UsedGlobal ω fuel ext cfg schema w root g := by
  rw [A.used]
  constructor
  · rintro ⟨p, hp, hg⟩
    obtain ⟨gs, msgs, e⟩ := A.returned p hp
    unfold globalsOfFile at hg
    rw [e] at hg
    exact ⟨p, msgs, gs, hp, compilesWith_of_done e, hg⟩
  · rintro ⟨p, msgs, gs, hp, hc, hg⟩
    refine ⟨p, hp, ?_⟩
    unfold globalsOfFile
    rw [compilesWith_iff.1 hc]
    exact hg

/-- **C74.** After a complete run the printed messages are exactly those of the directories that cannot be
listed, those that compiling each file alone reports, and at most one about the globals; all are printed. -/
theorem C74_everything_is_reported (hr : NoOutputRead w cfg root) (hd : OutputsDistinct w root)
    (hg : GlobalsApart w cfg rootPath root)
    (R : RunsTo ω ω' fuel ext cfg schema rootPath root threads w s ms w') (paint : Paint) :
    (∀ m ∈ dirErrors root, m.render paint ++ "\n\n" ∈ (printExitInfo paint ms).printed) ∧
    (∀ p, FoundIn root p → ∃ msgs gs, CompilesWith ω fuel ext cfg schema w p msgs gs ∧
      ∀ m ∈ msgs, m.render paint ++ "\n\n" ∈ (printExitInfo paint ms).printed) ∧
    ∃ last : List Msg, last.length ≤ 1 ∧ (∀ m ∈ last, m.level ≠ .compileWarning) ∧
      ∀ m, m ∈ ms ↔ m ∈ dirErrors root ∨
        (∃ p msgs gs, FoundIn root p ∧ CompilesWith ω fuel ext cfg schema w p msgs gs ∧ m ∈ msgs) ∨
        m ∈ last := by
  have A := after_run hr hd hg R
  have hprint : ∀ m ∈ ms, m.render paint ++ "\n\n" ∈ (printExitInfo paint ms).printed := by
    intro m hm
    rw [C43_printed_output]
    simp only [List.mem_append, List.mem_map]
    exact .inl (.inl ⟨m, hm, rfl⟩)
  have hlast : ∃ last : List Msg, last.length ≤ 1 ∧ (∀ m ∈ last, m.level ≠ .compileWarning) ∧
      ms = s.aggregate.1 ++ last := by
    rcases A.globals with ⟨_, e, _⟩ | ⟨_, r, _, ⟨e, _, hm, _⟩ | ⟨text, _, _, hm⟩⟩
    · exact ⟨[], by simp, by simp, by rw [e]; simp⟩
    · refine ⟨[e.toMsg], by simp, ?_, hm⟩
      intro m h
      simp only [List.mem_singleton] at h
      subst h
      exact tsError_level e
    · refine ⟨_, ?_, ?_, hm⟩
      · split <;> simp
      · intro m h
        split at h
        · simp at h
        · simp only [List.mem_singleton] at h
          subst h
          simp [Msg.ioError]
  obtain ⟨last, l1, l2, l3⟩ := hlast
  have hmem : ∀ m, m ∈ ms ↔ m ∈ dirErrors root ∨
        (∃ p msgs gs, FoundIn root p ∧ CompilesWith ω fuel ext cfg schema w p msgs gs ∧ m ∈ msgs) ∨
        m ∈ last := by
    intro m
    rw [l3, List.mem_append, A.messages.mem_iff, List.mem_append, List.mem_flatMap, or_assoc]
    have : (∃ a ∈ filesOf root, m ∈ messagesOfFile ω fuel ext cfg schema w a) ↔
        ∃ p msgs gs, FoundIn root p ∧ CompilesWith ω fuel ext cfg schema w p msgs gs ∧ m ∈ msgs := by
      constructor
      · rintro ⟨p, hp, hm⟩
        rw [mem_filesOf] at hp
        obtain ⟨gs, msgs, e⟩ := A.returned p hp
        unfold messagesOfFile at hm
        rw [e] at hm
        exact ⟨p, msgs, gs, hp, compilesWith_of_done e, hm⟩
      · rintro ⟨p, msgs, gs, hp, hc, hm⟩
        refine ⟨p, (mem_filesOf root p).2 hp, ?_⟩
        unfold messagesOfFile
        rw [compilesWith_iff.1 hc]
        exact hm
    rw [this]
  refine ⟨fun m hm => hprint m ((hmem m).2 (.inl hm)), ?_, last, l1, l2, hmem⟩
  intro p hp
  obtain ⟨gs, msgs, e⟩ := A.returned p hp
  exact ⟨msgs, gs, compilesWith_of_done e, fun m hm =>
    hprint m ((hmem m).2 (.inr (.inl ⟨p, msgs, gs, hp, compilesWith_of_done e, hm⟩)))⟩

theorem dirErrors_level_aux : (∀ (e : Entry) (m : Msg), m ∈ dirErrors e → m.level ≠ .compileWarning) := by
  intro e
  induction e using Entry.rec (motive_2 := fun es => ∀ m ∈ dirErrorsList es, m.level ≠ .compileWarning) with
  | file p => intro m hm; simp [dirErrors] at hm; subst hm; simp [Msg.ioError]
  | other p => intro m hm; simp [dirErrors] at hm; subst hm; simp [Msg.ioError]
  | bad err => intro m hm; simp [dirErrors] at hm; subst hm; simp [Msg.ioError]
  | badDir p err => intro m hm; simp [dirErrors] at hm; subst hm; simp [Msg.ioError]
  | dir p es ih =>
    intro m hm
    unfold dirErrors at hm
    split at hm
    · simp only [List.mem_singleton] at hm
      subst hm
      simp [Msg.ioError]
    · exact ih m hm
  | nil m hm => simp [dirErrorsList] at hm
  | cons e es ih1 ih2 m hm =>
    cases e with
    | dir p es' =>
      simp only [dirErrorsList, List.mem_append] at hm
      exact hm.elim (ih1 m) (ih2 m)
    | badDir p err =>
      simp only [dirErrorsList, List.mem_append] at hm
      exact hm.elim (ih1 m) (ih2 m)
    | file p => simp only [dirErrorsList] at hm; exact ih2 m hm
    | other p => simp only [dirErrorsList] at hm; exact ih2 m hm
    | bad err => simp only [dirErrorsList] at hm; exact ih2 m hm

/-- **C74.** A complete run exits with status 0 exactly if nothing is wrong: all directories can be listed,
compiling each file alone reports no error, all globals are valid, and the globals file can be written. -/
theorem C74_exit_status (hr : NoOutputRead w cfg root) (hd : OutputsDistinct w root)
    (hg : GlobalsApart w cfg rootPath root)
    (R : RunsTo ω ω' fuel ext cfg schema rootPath root threads w s ms w') (paint : Paint) :
    (printExitInfo paint ms).code = 0 ↔ AllFine ω fuel ext cfg schema w rootPath root := by
  rw [(C43_exit_zero_iff_no_error paint ms).1]
  have A := after_run hr hd hg R
  have hused := usedGlobal_iff A
  have hfiles : (∀ m ∈ s.aggregate.1, m.level = .compileWarning) ↔
      (dirErrors root = [] ∧ ∀ p, FoundIn root p → ∃ ms gs, CompilesWith ω fuel ext cfg schema w p ms gs ∧
        ∀ m ∈ ms, m.level = .compileWarning) := by
    constructor
    · intro h
      constructor
      · apply List.eq_nil_iff_forall_not_mem.2
        intro m hm
        exact dirErrors_level_aux root m hm (h m (A.messages.mem_iff.2 (by simp [hm])))
      · intro p hp
        obtain ⟨gs, msgs, e⟩ := A.returned p hp
        refine ⟨msgs, gs, compilesWith_of_done e, fun m hm => h m (A.messages.mem_iff.2 ?_)⟩
        rw [List.mem_append, List.mem_flatMap]
        refine .inr ⟨p, (mem_filesOf root p).2 hp, ?_⟩
        unfold messagesOfFile
        rw [e]
        exact hm
    · rintro ⟨h1, h2⟩ m hm
      have := A.messages.mem_iff.1 hm
      rw [h1, List.nil_append, List.mem_flatMap] at this
      obtain ⟨p, hp, hm⟩ := this
      obtain ⟨msgs, gs, hc, hw⟩ := h2 p ((mem_filesOf root p).1 hp)
      unfold messagesOfFile at hm
      rw [compilesWith_iff.1 hc] at hm
      exact hw m hm
  have hglob : ∀ used : List String, (∀ g, g ∈ used ↔ UsedGlobal ω fuel ext cfg schema w root g) →
      ∀ n, GlobalName schema used n ↔ GlobalName schema s.aggregate.2 n := by
    intro used hu n
    have : ∀ g, g ∈ used ↔ g ∈ s.aggregate.2 := fun g => by rw [hu, hused]
    exact globalName_congr this n
  rcases A.globals with ⟨hn, e, _⟩ | ⟨hn, r, hc, hres⟩
  · -- no globals are used
    rw [e, hfiles]
    have hno : ¬ ∃ g, UsedGlobal ω fuel ext cfg schema w root g := by
      rintro ⟨g, h⟩
      rw [← hused, hn] at h
      simp at h
    constructor
    · rintro ⟨h1, h2⟩
      refine ⟨h1, h2, fun used hu n hN => ?_, fun h => absurd h hno⟩
      have he : used = [] := List.eq_nil_iff_forall_not_mem.2 (fun g hg => hno ⟨g, (hu g).1 hg⟩)
      subst he
      exact absurd hN (globalName_nil n)
    · intro h
      exact ⟨h.directories, h.files⟩
  · have hex : ∃ g, UsedGlobal ω fuel ext cfg schema w root g := by
      obtain ⟨g, hg⟩ := List.exists_mem_of_ne_nil _ hn
      exact ⟨g, (hused g).1 hg⟩
    have hvalid := C32_globals_ok_iff ω' fuel cfg.toTsConfig schema s.aggregate.2 r hc
    have hv' : (∀ used : List String, (∀ g, g ∈ used ↔ UsedGlobal ω fuel ext cfg schema w root g) →
        ∀ n, GlobalName schema used n → ValidGlobal schema n) ↔
        ∀ n, GlobalName schema s.aggregate.2 n → ValidGlobal schema n :=
      ⟨fun h n hN => h s.aggregate.2 hused n hN,
        fun h used hu n hN => h n ((hglob used hu n).1 hN)⟩
    rcases hres with ⟨e, rfl, hm, _⟩ | ⟨text, rfl, _, hm⟩
    · have hbad : ¬ ∀ n, GlobalName schema s.aggregate.2 n → ValidGlobal schema n := by
        rw [← hvalid]
        rintro ⟨t, ht⟩
        simp at ht
      constructor
      · intro h
        exact absurd (h e.toMsg (by rw [hm]; simp)) (tsError_level e)
      · intro h
        exact absurd (hv'.1 h.globals) hbad
    · have hgood := hvalid.1 ⟨text, rfl⟩
      have hwr : (w.write (globalsPath cfg rootPath) text).1 = none ↔
          w.writeErr (globalsId w cfg rootPath) = none := by
        unfold World.write globalsId
        cases w.writeErr (w.resolve (globalsPath cfg rootPath)) with
        | none => simp
        | some x => obtain ⟨a, b⟩ := x; cases b <;> simp
      constructor
      · intro h
        have h0 : ∀ m ∈ s.aggregate.1, m.level = .compileWarning :=
          fun m hmem => h m (by rw [hm]; simp [hmem])
        obtain ⟨h1, h2⟩ := hfiles.1 h0
        refine ⟨h1, h2, hv'.2 hgood, fun _ => hwr.1 ?_⟩
        cases he : (w.write (globalsPath cfg rootPath) text).1 with
        | none => rfl
        | some e =>
          exfalso
          rw [he] at hm
          have := h (.ioError "write" e rootPath) (by rw [hm]; simp)
          simp [Msg.ioError] at this
      · intro h m hmem
        have h0 := hfiles.2 ⟨h.directories, h.files⟩
        rw [hwr.2 (h.written hex)] at hm
        rw [hm] at hmem
        exact h0 m (by simpa using hmem)

/-- **C74.** Status 0 after a complete run means: for every file of the tree the output file exists and holds
the text generated from that file, and if any file uses a global the globals file was written. -/
theorem C74_success_means_generated (hr : NoOutputRead w cfg root) (hd : OutputsDistinct w root)
    (hg : GlobalsApart w cfg rootPath root) (hreg : NamedAsRegistered schema)
    (R : RunsTo ω ω' fuel ext cfg schema rootPath root threads w s ms w') (paint : Paint)
    (h0 : (printExitInfo paint ms).code = 0) :
    (∀ p, FoundIn root p → ∃ contents d st op ws c,
      Generates (ω p) fuel ext cfg schema w p contents d st op ws c ∧
      w'.disk (w.resolve (outputPath p)) = .ok c.contents) ∧
    ((∃ g, UsedGlobal ω fuel ext cfg schema w root g) → ∃ names decls : List String,
      (∀ n, n ∈ names ↔ GlobalName schema s.aggregate.2 n) ∧
      List.Forall₂ (DeclaresGlobal cfg.toTsConfig schema) names decls ∧
      w'.disk (globalsId w cfg rootPath) = .ok (generatedHeader ++ joinWith "\n\n" decls)) := by
  have A := after_run hr hd hg R
  have F := (C74_exit_status hr hd hg R paint).1 h0
  constructor
  · intro p hp
    obtain ⟨msgs, gs, ⟨r, hc, hres⟩, hlev⟩ := F.files p hp
    have hok : ∃ rep, r.result = .ok rep := by
      rcases hres with ⟨rep, h, _⟩ | ⟨h, _⟩
      · exact ⟨rep, h⟩
      · obtain ⟨m, hm, hl⟩ := failed_has_error hc h
        exact absurd (hlev m hm) hl
    obtain ⟨rep, hrep⟩ := hok
    rcases C41_writes_only_its_output (ω p) fuel ext cfg schema w p r hc with
      ⟨contents, d, st, op, ws, c, G, _, hw, _⟩ | ⟨_, _, es, he⟩
    · refine ⟨contents, d, st, op, ws, c, G, ?_⟩
      rw [A.outputs p hp, ← (hw rep hrep).1]
      have : (poolCompile ω fuel ext cfg schema w p).2 = r.world := by
        simp [poolCompile, hc, hrep]
      rw [this]
    · rw [hrep] at he
      simp at he
  · intro hex
    have hused := usedGlobal_iff A
    rcases A.globals with ⟨hn, _, _⟩ | ⟨hn, r, hc, ⟨e, rfl, hm, _⟩ | ⟨text, rfl, hdisk, hm⟩⟩
    · obtain ⟨g, hgu⟩ := hex
      rw [← hused, hn] at hgu
      simp at hgu
    · exfalso
      have := ((C43_exit_zero_iff_no_error paint ms).1.1 h0) e.toMsg (by rw [hm]; simp)
      exact tsError_level e this
    · obtain ⟨names, decls, _, n2, n3, n4⟩ := C30_globals_text ω' fuel cfg.toTsConfig schema s.aggregate.2 hreg text hc
      refine ⟨names, decls, n2, n3, ?_⟩
      rw [hdisk]
      have hwe := F.written hex
      unfold World.write globalsId at *
      rw [hwe]
      simp [World.put, n4]

/-- **C74.** With one thread every run of the program is complete: the status, the messages and the files
are those above. -/
theorem C74_one_thread {paint : Paint} {cpus : Nat} {readConfig : Path → ConfigRead}
    {readSchema : Path → SchemaRead} {tree : Path → Entry} {args : CliArgs} {f : Finished}
    {r : RuntimeConfig} (hrun : Runs ω ω' fuel ext paint cpus readConfig readSchema tree w args f)
    (hcfg : RuntimeConfig.fromCli cpus readConfig args = .ok r) (h1 : r.numberThreads = 1)
    (hschema : parseSchema r.schemaPath (readSchema r.schemaPath) = .ok schema)
    (hr : NoOutputRead w (.ofRuntime r) (tree r.rootDir)) (hd : OutputsDistinct w (tree r.rootDir))
    (hg : GlobalsApart w (.ofRuntime r) r.rootDir (tree r.rootDir)) :
    (∃ s ms, RunsTo ω ω' fuel ext (.ofRuntime r) schema r.rootDir (tree r.rootDir) 1 w s ms f.world ∧
      f.exit = printExitInfo paint ms) ∧
    (f.exit.code = 0 ↔ AllFine ω fuel ext (.ofRuntime r) schema w r.rootDir (tree r.rootDir)) := by
  cases hrun with
  | badConfig m h => rw [hcfg] at h; simp at h
  | badSchema r' ms h hs =>
    rw [hcfg] at h
    injection h with h
    subst h
    rw [hschema] at hs
    simp at hs
  | finished r' schema' sched ms w' s h hs hrun hfin hend =>
    rw [hcfg] at h
    injection h with h
    subst h
    rw [hschema] at hs
    injection hs with hs
    subst hs
    rw [h1] at hrun
    have hreach : ReachedBy (poolCompile ω fuel ext (.ofRuntime r) schema) w 1 (tree r.rootDir) sched s :=
      hrun
    have R : RunsTo ω ω' fuel ext (.ofRuntime r) schema r.rootDir (tree r.rootDir) 1 w s ms w' :=
      ⟨⟨sched, hreach⟩, hfin,
        finished_pending hreach (by omega) (lone_no_early_quit _ w (tree r.rootDir) sched) hfin, hend⟩
    exact ⟨⟨s, ms, R, rfl⟩, C74_exit_status hr hd hg R paint⟩

end Complete

/-- The demo file system with the missing file in place. -/
def Demo.cleanWorld : World where
  resolve := Path.display
  disk := fun id =>
    if id = "/r/q.graphql" then .ok "#import \"f.graphql\"\n#import \"m.graphql\"\nquery Q"
    else if id = "/r/f.graphql" then .ok "fragment F"
    else if id = "/r/m.graphql" then .ok "fragment G"
    else .error "missing"
  writeErr := fun _ => none

/-- A stand-in for the parser on the three files. -/
def Demo.cleanExt : Ext where
  parse := fun c =>
    if c = "fragment G" then .ok [.fragment ⟨⟨1, 1⟩, "G", "Node", [], [leaf 1 20 "id"]⟩]
    else Demo.ext.parse c
  dist := Demo.ext.dist

/-- The pool at the end of the run. -/
def cleanRun : PoolSt World :=
  (PoolSt.init Demo.cleanWorld 1 Demo.fileTree).run
    (poolCompile (fun _ => .inOrder) 5 Demo.cleanExt Demo.cfg Demo.schema) 1 Demo.fileSched

/-- The end of the run. -/
def cleanEnd : Option (List Msg × World) :=
  finishWork .inOrder 5 Demo.cfg Demo.schema cleanRun.world ⟨true, ["r"]⟩ cleanRun.aggregate

/-- The run ends with no work left, a warning, and status 0. -/
def cleanOk : Bool :=
  cleanRun.finished && (pending cleanRun).isEmpty && match cleanEnd with
    | some (ms, _) => ms.length == 1 && (printExitInfo (fun _ s => s) ms).code == 0
    | none => false

theorem clean_reads {p q : Path} (hp : p = Demo.qPath ∨ p = Demo.fPath)
    (h : Reads Demo.cleanWorld Demo.cfg p q) :
    q = Demo.qPath ∨ q = Demo.fPath ∨ q = ⟨true, ["r", "m.graphql"]⟩ := by
  have rq : Demo.cleanWorld.read Demo.qPath =
      .ok "#import \"f.graphql\"\n#import \"m.graphql\"\nquery Q" := rfl
  have rf : Demo.cleanWorld.read Demo.fPath = .ok "fragment F" := rfl
  have rm : Demo.cleanWorld.read ⟨true, ["r", "m.graphql"]⟩ = .ok "fragment G" := rfl
  induction h with
  | self => rcases hp with h | h <;> simp [h]
  | imported _ hr hi ih =>
    rcases ih with rfl | rfl | rfl
    · rw [rq] at hr
      injection hr with hr
      subst hr
      rcases demo_imports_q hi with h | h <;> simp [h]
    · rw [rf] at hr
      injection hr with hr
      subst hr
      exact absurd hi demo_imports_f
    · rw [rm] at hr
      injection hr with hr
      subst hr
      have : (importsOf "fragment G").length = 0 := by decide +kernel
      have h1 := hi.1
      rw [List.length_eq_zero_iff.1 this] at h1
      simp at h1

/-- A complete run over a tree without errors: the hypotheses of C74 are met and the status is 0. -/
example : ∃ s ms w',
    NoOutputRead Demo.cleanWorld Demo.cfg Demo.fileTree ∧
    OutputsDistinct Demo.cleanWorld Demo.fileTree ∧
    GlobalsApart Demo.cleanWorld Demo.cfg ⟨true, ["r"]⟩ Demo.fileTree ∧
    RunsTo (fun _ => .inOrder) .inOrder 5 Demo.cleanExt Demo.cfg Demo.schema ⟨true, ["r"]⟩ Demo.fileTree 1
      Demo.cleanWorld s ms w' ∧ ms.length = 1 ∧
    (printExitInfo (fun _ s => s) ms).code = 0 := by
  have h : cleanOk = true := by decide +kernel
  unfold cleanOk at h
  simp only [Bool.and_eq_true] at h
  obtain ⟨⟨h1, h2⟩, h3⟩ := h
  split at h3
  · rename_i ms w' e
    simp only [Bool.and_eq_true, beq_iff_eq] at h3
    refine ⟨_, ms, w', ?_, ?_, ?_, ⟨⟨_, rfl⟩, h1, List.isEmpty_iff.1 h2, e⟩, h3.1, h3.2⟩
    · intro p q hp hq ho
      rcases clean_reads (demo_found hp) hq with rfl | rfl | rfl <;>
      · rcases demo_output (id := _) ho with h | h
        · revert h; decide +kernel
        · revert h; decide +kernel
    · exact demo_outputsDistinct
    · refine ⟨demo_globalsApart.1, fun p q hp hq => ?_⟩
      rcases clean_reads (demo_found hp) hq with rfl | rfl | rfl <;> decide +kernel
  · simp at h3

end Qlc
