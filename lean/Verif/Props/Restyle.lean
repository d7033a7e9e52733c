import Verif.Lemmas.Restyle
import Verif.Props.UpToDate
/-
Property C142: options about how types are written change nothing else in what is generated.
-/
set_option autoImplicit false

namespace Qlc
open Spec

section
variable {ω : Hash} {fuel : Nat} {ext : Ext} {cfg cfg' : CompileConfig} {schema : Schema}

theorem fragmentPath_styles (h : SameSources cfg cfg') (after : List Char) (dir : Path) :
    getFilePathOfFragment cfg' after dir = getFilePathOfFragment cfg after dir := by
  unfold getFilePathOfFragment resolveImport
  rw [h.rootDir, h.importPrefix]

theorem addImported_styles (h : SameSources cfg cfg') (w : World) (n : Nat) :
    addImported w cfg' n = addImported w cfg n := by
  have hl : ∀ (cf cd : Path) (rec : Path → String → ImportSt → Option (PanicOr ImportSt)) (ls : List (List Char))
      (idx : Nat) (s : ImportSt), importLoop w cfg' cf cd rec idx ls s = importLoop w cfg cf cd rec idx ls s := by
    intro cf cd rec ls
    induction ls with
    | nil => intro _ _; rfl
    | cons l ls ih =>
      intro idx s
      simp only [importLoop, fragmentPath_styles h, ih]
  induction n with
  | zero => rfl
  | succ n ih =>
    funext file contents s
    simp only [addImported, ih, hl]

/-- Up to the write, the two compilations end in the same way, or both generate the same file. -/
theorem generateFile_styles (h : SameSources cfg cfg') (w : World) (p : Path) :
    (generateFile ω fuel ext cfg' schema w p = generateFile ω fuel ext cfg schema w p ∧
      ∀ x, generateFile ω fuel ext cfg schema w p ≠ some (.done (.ok x))) ∨
    ∃ msgs c c' text d op, generateFile ω fuel ext cfg schema w p = some (.done (.ok (msgs, c))) ∧
      generateFile ω fuel ext cfg' schema w p = some (.done (.ok (msgs, c'))) ∧
      c'.globalTypesUsed = c.globalTypesUsed ∧
      c.contents = (plainFile ω cfg.toTsConfig schema op).printed cfg.toTsConfig ∧
      c'.contents = (plainFile ω cfg'.toTsConfig schema op).printed cfg'.toTsConfig ∧
      w.read p = .ok text ∧ ext.parse text = .ok [d] ∧
      ∃ frags ws, Operation.compile ω fuel ⟨schema, cfg.showDeprecationWarnings, frags⟩ d = some (.ok op, ws) := by
  unfold generateFile
  simp only [addImported_styles h, h.deprecations]
  cases hrd : readGraphqlFile w p with
  | error m => exact .inl ⟨rfl, fun x hx => by simp at hx⟩
  | ok contents =>
    simp only
    cases hpa : parseGraphqlFile ext contents p with
    | error m => exact .inl ⟨rfl, fun x hx => by simp at hx⟩
    | ok d =>
      simp only
      cases addImported w cfg fuel p contents ⟨[], []⟩ with
      | none => exact .inl ⟨rfl, fun x hx => by simp at hx⟩
      | some r =>
        cases r with
        | panic => exact .inl ⟨rfl, fun x hx => by simp at hx⟩
        | done st =>
          simp only
          cases hop : Operation.compile ω fuel
            ⟨schema, cfg.showDeprecationWarnings, (parseForeignFragments ω ext p st.imports st.messages).1⟩ d with
          | none => exact .inl ⟨rfl, fun x hx => by simp at hx⟩
          | some r =>
            obtain ⟨res, ws⟩ := r
            cases res with
            | error es => exact .inl ⟨rfl, fun x hx => by simp at hx⟩
            | ok op =>
              simp only
              rcases compileIr_styles ω op cfg.toTsConfig cfg'.toTsConfig schema with
                ⟨e, e1, e2⟩ | ⟨c, c', e1, e2, hg⟩
              · rw [e1, e2]
                exact .inl ⟨rfl, fun x hx => by simp at hx⟩
              · simp only [e1, e2]
                refine .inr ⟨_, c, c', contents, d, op, rfl, rfl, hg, ?_, ?_, ?_, ?_, _, ws, hop⟩
                · rw [(compileIr_agrees e1).1, tsFile_printed]
                · rw [(compileIr_agrees e2).1, tsFile_printed]
                · unfold readGraphqlFile at hrd
                  split at hrd <;> simp_all
                · unfold parseGraphqlFile at hpa
                  split at hpa <;> simp_all

/-- **C142.** Options about how types are written (whether properties are marked `readonly`, whether and with which
prefix custom scalars keep their names, the names of the two modules that are imported from) change nothing else:
whatever the document, compiling it ends in the same way under both settings (panics and non-termination included);
it fails with the same messages or gives the same warnings and the same globals and prints the same file, with the
markers, the spelling of custom scalars and the module names that are set. -/
theorem C142_only_style (h : SameSources cfg cfg') (w : World) (p : Path) :
    match compileFile ω fuel ext cfg schema w p, compileFile ω fuel ext cfg' schema w p with
    | none, none => True
    | some .panic, some .panic => True
    | some (.done r), some (.done r') =>
      Restyled cfg.toTsConfig cfg'.toTsConfig (w.resolve (outputPath p)) r r'
    | _, _ => False := by
  unfold compileFile
  rcases generateFile_styles (ω := ω) (fuel := fuel) (ext := ext) (schema := schema) h w p with
    ⟨he, hno⟩ | ⟨msgs, c, c', _, _, op, e1, e2, hg, k1, k2, _⟩
  · rw [he]
    cases hgen : generateFile ω fuel ext cfg schema w p with
    | none => exact trivial
    | some r =>
      cases r with
      | panic => exact trivial
      | done x =>
        cases x with
        | error ms => exact ⟨fun _ _ => rfl, rfl⟩
        | ok x => exact absurd hgen (hno x)
  · simp only [e1, e2]
    unfold World.write
    rcases w.writeErr (w.resolve (outputPath p)) with _ | ⟨e, _ | left⟩
    · refine ⟨fun id hid => ?_, by rw [hg], _, _, ?_, ?_, plainFile_order ω cfg.toTsConfig cfg'.toTsConfig schema op, ?_⟩
      · simp only [World.put, if_neg hid]
      · simp only [World.put, if_true, k1]
      · simp only [World.put, if_true, k2]
      · rintro (hb | ho)
        · exact plainFile_same ω schema op hb
        · exact plainFile_once ω _ _ schema op ho
    · exact ⟨fun _ _ => rfl, rfl⟩
    · exact ⟨fun _ _ => rfl, rfl⟩

theorem reads_styles (h : SameSources cfg cfg') {w : World} {p q : Path} (hr : Spec.Reads w cfg' p q) :
    Spec.Reads w cfg p q := by
  induction hr with
  | self => exact .self
  | imported _ hc hi ih => exact .imported ih hc ⟨hi.1, by rw [← fragmentPath_styles h]; exact hi.2⟩

theorem loads_styles (h : SameSources cfg cfg') {w : World} {p q : Path} {c : String} :
    Loads w cfg' p c q ↔ Loads w cfg p c q := by
  have hi : ∀ f c il q, Imports cfg' f c il q ↔ Imports cfg f c il q := by
    intro f c il q; unfold Imports; rw [fragmentPath_styles h]
  constructor
  · intro hl
    induction hl with
    | direct a b => exact .direct ((hi _ _ _ _).1 a) b
    | trans a b _ ih => exact .trans ((hi _ _ _ _).1 a) b ih
  · intro hl
    induction hl with
    | direct a b => exact .direct ((hi _ _ _ _).2 a) b
    | trans a b _ ih => exact .trans ((hi _ _ _ _).2 a) b ih

theorem hashProof_styles (h : SameSources cfg cfg') {w : World} {p : Path} (hh : HashProof ext schema w cfg p) :
    HashProof ext schema w cfg' p := by
  have hf : ∀ c f, ImportedFragment ext w cfg' p c f ↔ ImportedFragment ext w cfg p c f := by
    intro c f; unfold ImportedFragment; simp only [loads_styles h]
  intro c d hc hd
  obtain ⟨a, b, v⟩ := hh c d hc hd
  refine ⟨fun f f' h1 h2 => a f f' ((hf c f).1 h1) ((hf c f').1 h2), fun frags hs => b frags ?_, v⟩
  intro n f
  rw [hs n f, hf]

end

section
variable {ext : Ext} {cfg cfg' : CompileConfig} {schema : Schema} {w w₁ w₂ : World} {root : Entry} {rootPath : Path}
  {ω₁ ω₂ : Path → Hash} {ω₁' ω₂' : Hash} {fuel₁ fuel₂ threads₁ threads₂ : Nat} {s₁ s₂ : PoolSt World}
  {ms₁ ms₂ : List Msg}

/-- **C142, globals.** Of all the settings only the spelling of custom scalars has an influence on the contents of the
globals file: under all settings it cannot be generated for the same reason, or the same types are printed, with
custom scalars written as set. -/
theorem C142_globals (ω : Hash) (fuel : Nat) (schema : Schema) (used : List String) :
    (∀ cfg : TsConfig, compileGlobals ω fuel cfg schema used = none) ∨
    (∃ e, ∀ cfg : TsConfig, compileGlobals ω fuel cfg schema used = some (.error e)) ∨
    ∃ ds, ∀ cfg : TsConfig, compileGlobals ω fuel cfg schema used = some (.ok (globalsPrinted cfg ds)) :=
  compileGlobals_spelled ω fuel schema used

theorem poolCompile_styles (h : SameSources cfg cfg') (ω : Path → Hash) (fuel : Nat) (w : World) (p : Path) :
    (poolCompile ω fuel ext cfg' schema w p).1 = (poolCompile ω fuel ext cfg schema w p).1 := by
  have hc := C142_only_style (ω := ω p) (fuel := fuel) (ext := ext) (schema := schema) h w p
  unfold poolCompile
  revert hc
  rcases compileFile (ω p) fuel ext cfg schema w p with _ | _ | ⟨a, v⟩ <;>
    rcases compileFile (ω p) fuel ext cfg' schema w p with _ | _ | ⟨b, v'⟩ <;> intro hc <;>
    first | exact False.elim hc | rfl | skip
  obtain ⟨_, hc⟩ := hc
  rcases a with a | a <;> rcases b with b | b <;> first | exact False.elim hc | skip
  · have hc : b = a := hc
    subst hc; rfl
  · obtain ⟨hc, _⟩ := hc
    subst hc; rfl

/-- Under other styles the same globals are used. -/
theorem used_styles (hcon : Consistent schema) (hs : SameSources cfg cfg')
    (hr : NoOutputRead w cfg root) (hd : OutputsDistinct w root) (hg : GlobalsApart w cfg rootPath root)
    (hg' : GlobalsApart w cfg' rootPath root) (hh : ∀ p, FoundIn root p → HashProof ext schema w cfg p)
    (R₁ : RunsTo ω₁ ω₁' fuel₁ ext cfg schema rootPath root threads₁ w s₁ ms₁ w₁)
    (R₂ : RunsTo ω₂ ω₂' fuel₂ ext cfg' schema rootPath root threads₂ w s₂ ms₂ w₂) :
    (∀ p, FoundIn root p →
      MsgsSim (messagesOfFile ω₁ fuel₁ ext cfg schema w p) (messagesOfFile ω₂ fuel₂ ext cfg' schema w p) ∧
      (poolCompile ω₂ fuel₂ ext cfg' schema w p).2 = (poolCompile ω₁ fuel₁ ext cfg' schema w p).2) ∧
    ∀ g, UsedGlobal ω₁ fuel₁ ext cfg schema w root g ↔ UsedGlobal ω₂ fuel₂ ext cfg' schema w root g := by
  have hr' : NoOutputRead w cfg' root := fun p q hp hq => hr p q hp (reads_styles hs hq)
  have A := after_run hr hd hg R₁
  have B := after_run hr' hd hg' R₂
  have key := fun p (hp : FoundIn root p) => file_sim hcon (hashProof_styles hs (hh p hp))
    (ω₁ := ω₁) (fuel₁ := fuel₁)
    (by obtain ⟨gs, ms, e⟩ := A.returned p hp; exact ⟨gs, ms, by rw [poolCompile_styles hs, e]⟩) (B.returned p hp)
  have hm : ∀ p, messagesOfFile ω₁ fuel₁ ext cfg' schema w p = messagesOfFile ω₁ fuel₁ ext cfg schema w p := by
    intro p; unfold messagesOfFile; rw [poolCompile_styles hs]
  have hgl : ∀ p, globalsOfFile ω₁ fuel₁ ext cfg' schema w p = globalsOfFile ω₁ fuel₁ ext cfg schema w p := by
    intro p; unfold globalsOfFile; rw [poolCompile_styles hs]
  refine ⟨fun p hp => ⟨by rw [← hm]; exact (key p hp).1, (key p hp).2.2.symm⟩, fun g => ?_⟩
  rw [← usedGlobal_iff A, ← usedGlobal_iff B, A.used, B.used]
  refine exists_congr fun p => and_congr_right fun hp => ?_
  rw [← (key p hp).2.1, hgl]

/-- **C142, whole runs.** If a complete run ends with status 0, then so does every complete run over the same
directory with other styles, provided the globals file can be written where the settings put it; every document has
the same output in both, printed in the one and in the other way, the same globals are used, and if there are any, the
globals files have the same types.  The hash orders, numbers of threads and schedules of the two runs may be any. -/
theorem C142_runs (paint : Paint) (hcon : Consistent schema) (hk : InputFieldsOnce schema) (hs : SameSources cfg cfg')
    (hr : NoOutputRead w cfg root) (hd : OutputsDistinct w root) (hg : GlobalsApart w cfg rootPath root)
    (hg' : GlobalsApart w cfg' rootPath root) (hh : ∀ p, FoundIn root p → HashProof ext schema w cfg p)
    (hw : w.writeErr (globalsId w cfg' rootPath) = none)
    (R₁ : RunsTo ω₁ ω₁' fuel₁ ext cfg schema rootPath root threads₁ w s₁ ms₁ w₁)
    (R₂ : RunsTo ω₂ ω₂' fuel₂ ext cfg' schema rootPath root threads₂ w s₂ ms₂ w₂)
    (h0 : (printExitInfo paint ms₁).code = 0) :
    (printExitInfo paint ms₂).code = 0 ∧
    (∀ p, FoundIn root p → ∃ f : TsFile,
      w₁.disk (w.resolve (outputPath p)) = .ok (f.printed cfg.toTsConfig) ∧
      w₂.disk (w.resolve (outputPath p)) = .ok (f.printed cfg'.toTsConfig)) ∧
    (∀ g, UsedGlobal ω₁ fuel₁ ext cfg schema w root g ↔ UsedGlobal ω₂ fuel₂ ext cfg' schema w root g) ∧
    ((∃ g, UsedGlobal ω₁ fuel₁ ext cfg schema w root g) → ∃ ds : List GlobalDecl,
      w₁.disk (globalsId w cfg rootPath) = .ok (globalsPrinted cfg.toTsConfig ds) ∧
      w₂.disk (globalsId w cfg' rootPath) = .ok (globalsPrinted cfg'.toTsConfig ds)) := by
  have hr' : NoOutputRead w cfg' root := fun p q hp hq => hr p q hp (reads_styles hs hq)
  have A := after_run hr hd hg R₁
  have B := after_run hr' hd hg' R₂
  obtain ⟨hfile, hused⟩ := used_styles hcon hs hr hd hg hg' hh R₁ R₂
  have F := (C74_exit_status hr hd hg R₁ paint).1 h0
  refine ⟨(C74_exit_status hr' hd hg' R₂ paint).2 ⟨F.directories, fun p hp => ?_, fun used hu => ?_, fun _ => hw⟩,
    fun p hp => ?_, hused, fun hex => ?_⟩
  · obtain ⟨gs', ms', e⟩ := B.returned p hp
    obtain ⟨ms, gs, hc, hl⟩ := F.files p hp
    refine ⟨ms', gs', compilesWith_of_done e, fun m hm => ?_⟩
    have hsim := (hfile p hp).1.levels
    unfold messagesOfFile at hsim
    rw [e, compilesWith_iff.1 hc] at hsim
    simp only at hsim
    obtain ⟨m₀, h1, h2⟩ := List.mem_map.1 (hsim.mem_iff.2 (List.mem_map_of_mem (f := Msg.level) hm))
    rw [← h2]
    exact hl m₀ h1
  · exact F.globals used fun g => by rw [hu g, hused g]
  · obtain ⟨ms, gs, hc, hl⟩ := F.files p hp
    have hwr : w.writeErr (w.resolve (outputPath p)) = none := clean_writable hc hl
    have hput : ∀ t, (w.write (outputPath p) t).2.disk (w.resolve (outputPath p)) = .ok t := by
      intro t; unfold World.write; rw [hwr]; simp only [World.put, if_true]
    rcases generateFile_styles (ω := ω₁ p) (fuel := fuel₁) (ext := ext) (schema := schema) hs w p with
      ⟨_, hno⟩ | ⟨msgs, c, c', text, d, op, e1, e2, _, k1, k2, hrd, hpa, frags, ws, hop⟩
    · exfalso
      obtain ⟨r, hcf, ⟨rep, hrep, _⟩ | ⟨he, _⟩⟩ := hc
      · unfold compileFile at hcf
        cases hgen : generateFile (ω₁ p) fuel₁ ext cfg schema w p with
        | none => simp [hgen] at hcf
        | some x =>
          rcases x with _ | _ | y
          · simp [hgen] at hcf
          · simp only [hgen, Option.some.injEq, PanicOr.done.injEq] at hcf
            subst hcf
            simp at hrep
          · exact hno y hgen
      · obtain ⟨m, hm, hlev⟩ := failed_has_error hcf he
        exact hlev (hl m hm)
    · obtain ⟨P, hP, _⟩ := (C07_compiles_iff_valid (ω₁ p) fuel₁ cfg.showDeprecationWarnings hcon d _ ws hop).1 ⟨op, rfl⟩
      obtain ⟨_, _, _, hf⟩ := compiled_tree hcon hP hop
      have hnd := compile_finish_variables hf (hh p hp text d hrd hpa).2.2
      refine ⟨plainFile (ω₁ p) cfg.toTsConfig schema op, ?_, ?_⟩
      · rw [A.outputs p hp, poolCompile_world, e1]
        simp only
        rw [hput, k1]
      · rw [B.outputs p hp, (hfile p hp).2, poolCompile_world, e2]
        simp only
        rw [hput, k2, plainFile_once (ω₁ p) cfg.toTsConfig cfg'.toTsConfig schema op
          (plainFile_nodup _ _ schema op hnd)]
  · have hput : ∀ (c : CompileConfig) t, w.writeErr (globalsId w c rootPath) = none →
        (w.write (globalsPath c rootPath) t).2.disk (globalsId w c rootPath) = .ok t := by
      intro c t h; unfold World.write globalsId at *; rw [h]; simp only [World.put, if_true]
    have hu : ∀ n, n ∈ s₁.aggregate.2 ↔ n ∈ s₂.aggregate.2 := fun n => by
      rw [usedGlobal_iff A, usedGlobal_iff B, hused]
    have hall : ∀ n, GlobalName schema s₁.aggregate.2 n → ValidGlobal schema n :=
      F.globals _ (fun g => usedGlobal_iff A g)
    rcases A.globals with ⟨e1, _⟩ | ⟨n1, r, c1, q1⟩
    · obtain ⟨g, hgu⟩ := hex
      rw [← usedGlobal_iff A, e1] at hgu
      cases hgu
    rcases B.globals with ⟨e2, _⟩ | ⟨n2, r', c2, q2⟩
    · obtain ⟨g, hgu⟩ := hex
      rw [hused, ← usedGlobal_iff B, e2] at hgu
      cases hgu
    obtain ⟨t, rfl⟩ := (C32_globals_ok_iff ω₁' fuel₁ cfg.toTsConfig schema _ _ c1).2 hall
    rcases compileGlobals_spelled ω₁' fuel₁ schema s₁.aggregate.2 with hn | ⟨e, hn⟩ | ⟨ds, hn⟩
    · rw [hn] at c1; cases c1
    · rw [hn] at c1; cases c1
    have h2 := compileGlobals_det hk ω₁' ω₂' fuel₁ fuel₂ cfg'.toTsConfig hu (hn _) c2
    subst h2
    rw [hn] at c1
    injection c1 with c1
    injection c1 with c1
    subst c1
    refine ⟨ds, ?_, ?_⟩
    · rcases q1 with ⟨e, h, _⟩ | ⟨text, h, d1, _⟩
      · cases h
      · injection h with h
        subst h
        rw [d1, hput cfg _ (F.written hex)]
    · rcases q2 with ⟨e, h, _⟩ | ⟨text, h, d2, _⟩
      · cases h
      · injection h with h
        subst h
        rw [d2, hput cfg' _ hw]

end

/-! ### An example -/

/-- The settings of the demo project, but all that may differ does. -/
def styledCfg : CompileConfig :=
  { Demo.cfg with
    bottomTypeConfig := .realNameWithPrefix "Gql"
    useReadonlyTypes := false
    globalTypesModuleName := "types"
    typedGraphqlDocumentnodeModuleName := "documents" }

/-- A run with them. -/
def styledRun : PoolSt World :=
  (PoolSt.init Demo.runWorld 1 Demo.fileTree).run
    (poolCompile (fun _ => .reversed) 9 Demo.runExt styledCfg Demo.respSchema) 1 Demo.fileSched

/-- Its end. -/
def styledEnd : Option (List Msg × World) :=
  finishWork .inOrder 9 styledCfg Demo.respSchema styledRun.world ⟨true, ["r"]⟩ styledRun.aggregate

theorem demo_sameSources : SameSources Demo.cfg styledCfg := ⟨rfl, rfl, rfl⟩

theorem other_apart : GlobalsApart Demo.runWorld styledCfg ⟨true, ["r"]⟩ Demo.fileTree := by
  have og : globalsId Demo.runWorld styledCfg ⟨true, ["r"]⟩ = "/r/types.ts" := by decide +kernel
  have of : Demo.runWorld.resolve (outputPath Demo.fPath) = "/r/f.graphql.d.ts" := by decide +kernel
  have oq : Demo.runWorld.resolve (outputPath Demo.qPath) = "/r/q.graphql.d.ts" := by decide +kernel
  have rf : Demo.runWorld.resolve Demo.fPath = "/r/f.graphql" := by decide +kernel
  have rq : Demo.runWorld.resolve Demo.qPath = "/r/q.graphql" := by decide +kernel
  constructor
  · rintro ⟨p, hp, he⟩
    rw [og] at he
    rcases demo_found hp with rfl | rfl
    · rw [oq] at he; exact absurd he (by decide)
    · rw [of] at he; exact absurd he (by decide)
  · intro p q hp hq
    rw [og]
    rcases full_reads (demo_found hp) (reads_styles demo_sameSources hq) with rfl | rfl
    · rw [rq]; decide
    · rw [rf]; decide

/-- The demo project, whose query has variables, an enum and a custom scalar, with two styles: both runs end with
status 0, the output of the query is one file, printed in two ways that differ, and the globals files have the same
types. -/
theorem C142_demo : ∃ s₁ s₂ ms₁ ms₂ w₁ w₂, ∃ f : TsFile, ∃ ds : List GlobalDecl,
    RunsTo (fun _ => .inOrder) .reversed 9 Demo.runExt Demo.cfg Demo.respSchema ⟨true, ["r"]⟩ Demo.fileTree 1
      Demo.runWorld s₁ ms₁ w₁ ∧ (printExitInfo .plain ms₁).code = 0 ∧
    RunsTo (fun _ => .reversed) .inOrder 9 Demo.runExt styledCfg Demo.respSchema ⟨true, ["r"]⟩ Demo.fileTree 1
      Demo.runWorld s₂ ms₂ w₂ ∧ (printExitInfo .plain ms₂).code = 0 ∧
    w₁.disk "/r/q.graphql.d.ts" = .ok (f.printed Demo.cfg.toTsConfig) ∧
    w₂.disk "/r/q.graphql.d.ts" = .ok (f.printed styledCfg.toTsConfig) ∧
    f.printed Demo.cfg.toTsConfig ≠ f.printed styledCfg.toTsConfig ∧
    w₁.disk "/r/globals.ts" = .ok (globalsPrinted Demo.cfg.toTsConfig ds) ∧
    w₂.disk "/r/types.ts" = .ok (globalsPrinted styledCfg.toTsConfig ds) := by
  obtain ⟨hno, hd, hga⟩ := C114_paths_apart C114_demo.1
  have a1 : (endsWith fullRun fullEnd).isSome = true := by decide +kernel
  have a2 : (leaves styledRun styledEnd "/r/types.ts").isSome = true := by decide +kernel
  have a3 : leaves fullRun fullEnd "/r/q.graphql.d.ts" ≠ leaves styledRun styledEnd "/r/q.graphql.d.ts" := by
    decide +kernel
  obtain ⟨t₁, b1⟩ := Option.isSome_iff_exists.1 a1
  obtain ⟨ms₁, w₁, e₁, h1, h2, h5, d1⟩ := endsWith_some b1
  obtain ⟨t₂, b2⟩ := Option.isSome_iff_exists.1 a2
  obtain ⟨ms₂, w₂, e₂, h3, h4, _⟩ := leaves_some b2
  have R₁ : RunsTo (fun _ => .inOrder) .reversed 9 Demo.runExt Demo.cfg Demo.respSchema ⟨true, ["r"]⟩
      Demo.fileTree 1 Demo.runWorld fullRun ms₁ w₁ := ⟨⟨_, rfl⟩, h1, h2, e₁⟩
  have R₂ : RunsTo (fun _ => .reversed) .inOrder 9 Demo.runExt styledCfg Demo.respSchema ⟨true, ["r"]⟩
      Demo.fileTree 1 Demo.runWorld styledRun ms₂ w₂ := ⟨⟨_, rfl⟩, h3, h4, e₂⟩
  obtain ⟨k1, k2, _, k3⟩ := C142_runs .plain (loaded_consistent resp_valid resp_loads)
    (ofJson_inputFieldsOnce resp_loads) demo_sameSources hno hd hga other_apart (fun p hp => run_hashProof hp) rfl
    R₁ R₂ h5
  have hq : FoundIn Demo.fileTree Demo.qPath := (mem_filesOf _ _).1 (by decide +kernel)
  have oq : Demo.runWorld.resolve (outputPath Demo.qPath) = "/r/q.graphql.d.ts" := by decide +kernel
  obtain ⟨f, f1, f2⟩ := k2 _ hq
  rw [oq] at f1 f2
  have a4 : (fullRun.aggregate.2).isEmpty = false := by decide +kernel
  have hg : ∃ g, UsedGlobal (fun _ => .inOrder) 9 Demo.runExt Demo.cfg Demo.respSchema Demo.runWorld Demo.fileTree g := by
    obtain ⟨g, hg⟩ := List.exists_mem_of_ne_nil fullRun.aggregate.2 (fun e => by rw [e] at a4; cases a4)
    exact ⟨g, (usedGlobal_iff (after_run hno hd hga R₁) g).1 hg⟩
  have og : globalsId Demo.runWorld Demo.cfg ⟨true, ["r"]⟩ = "/r/globals.ts" := by decide +kernel
  have og' : globalsId Demo.runWorld styledCfg ⟨true, ["r"]⟩ = "/r/types.ts" := by decide +kernel
  obtain ⟨ds, g1, g2⟩ := k3 hg
  rw [og] at g1
  rw [og'] at g2
  refine ⟨_, _, ms₁, ms₂, w₁, w₂, f, ds, R₁, h5, R₂, k1, f1, f2, fun he => a3 ?_, g1, g2⟩
  rw [he] at f1
  unfold leaves
  simp only [e₁, e₂, h1, h2, h3, h4, f1, f2]

end Qlc
