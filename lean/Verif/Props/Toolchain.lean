import Verif.Props.Args
import Verif.Props.Npm
import Verif.Props.Options
import Verif.Props.Startup
import Verif.Props.Exact
/-
C94: from the server to the types.  A schema is downloaded, qlc is started with a command line, and ends with
status 0.
-/
set_option autoImplicit false

namespace Qlc
open Spec

section
variable {ω : Path → Hash} {ω' : Hash} {fuel : Nat} {ext : Ext} {colours : Paint} {cpus : Nat}
  {configs schemas : Path → JsonFile} {tree : Path → Entry} {w : World} {words : List String}
  {ss : List Setting} {f : Finished}

theorem fromCli_configIs {cpus : Nat} {read : Path → ConfigRead} {a : CliArgs} {r : RuntimeConfig}
    (h : RuntimeConfig.fromCli cpus read a = .ok r) : ∃ c, ConfigIs read a c := by
  have e : Path.ofString ".qlcrc.json" = ⟨false, [".qlcrc.json"]⟩ := by decide
  unfold RuntimeConfig.fromCli ConfigFile.fromFileParse at h
  rw [e] at h
  cases hr : read (a.configFile.getD ⟨false, [".qlcrc.json"]⟩) with
  | parsed c => exact ⟨c, .inl hr⟩
  | serdeError x => simp [hr] at h
  | ioError x => simp [hr] at h
  | notFound x =>
    cases hf : a.configFile with
    | some p =>
      have hr' : read p = .notFound x := by rw [hf] at hr; exact hr
      rw [hf] at h
      simp [hr'] at h
    | none => rw [hf] at hr; exact ⟨{}, .inr ⟨hf, rfl, x, hr⟩⟩

theorem holdsModule_unique {w : World} {id : String} {m m' : List TsStmt} (h : HoldsModule w id m)
    (h' : HoldsModule w id m') : m = m' := by
  obtain ⟨t, h1, h2⟩ := h
  obtain ⟨t', h1', h2'⟩ := h'
  rw [h1] at h1'
  cases Except.ok.inj h1'
  rw [h2] at h2'
  exact Option.some.inj h2'

/-- **C94.** The schema file holds what a server answered to the query of the download script; qlc is started
with a command line that names this file and one thread, and ends with status 0.  Then the settings are those of
the command line and of the configuration file, and: every file of the tree has its output file, whose data type
admits every response of the server to the document of this file, and exactly these if the document is exactly
fit; and whose variables type admits exactly the objects of variables that the server takes. -/
theorem C94_from_server_to_types (srv : Server) (hsh : srv.Shallow) (path : Path) (err : String)
    (hfile : schemas path = .tree (srv.answer introspectionQuery) err)
    (hline : CommandLine ss words) (hpath : .schemaPath path ∈ ss) (hone : .numThreads 1 ∈ ss)
    (run : Invokes ω ω' fuel ext colours cpus (fun p => (configs p).asConfig) (fun p => (schemas p).asSchema)
      tree w words (.ran f))
    (h0 : f.exit.code = 0) :
    ∃ a c schema, Means ss a ∧ ConfigIs (fun p => (configs p).asConfig) a c ∧
      Schema.ofJson (srv.document (fun _ => none)) = .ok schema ∧
      (NoOutputRead w (compilationMeant a c) (tree (rootMeant a)) → OutputsDistinct w (tree (rootMeant a)) →
        GlobalsApart w (compilationMeant a c) (rootMeant a) (tree (rootMeant a)) →
        SchemaFit (settingsMeant a c) (srv.document (fun _ => none)) →
        ∀ scalars env : String → JVal → Prop,
          ScalarEnv (settingsMeant a c) (srv.document (fun _ => none)) scalars env →
        ∃ g : List TsStmt,
          ((∃ n, UsedGlobal ω fuel ext (compilationMeant a c) schema w (tree (rootMeant a)) n) →
            HoldsModule f.world (globalsId w (compilationMeant a c) (rootMeant a)) g) ∧
          ((¬ ∃ n, UsedGlobal ω fuel ext (compilationMeant a c) schema w (tree (rootMeant a)) n) → g = []) ∧
          ∀ p, FoundIn (tree (rootMeant a)) p → ∃ contents d frags,
            w.read p = .ok contents ∧ ext.parse contents = .ok [d] ∧
            ((∀ f f', ImportedFragment ext w (compilationMeant a c) p contents f →
                ImportedFragment ext w (compilationMeant a c) p contents f' → f.name = f'.name → f = f') →
              InScope ext w (compilationMeant a c) p contents frags) ∧
            (ImportsInTree w (compilationMeant a c) (tree (rootMeant a)) p contents → ∀ applies P,
              DocumentFit (settingsMeant a c) (srv.document (fun _ => none)) schema frags d applies P →
              ∃ m, HoldsModule f.world (w.resolve (outputPath p)) m ∧
                (∀ T ∈ objectTypes (srv.document (fun _ => none)) P, ∀ v,
                  (∀ n, AnswersTo (srv.document (fun _ => none)) frags applies scalars n T [itemsOf d] v) →
                  ∀ n, ModuleAdmits m (linked g env) n (dataName d) v) ∧
                (varsOf d ≠ [] → ∀ v, VariablesOf (srv.document (fun _ => none)) scalars (varsOf d) v →
                  ∀ n, ModuleAdmits m (linked g env) n (dataName d ++ "Variables") v) ∧
                (ExactFit (settingsMeant a c) (srv.document (fun _ => none)) schema frags d P scalars env →
                  (∀ v, (∀ n, ModuleAdmits m (linked g env) n (dataName d) v) →
                    ∃ T ∈ objectTypes (srv.document (fun _ => none)) P,
                      ∀ n, AnswersTo (srv.document (fun _ => none)) frags applies scalars n T [itemsOf d] v) ∧
                  (varsOf d ≠ [] → ∀ v, (∀ n, ModuleAdmits m (linked g env) n (dataName d ++ "Variables") v) →
                    VariablesOf (srv.document (fun _ => none)) scalars (varsOf d) v)))) := by
  cases run with
  | ran a f ha hr =>
  obtain ⟨_, _, hm⟩ := (line_parse hline a).1 ha
  have hdoc := C87_downloaded_document srv hsh
  cases hc : RuntimeConfig.fromCli cpus (fun p => (configs p).asConfig) a with
  | error m =>
    have := (C72_bad_config_stops hr m hc).1
    rw [this] at h0
    simp at h0
  | ok r =>
  obtain ⟨c, hcfg⟩ := fromCli_configIs hc
  obtain ⟨sp, hmerge⟩ := fromCli_merge hcfg hc
  have hcomp : CompileConfig.ofRuntime r = compilationMeant a c := by
    rw [hmerge, ofRuntime_meant]; rfl
  have hroot : r.rootDir = rootMeant a := by
    have := congrArg CompileConfig.rootDir hcomp
    exact this
  have hsp : r.schemaPath = path := by
    have := (hm.schemaPath path).2 hpath
    rw [hmerge]; simp [RuntimeConfig.merge, this]
  have h1 : r.numberThreads = 1 := by
    have := (hm.numThreads 1).2 hone
    rw [hmerge]; simp [RuntimeConfig.merge, this]
  have hread : (schemas path).asSchema = .parsed (srv.document (fun _ => none)) := by
    rw [hfile]; simp only [JsonFile.asSchema, hdoc]
  cases hs : Schema.ofJson (srv.document (fun _ => none)) with
  | error e =>
    obtain ⟨_, _, he, _⟩ := C72_bad_schema_stops hr r hc (by
      rw [hsp]; simp only [hread, SchemaUsable]
      rintro h
      obtain ⟨s, h⟩ := (C04_schema_loads_iff_well_described _).2 h
      rw [hs] at h; cases h)
    rw [he] at h0
    simp at h0
  | ok schema =>
  refine ⟨a, c, schema, hm, hcfg, rfl, ?_⟩
  intro hno hod hga S scalars env he
  have hps : parseSchema r.schemaPath (schemas r.schemaPath).asSchema = .ok schema := by
    rw [hsp, hread]; simp only [parseSchema, hs]
  rw [← hcomp] at hno hga ⊢
  rw [← hroot] at hno hod hga ⊢
  have hset : settingsMeant a c = (CompileConfig.ofRuntime r).toTsConfig := by rw [hcomp]; rfl
  rw [hset] at S he ⊢
  obtain ⟨⟨s, ms, R, hexit⟩, _⟩ := C74_one_thread hr hc h1 hps hno hod hga
  rw [hexit] at h0
  obtain ⟨g, g1, g2, hfiles⟩ := C89_successful_run hno hod hga R _ h0 hs S scalars env he
  obtain ⟨g', g1', g2', hfiles'⟩ := C92_successful_run hno hod hga R _ h0 hs S scalars env he
  have hgg : g' = g := by
    by_cases hu : ∃ n, UsedGlobal ω fuel ext (.ofRuntime r) schema w (tree r.rootDir) n
    · exact holdsModule_unique (g1' hu) (g1 hu)
    · rw [g2 hu, g2' hu]
  subst hgg
  refine ⟨_, g1, g2, ?_⟩
  intro p hp
  obtain ⟨contents, d, st, op, ws, co, G, hdisk, hfit⟩ := hfiles p hp
  obtain ⟨contents', d', st', op', ws', co', G', hdisk', hfit'⟩ := hfiles' p hp
  have e1 := G.readable
  rw [G'.readable] at e1
  cases Except.ok.inj e1
  have e2 := G.parses
  rw [G'.parses] at e2
  obtain rfl := (List.cons.inj (Except.ok.inj e2)).1
  have e3 := G.scanned
  rw [G'.scanned] at e3
  cases e3
  refine ⟨_, _, _, G.readable, G.parses, fun hu => inScope_foreign ext _ w p (ω p) G.scanned hu, ?_⟩
  intro hin applies P D
  obtain ⟨m, hm1, m1, m2⟩ := hfit hin applies P D
  refine ⟨m, hm1, m1, m2, ?_⟩
  intro E
  obtain ⟨m', hm1', m1', m2'⟩ := hfit' hin applies P D E
  obtain rfl := holdsModule_unique hm1' hm1
  exact ⟨fun v hv => (m1' v).1 hv, fun hne v hv => (m2' hne v).1 hv⟩

end

/-! ### A concrete case -/

namespace Demo

/-- `query Q { new color }` -/
def toolQuery : Definition :=
  .operation .query ⟨1, 1⟩ (some "Q") [] []
    [.field ⟨1, 11⟩ none "new" [] [] [], .field ⟨1, 15⟩ none "color" [] [] []]

def toolWorld : World where
  resolve := Path.display
  disk := fun id => if id = "/r/q.graphql" then .ok "query Q" else .error "missing"
  writeErr := fun _ => none

/-- A stand-in for the parser. -/
def toolExt : Ext where
  parse := fun c => if c = "query Q" then .ok [toolQuery] else .error "syntax error"
  dist := Demo.ext.dist

/-- The tree has one file. -/
def toolTree : Entry := .dir ⟨true, ["r"]⟩ [.file qPath]

/-- No configuration file. -/
def toolConfigs : Path → JsonFile := fun _ => .notFound "no such file"

/-- The downloaded schema. -/
def toolSchemas : Path → JsonFile := fun p =>
  if p = ⟨true, ["s.json"]⟩ then .tree (Demo.server.answer introspectionQuery) "" else .notFound "no such file"

def toolDoc : JSchema := Demo.server.document (fun _ => none)

def toolWords : List String := ["/r", "-s", "/s.json", "--num-threads=1"]

def toolSettings : List Setting := [.rootDir ⟨true, ["r"]⟩, .schemaPath ⟨true, ["s.json"]⟩, .numThreads 1]

def toolArgs : CliArgs := { rootDir := some ⟨true, ["r"]⟩, schemaPath := some ⟨true, ["s.json"]⟩, numThreads := some 1 }

def toolSchema : Schema :=
  match Schema.ofJson toolDoc with
  | .ok s => s
  | .error _ => []

def toolCfg : CompileConfig := compilationMeant toolArgs {}

end Demo

theorem tool_loads : Schema.ofJson Demo.toolDoc = .ok Demo.toolSchema := loads_of_check (by decide +kernel)

theorem tool_valid : ValidDoc Demo.toolDoc := validDocB_sound (by decide +kernel)

theorem tool_schema : SchemaFit Demo.toolCfg.toTsConfig Demo.toolDoc :=
  have h : ValidInputs Demo.toolDoc ∧ OneListLevel Demo.toolDoc := validInputsB_sound (by decide +kernel)
  ⟨tool_valid, h.1, noBadListB_sound (by decide +kernel), h.2, writableB_sound (by decide +kernel),
    globalsWritableB_sound (by decide +kernel), scalarsApartB_sound (by decide +kernel)⟩

theorem tool_checks : respChecks Demo.toolCfg.toTsConfig Demo.toolSchema [] Demo.toolQuery = true := by
  decide +kernel

theorem tool_found {p : Path} (h : FoundIn Demo.toolTree p) : p = Demo.qPath := by
  have : p ∈ filesOf Demo.toolTree := (mem_filesOf _ p).2 h
  have e : filesOf Demo.toolTree = [Demo.qPath] := by decide +kernel
  rw [e] at this
  simpa using this

theorem tool_imports {cfg : CompileConfig} {p : Path} {il : ImportLine} {r : Path} :
    ¬ Imports cfg p "query Q" il r := by
  rintro ⟨h1, _⟩
  have : (importsOf "query Q").length = 0 := by decide +kernel
  rw [List.length_eq_zero_iff.1 this] at h1
  simp at h1

theorem tool_reads {q : Path} (h : Spec.Reads Demo.toolWorld Demo.toolCfg Demo.qPath q) : q = Demo.qPath := by
  have rq : Demo.toolWorld.read Demo.qPath = .ok "query Q" := rfl
  induction h with
  | self => rfl
  | imported _ hr hi ih =>
    subst ih
    rw [rq] at hr
    cases Except.ok.inj hr
    exact absurd hi tool_imports

theorem tool_line : CommandLine Demo.toolSettings Demo.toolWords := by
  have e1 : (⟨true, ["r"]⟩ : Path) = Path.ofString "/r" := by decide
  have e2 : (⟨true, ["s.json"]⟩ : Path) = Path.ofString "/s.json" := by decide
  unfold Demo.toolSettings
  rw [e1, e2]
  refine .plain (.cons (ws := ["/r"]) (.directory (by decide) ?_)
    (.cons (ws := ["-s", "/s.json"]) (.shortNext (.schemaPath (by decide)) .schemaPath ?_)
      (.cons (ws := ["--num-threads=1"]) (.equals (w := "1") (.numThreads ?_)) .nil)))
  · rintro ⟨c, cs, h⟩
    simp at h
  · rintro ⟨c, cs, h⟩
    simp at h
  · exact ⟨['1'], .inl rfl, by simp, by decide, rfl, by decide⟩

/-- The pool at the end of the run. -/
def toolRun : PoolSt World :=
  (PoolSt.init Demo.toolWorld 1 Demo.toolTree).run
    (poolCompile (fun _ => .inOrder) 9 Demo.toolExt Demo.toolCfg Demo.toolSchema) 1 Demo.fileSched

/-- The end of the run. -/
def toolEnd : Option (List Msg × World) :=
  finishWork .reversed 9 Demo.toolCfg Demo.toolSchema toolRun.world ⟨true, ["r"]⟩ toolRun.aggregate

/-- The run ends, with used globals, and with status 0. -/
def toolOk : Bool :=
  toolRun.finished && (pending toolRun).isEmpty && !toolRun.aggregate.2.isEmpty && match toolEnd with
    | some (ms, _) => (printExitInfo .plain ms).code == 0
    | none => false

/-- The runtime configuration. -/
def toolRuntime : RuntimeConfig := RuntimeConfig.merge 16 Demo.toolArgs {}

theorem tool_runtime : RuntimeConfig.fromCli 16 (fun p => (Demo.toolConfigs p).asConfig) Demo.toolArgs =
    .ok toolRuntime := rfl

theorem tool_shallow : Demo.server.Shallow := C87_no_warning_demo.2.1

theorem tool_parse : parseSchema toolRuntime.schemaPath (Demo.toolSchemas toolRuntime.schemaPath).asSchema =
    .ok Demo.toolSchema := by
  have e : toolRuntime.schemaPath = ⟨true, ["s.json"]⟩ := rfl
  have h := C87_downloaded_document Demo.server tool_shallow
  rw [e]
  simp only [Demo.toolSchemas, if_true, JsonFile.asSchema, h, parseSchema]
  have := tool_loads
  unfold Demo.toolDoc at this
  rw [this]

theorem tool_cfg : CompileConfig.ofRuntime toolRuntime = Demo.toolCfg := by
  have := ofRuntime_meant (cpus := 16) (a := Demo.toolArgs) (c := {}) none
  exact this

theorem tool_means : Means Demo.toolSettings Demo.toolArgs := by
  have h : parseArgs Demo.toolWords = .ok Demo.toolArgs := by rfl
  exact ((line_parse tool_line _).1 h).2.2

/-- An answer. -/
def toolValue : JVal := .obj [("new", .arr [.num "1", .num "2"]), ("color", .str "RED")]

theorem tool_document : DocumentFit Demo.toolCfg.toTsConfig Demo.toolDoc Demo.toolSchema [] Demo.toolQuery
    (fun d => d.isEmpty = true) "Query" := by
  obtain ⟨op, ws, c, h, hc, hd, hsame, _⟩ := respChecks_sound tool_checks
  have hfr : FragsValid Demo.toolSchema [] := by intro name fd h; simp [AMap.get?] at h
  have hone := (C21_listed_once_iff .inOrder 9 true (loaded_consistent tool_valid tool_loads)
    hfr Demo.toolQuery op ws "Query" rfl h).1 hd
  exact
    { notSubscription := rfl
      root := rfl
      oneType := hone
      lookAlikes := (C23_same_bodies_iff .inOrder 9 true (loaded_consistent tool_valid tool_loads)
        hfr Demo.toolQuery op ws "Query" rfl h hone).1 hsame
      unconditional := by unfold Unconditional; decide
      fragsApply := by intro name fd hg; simp [AMap.get?] at hg
      name := by decide
      keys := by decide
      fragmentKeys := by intro name fd hg; simp [AMap.get?] at hg
      variablesValid := validVarsB_sound (by decide +kernel)
      variableNames := by decide
      apart := by
        intro n hn
        rcases hn with hn | hn
        · have := outsideB_sound (q := fun n => !generatedB "Q" n && decide (n ≠ "QVariables"))
            (cfg := Demo.toolCfg.toTsConfig) (doc := Demo.toolDoc) (by decide +kernel) n hn
          rw [Bool.and_eq_true, decide_eq_true_eq, Bool.not_eq_true'] at this
          exact ⟨generatedB_sound this.1, this.2⟩
        · have : (Demo.toolDoc.types.map JType.name).all (fun n =>
              !decide (kindNamed Demo.toolDoc n = some "INPUT_OBJECT")) = true := by decide +kernel
          have := (List.all_eq_true.1 this) n (kindNamed_mem hn)
          simp [hn] at this }

theorem tool_scalar {n : String} (hn : kindNamed Demo.toolDoc n = some "SCALAR") : n = "Int" := by
  have : (Demo.toolDoc.types.map JType.name).all (fun n =>
      !decide (kindNamed Demo.toolDoc n = some "SCALAR") || decide (n = "Int")) = true := by decide +kernel
  have := (List.all_eq_true.1 this) n (kindNamed_mem hn)
  simpa [hn] using this

theorem tool_env : ScalarEnv Demo.toolCfg.toTsConfig Demo.toolDoc stringScalars tightEnv where
  string := fun s => ⟨s, rfl⟩
  number := fun s => ⟨s, rfl⟩
  boolean := fun b => ⟨b, rfl⟩
  any := fun _ => trivial
  custom := fun _ _ _ _ => trivial

theorem tool_exact : ExactFit Demo.toolCfg.toTsConfig Demo.toolDoc Demo.toolSchema [] Demo.toolQuery "Query"
    stringScalars tightEnv := by
  obtain ⟨op, ws, c, h, hc, hd, hsame, htn, _⟩ := respChecks_sound tool_checks
  have hfr : FragsValid Demo.toolSchema [] := by intro name fd h; simp [AMap.get?] at h
  exact
    { noNarrowing := noNarrowingB_sound (by decide +kernel)
      oneTypename := key_of_oneTypename tool_valid tool_loads
        ⟨C10_generated_tree .inOrder 9 true (loaded_consistent tool_valid tool_loads) hfr
          Demo.toolQuery op ws "Query" rfl h, hd⟩ htn
      tight := by
        intro n v hn h
        obtain rfl := tool_scalar hn
        exact h
      plainTypes := fun P T hT => by
        have := objectTypesB_sound (q := fun T => decide (Plain T)) (doc := Demo.toolDoc) (by decide +kernel) P T hT
        simpa using this
      plainKeys := by decide
      plainFragmentKeys := by intro name fd hg; simp [AMap.get?] at hg }

/-- A server is asked for its schema, and qlc is started with four words: all hypotheses are met, and the data
type in the output file admits exactly what the server may answer, for example `{"new": [1, 2], "color": "RED"}`,
when `Color` means what the globals file says. -/
theorem C94_demo : ∃ f g m,
    Invokes (fun _ => .inOrder) .reversed 9 Demo.toolExt .plain 16 (fun p => (Demo.toolConfigs p).asConfig)
      (fun p => (Demo.toolSchemas p).asSchema) (fun _ => Demo.toolTree) Demo.toolWorld
      ["/r", "-s", "/s.json", "--num-threads=1"] (.ran f) ∧
    f.exit.code = 0 ∧ HoldsModule f.world "/r/graphql-globals.ts" g ∧
    HoldsModule f.world "/r/q.graphql.d.ts" m ∧
    (∀ v, (∀ n, ModuleAdmits m (linked g tightEnv) n "Q" v) ↔ ∃ T ∈ objectTypes Demo.toolDoc "Query",
      ∀ n, AnswersTo Demo.toolDoc [] (fun d => d.isEmpty = true) stringScalars n T [itemsOf Demo.toolQuery] v) ∧
    ∀ n, ModuleAdmits m (linked g tightEnv) n "Q" toolValue := by
  have h : toolOk = true := by decide +kernel
  unfold toolOk at h
  simp only [Bool.and_eq_true] at h
  obtain ⟨⟨⟨h1, h2⟩, h3⟩, h4⟩ := h
  split at h4
  case h_2 => simp at h4
  rename_i ms w' e
  simp only [beq_iff_eq] at h4
  have run : Invokes (fun _ => .inOrder) .reversed 9 Demo.toolExt .plain 16
      (fun p => (Demo.toolConfigs p).asConfig) (fun p => (Demo.toolSchemas p).asSchema) (fun _ => Demo.toolTree)
      Demo.toolWorld Demo.toolWords (.ran ⟨printExitInfo .plain ms, w'⟩) := by
    refine .ran Demo.toolArgs _ rfl (.finished toolRuntime Demo.toolSchema Demo.fileSched ms w' toolRun
      tool_runtime tool_parse ?_ h1 ?_)
    · rw [tool_cfg]; rfl
    · rw [tool_cfg]; exact e
  have hout : ∀ {id}, IsOutput Demo.toolWorld Demo.toolTree id → id = "/r/q.graphql.d.ts" := by
    rintro id ⟨p, hp, rfl⟩
    obtain rfl := tool_found hp
    decide +kernel
  have hno : NoOutputRead Demo.toolWorld Demo.toolCfg Demo.toolTree := by
    intro p q hp hq ho
    obtain rfl := tool_found hp
    obtain rfl := tool_reads hq
    have := hout ho
    revert this; decide +kernel
  have hod : OutputsDistinct Demo.toolWorld Demo.toolTree := by
    intro p q hp hq _
    rw [tool_found hp, tool_found hq]
  have hga : GlobalsApart Demo.toolWorld Demo.toolCfg ⟨true, ["r"]⟩ Demo.toolTree := by
    refine ⟨fun ho => ?_, fun p q hp hq => ?_⟩
    · have := hout ho
      revert this; decide +kernel
    · obtain rfl := tool_found hp
      obtain rfl := tool_reads hq
      decide +kernel
  obtain ⟨a, c, schema, hm, hcf, hs, hall⟩ := C94_from_server_to_types (ss := Demo.toolSettings) Demo.server
    tool_shallow ⟨true, ["s.json"]⟩ "" (by simp [Demo.toolSchemas]) tool_line (by simp [Demo.toolSettings])
    (by simp [Demo.toolSettings]) run h4
  obtain rfl := means_unique hm tool_means
  have hc0 : c = {} := by
    rcases hcf with h | ⟨_, h, _⟩
    · simp [Demo.toolConfigs, JsonFile.asConfig] at h
    · exact h
  subst hc0
  have := tool_loads
  unfold Demo.toolDoc at this
  rw [this] at hs
  cases Except.ok.inj hs
  obtain ⟨g, g1, _, hfiles⟩ := hall hno hod hga tool_schema stringScalars tightEnv tool_env
  obtain ⟨contents, d, frags, hr, hp, hsc, hfit⟩ := hfiles Demo.qPath ((mem_filesOf _ _).1 (by decide +kernel))
  have rq : Demo.toolWorld.read Demo.qPath = .ok "query Q" := rfl
  rw [rq] at hr
  cases Except.ok.inj hr
  have pq : Demo.toolExt.parse "query Q" = .ok [Demo.toolQuery] := rfl
  rw [pq] at hp
  obtain rfl := (List.cons.inj (Except.ok.inj hp)).1
  have hload : ∀ q, ¬ Loads Demo.toolWorld Demo.toolCfg Demo.qPath "query Q" q := by
    intro q hl
    cases hl with
    | direct hi _ => exact tool_imports hi
    | trans hi _ _ => exact tool_imports hi
  have himp : ∀ f, ¬ ImportedFragment Demo.toolExt Demo.toolWorld Demo.toolCfg Demo.qPath "query Q" f :=
    fun f ⟨q, _, hl, _⟩ => hload q hl
  have hfr : frags = [] := by
    have hsc := hsc (fun f _ hf => absurd hf (himp f))
    cases frags with
    | nil => rfl
    | cons x rest =>
      have := (hsc x.1 x.2).1 (by obtain ⟨a, b⟩ := x; simp [AMap.get?])
      exact absurd this.2 (himp _)
  subst hfr
  obtain ⟨m, hm, m1, _, m3⟩ := hfit (fun q hl => absurd hl (hload q)) _ _ tool_document
  have hans : ∀ n, AnswersTo Demo.toolDoc [] (fun d => d.isEmpty = true) stringScalars n "Query"
      [itemsOf Demo.toolQuery] toolValue :=
    answersB_sound Demo.toolDoc [] (fun d => d.isEmpty) 9 "Query" _ _ (by decide +kernel)
  have hex : ∃ n, UsedGlobal (fun _ => .inOrder) 9 Demo.toolExt Demo.toolCfg Demo.toolSchema Demo.toolWorld
      Demo.toolTree n := by
    have A := after_run (rootPath := ⟨true, ["r"]⟩) hno hod hga
      (R := (⟨⟨_, rfl⟩, h1, List.isEmpty_iff.1 h2, e⟩ : RunsTo (fun _ => .inOrder) .reversed 9 Demo.toolExt
        Demo.toolCfg Demo.toolSchema ⟨true, ["r"]⟩ Demo.toolTree 1 Demo.toolWorld toolRun ms w'))
    cases hu : toolRun.aggregate.2 with
    | nil => rw [hu] at h3; simp at h3
    | cons n _ => exact ⟨n, (usedGlobal_iff A n).1 (by rw [hu]; simp)⟩
  have hid : globalsId Demo.toolWorld (compilationMeant Demo.toolArgs {}) (rootMeant Demo.toolArgs) =
      "/r/graphql-globals.ts" := by decide +kernel
  rw [hid] at g1
  refine ⟨_, g, m, run, h4, g1 hex, hm, ?_, m1 "Query" (by decide +kernel) _ hans⟩
  exact fun v => ⟨(m3 tool_exact).1 v, fun ⟨T, hT, h⟩ => m1 T hT v h⟩

end Qlc
