import Verif.Spec.Settings
import Verif.Props.Args
import Verif.Props.Cli
import Verif.Spec.Json
/-
C139: it does not matter whether a setting is made on the command line or in the configuration file.
-/
set_option autoImplicit false

namespace Qlc
open Spec

section
variable {ω : Path → Hash} {ω' : Hash} {fuel : Nat} {ext : Ext} {colours paint : Paint} {cpus cpus' : Nat}
  {read read' : Path → ConfigRead} {readSchema : Path → SchemaRead} {tree : Path → Entry} {w : World}
  {words words' : List String} {a a' : CliArgs} {c : ConfigFile}

/-- Two configurations that the rest of the program cannot tell apart. -/
theorem runs_of_fromCli (r r' : RuntimeConfig) (h : RuntimeConfig.fromCli cpus read a = .ok r)
    (h' : RuntimeConfig.fromCli cpus read' a' = .ok r') (h1 : r.schemaPath = r'.schemaPath)
    (h2 : r.rootDir = r'.rootDir) (h3 : r.numberThreads = r'.numberThreads)
    (h4 : CompileConfig.ofRuntime r = .ofRuntime r') (f : Finished)
    (hr : Runs ω ω' fuel ext paint cpus read readSchema tree w a f) :
    Runs ω ω' fuel ext paint cpus read' readSchema tree w a' f := by
  cases hr with
  | badConfig m hm => rw [h] at hm; cases hm
  | badSchema r₁ ms hk hs =>
    rw [h] at hk; cases hk
    exact .badSchema r' ms h' (h1 ▸ hs)
  | finished r₁ schema sched ms w' s hk hs hrun hfin hend =>
    rw [h] at hk; cases hk
    rw [h3, h2, h4] at hrun
    rw [h4, h2] at hend
    exact .finished r' schema sched ms w' s h' (h1 ▸ hs) hrun hfin hend

theorem invokes_of (hw : parseArgs words = .ok a) (hw' : parseArgs words' = .ok a') (hn : a'.noColor = a.noColor)
    (h : ∀ paint f, Runs ω ω' fuel ext paint cpus read readSchema tree w a f →
      Runs ω ω' fuel ext paint cpus read' readSchema tree w a' f) (i : Invocation)
    (hi : Invokes ω ω' fuel ext colours cpus read readSchema tree w words i) :
    Invokes ω ω' fuel ext colours cpus read' readSchema tree w words' i := by
  cases hi with
  | stopped e he => rw [hw] at he; cases he
  | ran b f hb hr =>
    rw [hw] at hb; cases hb
    refine .ran a' f hw' ?_
    rw [hn]
    exact h _ f hr

theorem here_join (p : Path) : (dirOf (Path.ofString ".qlcrc.json")).join p = p := by
  have : dirOf (Path.ofString ".qlcrc.json") = ⟨false, []⟩ := by decide
  rw [this]
  simp only [Path.join]
  split <;> rfl

/-- **C139.** Every option on the command line can be moved into the configuration file: a command line that
names no configuration file, in a directory that has none, and a configuration file saying the same, started
with the directory to compile and the choice of colours only, have the same possible outcomes: the same
output, the same exit code and the same files. -/
theorem C139_options_in_the_file (hw : parseArgs words = .ok a) (hc : a.configFile = none) {e : String}
    (hread : read (Path.ofString ".qlcrc.json") = .notFound e)
    (hw' : parseArgs words' = .ok a') (hc' : a'.configFile = none) (hb : Bare a')
    (hd : a'.rootDir = a.rootDir) (hn : a'.noColor = a.noColor)
    (hread' : read' (Path.ofString ".qlcrc.json") = .parsed c) (hs : FileSays a c) (i : Invocation) :
    Invokes ω ω' fuel ext colours cpus read readSchema tree w words i ↔
      Invokes ω ω' fuel ext colours cpus read' readSchema tree w words' i := by
  have hp : a.customScalarPrefix ≠ none → a.useCustomScalars = true := by
    intro h
    obtain ⟨ss, _, _, h3, h4⟩ := (C93_command_line words a).1 hw
    obtain ⟨s, hs⟩ := Option.ne_none_iff_exists'.1 h
    exact h4.useCustomScalars.2 (h3 ⟨s, (h4.customScalarPrefix s).1 hs⟩)
  have key : ∃ r, RuntimeConfig.fromCli cpus read a = .ok r ∧ RuntimeConfig.fromCli cpus read' a' = .ok r := by
    refine ⟨RuntimeConfig.merge cpus a {}, ?_, ?_⟩
    · simp [RuntimeConfig.fromCli, ConfigFile.fromFileParse, hc, hread]
    · have hne : (Path.ofString ".qlcrc.json").comps ≠ [] := by decide
      simp only [RuntimeConfig.fromCli, ConfigFile.fromFileParse, hc', Option.getD_none, hread',
        schemaPath_resolved _ hne, here_join]
      simp only [RuntimeConfig.merge, hb.schemaPath, hb.useCustomScalars, hb.customScalarPrefix,
        hb.disableReadonlyTypes, hb.showDeprecationWarnings, hb.numThreads, hb.rootDirImportPrefix,
        hb.globalTypesModuleName, hb.typedGraphqlDocumentnodeModuleName, hd, hs.schemaPath, hs.useCustomScalars,
        hs.customScalarPrefix, hs.disableReadonlyTypes, hs.showDeprecationWarnings, hs.numThreads,
        hs.rootDirImportPrefix, hs.globalTypesModuleName, hs.typedGraphqlDocumentnodeModuleName, switched]
      cases h1 : a.useCustomScalars <;> cases h2 : a.disableReadonlyTypes <;>
        cases h3 : a.showDeprecationWarnings <;> cases h4 : a.customScalarPrefix <;> simp_all
  obtain ⟨r, h1, h2⟩ := key
  exact ⟨invokes_of hw hw' hn (fun _ => runs_of_fromCli r r h1 h2 rfl rfl rfl rfl) i,
    invokes_of hw' hw hn.symm (fun _ => runs_of_fromCli r r h2 h1 rfl rfl rfl rfl) i⟩

/-- **C139.** Every member of a configuration file can be moved to the command line: a command line with
nothing but the directory, the choice of colours and perhaps the name of the configuration file, and a command
line without a configuration file whose options say the same, have the same possible outcomes. -/
theorem C139_file_on_the_line (hw : parseArgs words = .ok a) (hb : Bare a)
    (hread : read (a.configFile.getD (Path.ofString ".qlcrc.json")) = .parsed c)
    (hne : (a.configFile.getD (Path.ofString ".qlcrc.json")).comps ≠ [])
    (hw' : parseArgs words' = .ok a') (hc' : a'.configFile = none) {e : String}
    (hread' : read' (Path.ofString ".qlcrc.json") = .notFound e)
    (hd : a'.rootDir = a.rootDir) (hn : a'.noColor = a.noColor)
    (hs : LineSays (a.configFile.getD (Path.ofString ".qlcrc.json")) c a') (i : Invocation) :
    Invokes ω ω' fuel ext colours cpus read readSchema tree w words i ↔
      Invokes ω ω' fuel ext colours cpus read' readSchema tree w words' i := by
  have key : ∃ r r', RuntimeConfig.fromCli cpus read a = .ok r ∧ RuntimeConfig.fromCli cpus read' a' = .ok r' ∧
      r.schemaPath = r'.schemaPath ∧ r.rootDir = r'.rootDir ∧ r.numberThreads = r'.numberThreads ∧
      CompileConfig.ofRuntime r = .ofRuntime r' := by
    refine ⟨RuntimeConfig.merge cpus a { c with
        schemaPath := c.schemaPath.map
          (fun p => (dirOf (a.configFile.getD (Path.ofString ".qlcrc.json"))).join p) },
      RuntimeConfig.merge cpus a' {}, ?_, ?_, ?_, ?_, ?_, ?_⟩
    · simp only [RuntimeConfig.fromCli, ConfigFile.fromFileParse, hread, schemaPath_resolved _ hne]
    · simp [RuntimeConfig.fromCli, ConfigFile.fromFileParse, hc', hread']
    · simp [RuntimeConfig.merge, hb.schemaPath, hs.schemaPath, hd, dirOf]
    · simp [RuntimeConfig.merge, hd]
    · simp [RuntimeConfig.merge, hb.numThreads, hs.numThreads]
    · have h1 := hs.useCustomScalars
      have h2 := hs.disableReadonlyTypes
      have h3 := hs.showDeprecationWarnings
      simp only [CompileConfig.ofRuntime, RuntimeConfig.bottomTypeConfig, RuntimeConfig.merge,
        hb.useCustomScalars, hb.customScalarPrefix, hb.disableReadonlyTypes, hb.showDeprecationWarnings,
        hb.rootDirImportPrefix, hb.globalTypesModuleName, hb.typedGraphqlDocumentnodeModuleName, hd,
        hs.customScalarPrefix, hs.rootDirImportPrefix, hs.globalTypesModuleName,
        hs.typedGraphqlDocumentnodeModuleName]
      rcases h4 : c.useCustomScalars with _ | _ | _ <;> rcases h5 : c.disableReadonlyTypes with _ | _ | _ <;>
        rcases h6 : c.showDeprecationWarnings with _ | _ | _ <;> simp_all
  obtain ⟨r, r', h1, h2, h3, h4, h5, h6⟩ := key
  exact ⟨invokes_of hw hw' hn (fun _ => runs_of_fromCli r r' h1 h2 h3 h4 h5 h6) i,
    invokes_of hw' hw hn.symm (fun _ => runs_of_fromCli r' r h2 h1 h3.symm h4.symm h5.symm h6.symm) i⟩

end

/-- **C139, the limits.** A switch that the configuration file turns on stays on, whatever the command line
says.  And a prefix that stands alone in the file is dropped although custom scalars are switched on. -/
theorem C139_limits (cpus : Nat) (a : CliArgs) (c : ConfigFile) :
    (c.useCustomScalars = some true → (RuntimeConfig.merge cpus a c).bottomTypeConfig ≠ .defaultBottomType) ∧
    (c.disableReadonlyTypes = some true →
      (CompileConfig.ofRuntime (RuntimeConfig.merge cpus a c)).useReadonlyTypes = false) ∧
    (c.showDeprecationWarnings = some true →
      (CompileConfig.ofRuntime (RuntimeConfig.merge cpus a c)).showDeprecationWarnings = true) ∧
    (a.useCustomScalars = true → a.customScalarPrefix = none → c.useCustomScalars = none →
      (RuntimeConfig.merge cpus a c).bottomTypeConfig = .realName) := by
  refine ⟨?_, ?_, ?_, ?_⟩
  · intro h
    simp only [RuntimeConfig.merge, RuntimeConfig.bottomTypeConfig, h, Option.getD_some, Bool.or_true]
    split <;> simp_all
  · intro h; simp [RuntimeConfig.merge, CompileConfig.ofRuntime, h]
  · intro h; simp [RuntimeConfig.merge, CompileConfig.ofRuntime, h]
  · intro h h1 h2
    simp [RuntimeConfig.merge, RuntimeConfig.bottomTypeConfig, h, h1, h2]

/-! ### There always is such a file -/

theorem written_path {s : Setting} {ws : List String} (h : Written s ws) :
    (∀ p, s = .rootDir p → ∃ v, v ≠ "" ∧ p = Path.ofString v) ∧
    (∀ p, s = .schemaPath p → ∃ v, p = Path.ofString v) ∧ (∀ n, s = .numThreads n → n < 2 ^ 64) := by
  have hv : ∀ {s name v}, Valued s name v → (∀ p, s = .rootDir p → ∃ v, v ≠ "" ∧ p = Path.ofString v) ∧
      (∀ p, s = .schemaPath p → ∃ v, p = Path.ofString v) ∧ (∀ n, s = .numThreads n → n < 2 ^ 64) := by
    intro s name v h
    cases h <;> refine ⟨?_, ?_, ?_⟩ <;> intro x hx <;> cases hx
    · exact ⟨_, rfl⟩
    · next hn => obtain ⟨_, _, _, _, _, h⟩ := hn; exact h
  cases h with
  | switch h => cases h <;> refine ⟨?_, ?_, ?_⟩ <;> intro x hx <;> cases hx
  | equals h => exact hv h
  | next h _ => exact hv h
  | shortEquals h _ => exact hv h
  | shortNext h _ _ => exact hv h
  | shortAttached h _ _ => exact hv h
  | directory h _ =>
    refine ⟨?_, ?_, ?_⟩ <;> intro x hx <;> cases hx
    exact ⟨_, h, rfl⟩

theorem line_path {ss : List Setting} {ws : List String} (h : CommandLine ss ws) {s : Setting} (hs : s ∈ ss) :
    (∀ p, s = .rootDir p → ∃ v, v ≠ "" ∧ p = Path.ofString v) ∧
    (∀ p, s = .schemaPath p → ∃ v, p = Path.ofString v) ∧ (∀ n, s = .numThreads n → n < 2 ^ 64) := by
  have hw : ∀ {ss ws}, Words ss ws → s ∈ ss → ∃ ws, Written s ws := by
    intro ss ws h
    induction h with
    | nil => intro h; cases h
    | cons h _ ih =>
      intro hm
      rcases List.mem_cons.1 hm with rfl | hm
      · exact ⟨_, h⟩
      · exact ih hm
  cases h with
  | plain h => obtain ⟨ws, h⟩ := hw h hs; exact written_path h
  | dashes h => obtain ⟨ws, h⟩ := hw h hs; exact written_path h
  | directory h hv =>
    rcases List.mem_append.1 hs with hs | hs
    · obtain ⟨ws, h⟩ := hw h hs; exact written_path h
    · rw [List.mem_singleton.1 hs]
      refine ⟨?_, ?_, ?_⟩ <;> intro x hx <;> cases hx
      exact ⟨_, hv, rfl⟩

/-- The short command line. -/
theorem short_line {ss : List Setting} {ws : List String} (h : CommandLine ss ws) {a : CliArgs} (hm : Means ss a) :
    ∃ words' a', parseArgs words' = .ok a' ∧ a'.configFile = none ∧ Bare a' ∧ a'.rootDir = a.rootDir ∧
      a'.noColor = a.noColor := by
  have hdir : ∀ p, a.rootDir = some p → ∃ v, v ≠ "" ∧ p = Path.ofString v :=
    fun p hp => (line_path h ((hm.rootDir p).1 hp)).1 p rfl
  have key : ∃ words', parseArgs words' = .ok { rootDir := a.rootDir, noColor := a.noColor } := by
    have hnc : Words [.noColor] ["--no-color"] := .cons (ws := ["--no-color"]) (.switch .noColor) .nil
    cases hd : a.rootDir with
    | none =>
      cases hn : a.noColor with
      | false => exact ⟨[], rfl⟩
      | true =>
        refine ⟨_, (line_parse (.plain hnc) _).2 ⟨by simp [Once], by rintro ⟨s, hs⟩; simp at hs, ?_⟩⟩
        constructor <;> simp
    | some p =>
      obtain ⟨v, hv, rfl⟩ := hdir p hd
      cases hn : a.noColor with
      | false =>
        refine ⟨_, (line_parse (.directory (ws := []) .nil hv) _).2
          ⟨by simp [Once], by rintro ⟨s, hs⟩; simp at hs, ?_⟩⟩
        constructor <;> simp [eq_comm]
      | true =>
        refine ⟨_, (line_parse (.directory hnc hv) _).2
          ⟨by simp [Once, SameOption], by rintro ⟨s, hs⟩; simp at hs, ?_⟩⟩
        constructor <;> simp [eq_comm]
  obtain ⟨words', hk⟩ := key
  exact ⟨words', _, hk, rfl, ⟨rfl, rfl, rfl, rfl, rfl, rfl, rfl, rfl, rfl⟩, rfl, rfl⟩

theorem orNull_elim {α : Type} {R : Json → α → Prop} (o : Option α) (f : α → Json)
    (h : ∀ x, o = some x → f x ≠ .null ∧ R (f x) x) : OrNull R (some (o.elim .null f)) o := by
  cases o with
  | none => exact .null
  | some x => exact .value _ _ (h x rfl).1 (h x rfl).2

/-- **C139.** Such a file and such a short command line exist for every command line that the program accepts,
so nothing that can be said on the command line about the compilation is out of reach of the file. -/
theorem C139_file_exists {words : List String} {a : CliArgs} (hw : parseArgs words = .ok a) :
    ∃ (j : Json) (c : ConfigFile) (words' : List String) (a' : CliArgs), ReadsConfig j c ∧ FileSays a c ∧
      parseArgs words' = .ok a' ∧ a'.configFile = none ∧ Bare a' ∧ a'.rootDir = a.rootDir ∧
      a'.noColor = a.noColor := by
  obtain ⟨ss, h1, _, _, hm⟩ := (C93_command_line words a).1 hw
  obtain ⟨words', a', hs⟩ := short_line h1 hm
  obtain ⟨sp, hsp⟩ : ∃ sp : Option String, a.schemaPath = sp.map Path.ofString := by
    cases h : a.schemaPath with
    | none => exact ⟨none, rfl⟩
    | some p =>
      obtain ⟨v, hv⟩ := (line_path h1 ((hm.schemaPath p).1 h)).2.1 p rfl
      exact ⟨some v, by rw [hv]; rfl⟩
  have hn : ∀ n, a.numThreads = some n → n < 2 ^ 64 :=
    fun n h => (line_path h1 ((hm.numThreads n).1 h)).2.2 n rfl
  refine ⟨.obj [("schemaFile", sp.elim .null .str), ("useCustomScalars", (switched a.useCustomScalars).elim .null .bool),
    ("disableReadonlyTypes", (switched a.disableReadonlyTypes).elim .null .bool),
    ("customScalarPrefix", a.customScalarPrefix.elim .null .str), ("numThreads", a.numThreads.elim .null .nat),
    ("showDeprecationWarnings", (switched a.showDeprecationWarnings).elim .null .bool),
    ("rootDirImportPrefix", a.rootDirImportPrefix.elim .null .str),
    ("globalTypesModuleName", a.globalTypesModuleName.elim .null .str),
    ("typedGraphqlDocumentnodeModuleName", a.typedGraphqlDocumentnodeModuleName.elim .null .str)],
    { schemaPath := a.schemaPath, useCustomScalars := switched a.useCustomScalars,
      disableReadonlyTypes := switched a.disableReadonlyTypes, customScalarPrefix := a.customScalarPrefix,
      numThreads := a.numThreads, showDeprecationWarnings := switched a.showDeprecationWarnings,
      rootDirImportPrefix := a.rootDirImportPrefix, globalTypesModuleName := a.globalTypesModuleName,
      typedGraphqlDocumentnodeModuleName := a.typedGraphqlDocumentnodeModuleName },
    words', a', ?_, ⟨rfl, rfl, rfl, rfl, rfl, rfl, rfl, rfl, rfl⟩, hs⟩
  generalize hms : [("schemaFile", sp.elim Json.null .str), _, _, _, _, _, _, _, _] = ms
  refine ⟨fun k => (values k ms).head?, .byKey _ _ ?_, ?_, ?_, ?_, ?_, ?_, ?_, ?_, ?_, ?_⟩
  · intro k hk
    simp only [List.mem_cons, List.not_mem_nil, or_false] at hk
    subst hms
    rcases hk with rfl | rfl | rfl | rfl | rfl | rfl | rfl | rfl | rfl <;> simp [values]
  · subst hms
    simp only [hsp]
    cases sp with
    | none => exact .null
    | some v => exact .value (.str v) _ (by simp) ⟨v, rfl, rfl⟩
  all_goals subst hms
  all_goals refine orNull_elim _ _ (fun x hx => ⟨by simp, ?_⟩)
  all_goals first | rfl | exact ⟨rfl, hn x hx⟩

/-! ### Examples -/

/-- Six options on a command line, the same six as members of a file, and the short command line. -/
theorem C139_file_demo :
    let a : CliArgs := { rootDir := some ⟨false, ["src"]⟩, schemaPath := some ⟨false, ["api", "s.json"]⟩,
                         useCustomScalars := true, customScalarPrefix := some "Gql", disableReadonlyTypes := true,
                         numThreads := some 2, globalTypesModuleName := some "g" }
    let c : ConfigFile := { schemaPath := some ⟨false, ["api", "s.json"]⟩, useCustomScalars := some true,
                            customScalarPrefix := some "Gql", disableReadonlyTypes := some true, numThreads := some 2,
                            globalTypesModuleName := some "g" }
    parseArgs ["src", "-s", "api/s.json", "--use-custom-scalars", "--custom-scalar-prefix=Gql",
      "--disable-readonly-types", "--num-threads=2", "--global-types-module-name=g"] = .ok a ∧
    FileSays a c ∧
    parseArgs ["src"] = .ok { rootDir := some ⟨false, ["src"]⟩ } ∧
    Bare { rootDir := some ⟨false, ["src"]⟩ } :=
  ⟨by decide +kernel, ⟨rfl, rfl, rfl, rfl, rfl, rfl, rfl, rfl, rfl⟩, by decide +kernel,
    ⟨rfl, rfl, rfl, rfl, rfl, rfl, rfl, rfl, rfl⟩⟩

/-- A configuration file in another directory, with a relative path to the schema and a prefix that does not
count, and the options that say the same. -/
theorem C139_line_demo :
    let a : CliArgs := { rootDir := some ⟨false, ["src"]⟩, configFile := some ⟨false, ["conf", "q.json"]⟩ }
    let c : ConfigFile := { schemaPath := some ⟨false, ["s.json"]⟩, useCustomScalars := some false,
                            customScalarPrefix := some "Gql", showDeprecationWarnings := some true, numThreads := some 3 }
    let a' : CliArgs := { rootDir := some ⟨false, ["src"]⟩, schemaPath := some ⟨false, ["conf", "s.json"]⟩,
                          showDeprecationWarnings := true, numThreads := some 3 }
    parseArgs ["src", "--config-file", "conf/q.json"] = .ok a ∧ Bare a ∧
    (a.configFile.getD (Path.ofString ".qlcrc.json")).comps ≠ [] ∧
    parseArgs ["src", "-sconf/s.json", "--show-deprecation-warnings", "--num-threads=3"] = .ok a' ∧
    LineSays (a.configFile.getD (Path.ofString ".qlcrc.json")) c a' :=
  ⟨by decide +kernel, ⟨rfl, rfl, rfl, rfl, rfl, rfl, rfl, rfl, rfl⟩, by decide, by decide +kernel,
    ⟨by decide, by decide, by decide, by decide, by decide, rfl, rfl, rfl, rfl⟩⟩

end Qlc
