import Verif.Spec.Options
import Verif.Props.Names
import Verif.Props.Cli
import Verif.Props.Compile
import Verif.Props.Warnings
/-
Property C69: the options given take effect in the generated files and messages.
-/
set_option autoImplicit false

namespace Qlc
open Spec

theorem fromCli_merge {cpus : Nat} {read : Path → ConfigRead} {a : CliArgs} {c : ConfigFile}
    {r : RuntimeConfig} (hc : ConfigIs read a c) (h : RuntimeConfig.fromCli cpus read a = .ok r) :
    ∃ sp, r = RuntimeConfig.merge cpus a { c with schemaPath := sp } := by
  have e : Path.ofString ".qlcrc.json" = ⟨false, [".qlcrc.json"]⟩ := by decide
  rcases hc with hc | ⟨h1, rfl, err, h2⟩
  · simp only [RuntimeConfig.fromCli, ConfigFile.fromFileParse, e, hc] at h
    injection h with h
    exact ⟨_, h.symm⟩
  · simp only [RuntimeConfig.fromCli, ConfigFile.fromFileParse, e, h1, Option.getD_none, h2,
      Option.isSome_none, Bool.false_eq_true, if_false] at h
    injection h with h
    exact ⟨none, h.symm⟩

theorem getD_false_iff (o : Option Bool) : o.getD false = decide (o = some true) := by
  rcases o with _ | _ | _ <;> rfl

theorem ofRuntime_meant {cpus : Nat} {a : CliArgs} {c : ConfigFile} (sp : Option Path) :
    CompileConfig.ofRuntime (RuntimeConfig.merge cpus a { c with schemaPath := sp }) =
      { settingsMeant a c with
        rootDir := rootMeant a
        showDeprecationWarnings := a.showDeprecationWarnings || decide (c.showDeprecationWarnings = some true)
        rootDirImportPrefix := prefixMeant a c } := by
  have h1 : (RuntimeConfig.merge cpus a { c with schemaPath := sp }).bottomTypeConfig = scalarsMeant a c := by
    simp only [RuntimeConfig.bottomTypeConfig, RuntimeConfig.merge, scalarsMeant]
    rcases a.useCustomScalars with _ | _ <;> rcases c.useCustomScalars with _ | _ | _ <;>
      cases a.customScalarPrefix <;> cases c.customScalarPrefix <;> simp
  have h2 : Path.ofString "." = ⟨false, ["."]⟩ := by decide
  unfold CompileConfig.ofRuntime
  rw [h1]
  simp only [RuntimeConfig.merge, settingsMeant, readonlyMeant, rootMeant, prefixMeant, globalsModuleMeant,
    docModuleMeant, getD_false_iff, h2]
  cases a.rootDirImportPrefix <;> cases c.rootDirImportPrefix <;> cases a.globalTypesModuleName <;>
    cases c.globalTypesModuleName <;> cases a.typedGraphqlDocumentnodeModuleName <;>
    cases c.typedGraphqlDocumentnodeModuleName <;> rfl

theorem importErr_level {w : World} {cfg : CompileConfig} {p : Path} {contents : String} {m : Msg}
    (h : ImportErr w cfg p contents m) : m.level = .compileError := by
  induction h with
  | here => rfl
  | there _ _ _ ih => exact ih

/-- **C69.** When a file is compiled successfully, what is written is a file with the meaning the options
and the configuration file ask for: `readonly` markers, custom scalars, the two imported modules.
Deprecation warnings are printed, for all uses of deprecated fields, exactly if they are asked for: otherwise
every warning is one about over-narrowing. -/
theorem C69_options_take_effect (ω : Hash) (fuel : Nat) (ext : Ext) (schema : Schema) (w : World) (p : Path)
    (hcon : Consistent schema) (cpus : Nat) (read : Path → ConfigRead) (a : CliArgs) (c : ConfigFile)
    (r : RuntimeConfig) (hc : ConfigIs read a c) (hr : RuntimeConfig.fromCli cpus read a = .ok r)
    (res : CompileResult) (h : compileFile ω fuel ext (.ofRuntime r) schema w p = some (.done res))
    (rep : CompileReport) (hrep : res.result = .ok rep) :
    ∃ contents d P op f,
      w.read p = .ok contents ∧ ext.parse contents = .ok [d] ∧ rootType d = some P ∧
      res.world.disk (w.resolve (outputPath p)) = .ok (TsFile.text (readonlyMeant a c) f) ∧
      FileFor (settingsMeant a c) schema op f ∧ f.name = dataName d ∧
      f.globalsModule = globalsModuleMeant a c ∧ f.docModule = docModuleMeant a c ∧
      (WantsDeprecations a c → ∀ x ∈ deprecatedUses schema P (itemsOf d),
        Warning.toMsg contents p (.deprecatedFieldUse x.1 x.2.1 x.2.2) ∈ rep.messages) ∧
      (¬ WantsDeprecations a c → ∀ m ∈ rep.messages, m.level = .compileWarning →
        ∃ pos possible spread, m = Warning.toMsg contents p (.overFragmentNarrowing pos possible spread)) := by
  obtain ⟨sp, rfl⟩ := fromCli_merge hc hr
  rw [ofRuntime_meant] at h
  generalize hcfg : ({ settingsMeant a c with
        rootDir := rootMeant a
        showDeprecationWarnings := a.showDeprecationWarnings || decide (c.showDeprecationWarnings = some true)
        rootDirImportPrefix := prefixMeant a c } : CompileConfig) = cfg at h
  have hts : cfg.toTsConfig = settingsMeant a c := by rw [← hcfg]
  have hsd : cfg.showDeprecationWarnings = true ↔ WantsDeprecations a c := by
    rw [← hcfg]; simp [WantsDeprecations]
  rcases C41_writes_only_its_output ω fuel ext cfg schema w p res h with
    ⟨contents, d, st, op, ws, cc, G, _, h2, _⟩ | ⟨_, _, es, he⟩
  swap
  · rw [hrep] at he; cases he
  obtain ⟨hdisk, _⟩ := h2 rep hrep
  cases hP : rootType d with
  | none =>
    have hv := G.valid
    cases d with
    | selectionSet pos items => simp [Operation.compile] at hv
    | operation kw pos name vars dirs items => cases kw <;> simp [rootType] at hP
    | fragment f => simp [rootType] at hP
  | some P =>
  have hg := G.generated
  rw [hts] at hg
  obtain ⟨h1, _⟩ := compileIr_agrees hg
  have hff := fileFor_tsFile (compiled_altsNodup hcon G.valid) hg
  have hmsgs : rep.messages = (parseForeignFragments ω ext p st.imports st.messages).2 ++
      ws.map (Warning.toMsg contents p) := by
    have hgen := (generateFile_ok ω fuel ext cfg schema w p _ cc).2 ⟨contents, d, st, op, ws, G, rfl⟩
    unfold compileFile at h
    rw [hgen] at h
    simp only at h
    split at h <;> simp only [Option.some.injEq, PanicOr.done.injEq] at h
    · rw [← h] at hrep; cases hrep
    · rw [← h] at hrep
      simp only [Except.ok.injEq] at hrep
      rw [← hrep]
  have hdep := C15_deprecation_warnings_exact ω fuel cfg.showDeprecationWarnings hcon d op ws P hP G.valid
  refine ⟨contents, d, P, op, _, G.readable, G.parses, hP, ?_, hff, name_of_compiled hcon G.valid, rfl, rfl,
    ?_, ?_⟩
  · rw [hdisk, h1]; rfl
  · intro hw x hx
    rw [if_pos (hsd.2 hw)] at hdep
    rw [← hdep] at hx
    unfold deprecations at hx
    obtain ⟨wn, hwn, hxx⟩ := List.mem_filterMap.1 hx
    rw [hmsgs]
    refine List.mem_append_right _ (List.mem_map.2 ⟨wn, hwn, ?_⟩)
    cases wn with
    | overFragmentNarrowing => simp at hxx
    | deprecatedFieldUse pos f P' =>
      simp only [Option.some.injEq] at hxx
      rw [← hxx]
  · intro hw m hm hl
    rw [if_neg (fun e => hw (hsd.1 e))] at hdep
    rw [hmsgs] at hm
    rcases List.mem_append.1 hm with hm | hm
    · exfalso
      rcases ((C39_scope_and_errors ω ext p st.imports st.messages).2.2 m).1 hm with hm | ⟨e, _, d', _, _, rfl⟩
      · have := ((C35_import_closure w cfg fuel p contents st G.scanned).2.2.2 m).1 hm
        rw [importErr_level this] at hl
        exact Level.noConfusion hl
      · exact Level.noConfusion hl
    · obtain ⟨wn, hwn, rfl⟩ := List.mem_map.1 hm
      cases wn with
      | overFragmentNarrowing pos possible spread => exact ⟨pos, possible, spread, rfl⟩
      | deprecatedFieldUse pos f P' =>
        exfalso
        have : (pos, f, P') ∈ deprecations ws := by
          unfold deprecations
          exact List.mem_filterMap.2 ⟨_, hwn, rfl⟩
        rw [hdep] at this
        simp at this

/-- **C69.** The directory searched and the resolution of import paths follow the options as well. -/
theorem C69_root_and_import_prefix (cpus : Nat) (read : Path → ConfigRead) (a : CliArgs) (c : ConfigFile)
    (r : RuntimeConfig) (hc : ConfigIs read a c) (hr : RuntimeConfig.fromCli cpus read a = .ok r)
    (text tail : List Char) (htail : '"' ∉ tail) (dir : Path) :
    r.rootDir = rootMeant a ∧
    (∀ pre rest, prefixMeant a c = some pre → text = pre.toList ++ rest →
      getFilePathOfFragment (.ofRuntime r) (text ++ '"' :: tail) dir = some (under (rootMeant a) rest)) ∧
    ((∀ pre, prefixMeant a c = some pre → ¬ pre.toList <+: text) →
      (text.head? = some '.' →
        getFilePathOfFragment (.ofRuntime r) (text ++ '"' :: tail) dir = some (under dir text)) ∧
      (text.head? ≠ some '.' →
        getFilePathOfFragment (.ofRuntime r) (text ++ '"' :: tail) dir = some (under (rootMeant a) text))) := by
  obtain ⟨sp, rfl⟩ := fromCli_merge hc hr
  have h2 : Path.ofString "." = ⟨false, ["."]⟩ := by decide
  refine ⟨by simp only [RuntimeConfig.merge, rootMeant, h2], ?_⟩
  have := C34_import_target (.ofRuntime (RuntimeConfig.merge cpus a { c with schemaPath := sp })) dir text tail
    htail
  have h3 : (CompileConfig.ofRuntime (RuntimeConfig.merge cpus a { c with schemaPath := sp })).rootDir =
      rootMeant a := by rw [ofRuntime_meant]
  have h4 : (CompileConfig.ofRuntime (RuntimeConfig.merge cpus a
      { c with schemaPath := sp })).rootDirImportPrefix = prefixMeant a c := by rw [ofRuntime_meant]
  rw [h3, h4] at this
  exact this

/-! ### Examples -/

/-- Arguments for the demo: readonly types off, deprecation warnings on. -/
def demoArgs : CliArgs :=
  { rootDir := some ⟨true, ["r"]⟩
    disableReadonlyTypes := true
    showDeprecationWarnings := true
    numThreads := some 1 }

/-- A configuration file for the demo. -/
def demoConfigFile : ConfigFile := { useCustomScalars := some true, customScalarPrefix := some "S" }

/-- The demo arguments mean: no `readonly`, custom scalars with a prefix, default modules. -/
example : settingsMeant demoArgs demoConfigFile =
    ⟨false, .realNameWithPrefix "S", "graphql-globals", "@notarize/qlc-cli/typed-documentnode"⟩ ∧
    WantsDeprecations demoArgs demoConfigFile ∧ ¬ WantsDeprecations {} demoConfigFile := by
  refine ⟨by decide, .inl rfl, ?_⟩
  rintro (h | h) <;> cases h

/-- The hypotheses of C69 are met: with these arguments the demo query compiles. -/
example : ∃ r res rep, ConfigIs (fun _ => .parsed demoConfigFile) demoArgs demoConfigFile ∧
    RuntimeConfig.fromCli 4 (fun _ => .parsed demoConfigFile) demoArgs = .ok r ∧
    compileFile .inOrder 5 Demo.ext (.ofRuntime r) Demo.schema Demo.world Demo.qPath = some (.done res) ∧
    res.result = .ok rep := by
  have : (match RuntimeConfig.fromCli 4 (fun _ => .parsed demoConfigFile) demoArgs with
    | .ok r =>
      match compileFile .inOrder 5 Demo.ext (.ofRuntime r) Demo.schema Demo.world Demo.qPath with
      | some (.done res) => (match res.result with | .ok _ => true | .error _ => false)
      | _ => false
    | .error _ => false) = true := by decide +kernel
  revert this
  split
  · rename_i r hr
    split
    · rename_i res hres
      split
      · rename_i rep hrep
        intro _
        exact ⟨r, res, rep, .inl rfl, hr, hres, hrep⟩
      · intro h; cases h
    · intro h; cases h
  · intro h; cases h

end Qlc
