import Verif.Spec.Startup
import Verif.Props.Json
import Verif.Props.Program
/-
C72 in terms of the files on disk: what is printed when the configuration file or the schema file is
missing, unreadable or malformed.
-/
set_option autoImplicit false

namespace Qlc
open Spec

section Startup
variable {ω : Path → Hash} {ω' : Hash} {fuel : Nat} {ext : Ext} {paint : Paint} {cpus : Nat}
  {configs schemas : Path → JsonFile} {tree : Path → Entry} {w : World} {args : CliArgs} {f : Finished}

theorem fromCli_complaint {l : Level} {text : String}
    (hc : ConfigComplaint args.configFile.isSome (configPath args) (configs (configPath args)) l text) :
    RuntimeConfig.fromCli cpus (fun p => (configs p).asConfig) args = .error ⟨l, none, text⟩ := by
  have hcp : args.configFile.getD (Path.ofString ".qlcrc.json") = configPath args := by
    unfold configPath; rfl
  simp only [RuntimeConfig.fromCli, ConfigFile.fromFileParse, hcp]
  generalize configs (configPath args) = c at hc
  cases hc with
  | missing e hn => simp only [JsonFile.asConfig, hn, if_true, Msg.ioError]; congr 1
  | unreadable e => simp only [JsonFile.asConfig, Msg.ioError]; congr 1
  | notJson e => simp only [JsonFile.asConfig, Msg.simpleProgramError]
  | wrongShape j e hn =>
    have : decodeConfig j = none := by
      cases h : decodeConfig j with
      | none => rfl
      | some c => exact absurd ⟨c, (C63_config_read_by_key j c).1 h⟩ hn
    simp only [JsonFile.asConfig, this, Msg.simpleProgramError]

/-- **C72.** If the configuration file is named on the command line and missing, or is unreadable, is not
JSON, or holds a setting of the wrong kind, the program prints that and nothing else, exits with status 1, and
touches no file. -/
theorem C72_config_file_complaint
    (run : Runs ω ω' fuel ext paint cpus (fun p => (configs p).asConfig) (fun p => (schemas p).asSchema) tree w
      args f) (l : Level) (text : String)
    (hc : ConfigComplaint args.configFile.isSome (configPath args) (configs (configPath args)) l text) :
    f.exit = ⟨[(⟨l, none, text⟩ : Msg).render paint ++ "\n\n",
      (Msg.simpleCompileError "failure due to 1 error").render paint ++ "\n"], 1⟩ ∧ f.world = w :=
  C72_bad_config_stops run _ (fromCli_complaint hc)

/-- **C72.** Otherwise the settings are those the file means, or the defaults if there is no file.  (A path
that was opened is not empty.) -/
theorem C72_config_file_used
    (hc : ¬ ∃ l text, ConfigComplaint args.configFile.isSome (configPath args) (configs (configPath args)) l text)
    (hne : (configPath args).comps ≠ []) :
    ∃ c r, RuntimeConfig.fromCli cpus (fun p => (configs p).asConfig) args = .ok r ∧
      ConfigMeant cpus args c r ∧
      ((∃ j e, configs (configPath args) = .tree j e ∧ ReadsConfig j c) ∨
       (∃ e, configs (configPath args) = .notFound e ∧ args.configFile = none ∧ c = {})) := by
  obtain ⟨P1, P2, _⟩ := C45_configuration_precedence cpus (fun p => (configs p).asConfig) args
  cases h : configs (configPath args) with
  | notFound e =>
    rw [h] at hc
    cases hn : args.configFile with
    | some p => exact absurd ⟨_, _, .missing e (by rw [hn]; rfl)⟩ hc
    | none =>
      obtain ⟨r, h1, h2⟩ := P2 e (by simp only [h, JsonFile.asConfig]) hn
      exact ⟨_, r, h1, h2, .inr ⟨e, rfl, rfl, rfl⟩⟩
  | ioError e => rw [h] at hc; exact absurd ⟨_, _, .unreadable e⟩ hc
  | syntaxError e => rw [h] at hc; exact absurd ⟨_, _, .notJson e⟩ hc
  | tree j e =>
    rw [h] at hc
    cases hd : decodeConfig j with
    | none =>
      refine absurd ⟨_, _, .wrongShape j e ?_⟩ hc
      rintro ⟨c, hr⟩
      rw [(C63_config_read_by_key j c).2 hr] at hd
      cases hd
    | some c =>
      obtain ⟨r, h1, h2⟩ := P1 c (by simp only [h, JsonFile.asConfig, hd]) hne
      exact ⟨c, r, h1, h2, .inl ⟨j, e, rfl, (C63_config_read_by_key j c).1 hd⟩⟩

theorem schemaFile_complaint (path : Path) (file : JsonFile) (text : String) :
    SchemaFileComplaint path file text ↔ SchemaComplaint path file.asSchema text := by
  have dn : ∀ j, (¬ ∃ s, ReadsIntrospection j s) ↔ decodeIntrospection j = none := by
    intro j
    constructor
    · intro hn
      cases h : decodeIntrospection j with
      | none => rfl
      | some s => exact absurd ⟨s, (C62_introspection_read_by_key j s).1 h⟩ hn
    · rintro h ⟨s, hs⟩
      rw [(C62_introspection_read_by_key j s).2 hs] at h
      cases h
  constructor
  · intro h
    cases h with
    | missing e => exact .unreadable e
    | unreadable e => exact .unreadable e
    | notJson e => exact .notJson e
    | wrongShape j e hn => simp only [JsonFile.asSchema, (dn j).1 hn]; exact .notJson e
    | faulty j e s r hs hf =>
      simp only [JsonFile.asSchema, (C62_introspection_read_by_key j s).2 hs]
      exact .faulty s r hf
  · intro h
    cases file with
    | notFound e => cases h; exact .missing e
    | ioError e => cases h; exact .unreadable e
    | syntaxError e => cases h; exact .notJson e
    | tree j e =>
      simp only [JsonFile.asSchema] at h
      cases hd : decodeIntrospection j with
      | none => rw [hd] at h; cases h; exact .wrongShape j e ((dn j).2 hd)
      | some s => rw [hd] at h; cases h with | faulty _ r hf =>
                                  exact .faulty j e s r ((C62_introspection_read_by_key j s).1 hd) hf

theorem schemaFile_usable (file : JsonFile) : SchemaFileUsable file ↔ SchemaUsable file.asSchema := by
  cases file with
  | notFound e => rfl
  | ioError e => rfl
  | syntaxError e => rfl
  | tree j e =>
    simp only [SchemaFileUsable, JsonFile.asSchema, ← C62_introspection_read_by_key]
    cases decodeIntrospection j with
    | none => simp [SchemaUsable]
    | some s => simp [SchemaUsable]

/-- **C72.** If the schema file is missing, unreadable, not JSON, not shaped like an introspection result, or
describes some type badly, the program prints that and nothing else, exits with status 1, and touches no
file. -/
theorem C72_schema_file_complaint
    (run : Runs ω ω' fuel ext paint cpus (fun p => (configs p).asConfig) (fun p => (schemas p).asSchema) tree w
      args f) (r : RuntimeConfig)
    (hcfg : RuntimeConfig.fromCli cpus (fun p => (configs p).asConfig) args = .ok r)
    (hs : ¬ SchemaFileUsable (schemas r.schemaPath)) :
    ∃ text, SchemaFileComplaint r.schemaPath (schemas r.schemaPath) text ∧
      f.exit = ⟨[(⟨.compileError, none, text⟩ : Msg).render paint ++ "\n\n",
        (Msg.simpleCompileError "failure due to 1 error").render paint ++ "\n"], 1⟩ ∧ f.world = w := by
  rw [schemaFile_usable] at hs
  obtain ⟨text, h1, h2⟩ := C72_bad_schema_stops run r hcfg hs
  exact ⟨text, (schemaFile_complaint _ _ _).2 h1, h2⟩

/-- **C72.** A usable schema file is loaded. -/
theorem C72_schema_file_used (path : Path) (hs : SchemaFileUsable (schemas path)) :
    ∃ schema, parseSchema path (schemas path).asSchema = .ok schema := by
  rw [schemaFile_usable] at hs
  rcases parseSchema_spec path (schemas path).asSchema with ⟨_, s, hp⟩ | ⟨hn, _⟩
  · exact ⟨s, hp⟩
  · exact absurd hs hn

end Startup

/-- A configuration file that was named and is missing, one with a setting of the wrong kind, and no
configuration file. -/
example : ConfigComplaint true ⟨false, ["c.json"]⟩ (.notFound "gone") .compileError
    "could not read `c.json`: gone" := .missing "gone" rfl
example : ConfigComplaint false ⟨false, [".qlcrc.json"]⟩
    (.tree (.obj [("useCustomScalars", .str "yes")]) "bad bool") .programError
    "error in config file `.qlcrc.json`: bad bool" := by
  refine .wrongShape _ _ ?_
  rintro ⟨c, hc⟩
  rw [← C63_config_read_by_key] at hc
  have : decodeConfig (.obj [("useCustomScalars", .str "yes")]) = none := by decide +kernel
  rw [this] at hc
  cases hc
example : ¬ ∃ l text, ConfigComplaint false ⟨false, [".qlcrc.json"]⟩ (.notFound "gone") l text := by
  rintro ⟨l, text, h⟩
  cases h with
  | missing _ h => cases h
/-- A schema file of the wrong shape. -/
example : ¬ SchemaFileUsable (.tree (.obj [("data", .null)]) "no schema") := by
  rintro ⟨s, hs, _⟩
  rw [← C62_introspection_read_by_key] at hs
  have : (decodeIntrospection (.obj [("data", .null)])).isNone = true := by decide +kernel
  rw [hs] at this
  cases this

end Qlc
