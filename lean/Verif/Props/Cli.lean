import Verif.Model.Cli
import Verif.Lemmas.Basic
import Verif.Lemmas.Text
/-
Properties C43 - C48: exit status, summaries, configuration, rendering of diagnostics.
-/
set_option autoImplicit false

namespace Qlc
open Spec

/-! ### C43, C44: the end of the program -/

/-- Number of errors in a list of messages: everything that is not a warning. -/
def errorsIn (msgs : List Msg) : Nat :=
  (msgs.filter (fun m => decide (m.level ≠ .compileWarning))).length

/-- Number of warnings in a list of messages. -/
def warningsIn (msgs : List Msg) : Nat :=
  (msgs.filter (fun m => decide (m.level = .compileWarning))).length

theorem countMsgs_eq (msgs : List Msg) : countMsgs msgs = (warningsIn msgs, errorsIn msgs) := by
  induction msgs with
  | nil => rfl
  | cons m rest ih =>
    simp only [countMsgs, ih, warningsIn, errorsIn]
    cases h : m.level <;> simp [h]

theorem errorsIn_eq_zero (msgs : List Msg) :
    errorsIn msgs = 0 ↔ ∀ m ∈ msgs, m.level = .compileWarning := by
  simp [errorsIn]

/-- C43: the process exits with 0 exactly if no message is an error, and with 1 otherwise. -/
theorem C43_exit_zero_iff_no_error (p : Paint) (msgs : List Msg) :
    ((printExitInfo p msgs).code = 0 ↔ ∀ m ∈ msgs, m.level = .compileWarning) ∧
    ((printExitInfo p msgs).code = 1 ↔ ∃ m ∈ msgs, m.level ≠ .compileWarning) := by
  have h := errorsIn_eq_zero msgs
  have hnot : (∃ m ∈ msgs, m.level ≠ .compileWarning) ↔ ¬ errorsIn msgs = 0 := by
    rw [h]; simp
  rw [← h, hnot]
  simp only [printExitInfo, countMsgs_eq]
  by_cases h0 : errorsIn msgs = 0
  · simp [h0]
  · have : errorsIn msgs > 0 := Nat.pos_of_ne_zero h0
    simp [h0, this]

/-- C43: every message is printed, in order, followed by a blank line; then, exactly if there are
errors, a summary with their number; then, exactly if there are warnings, a summary with theirs. -/
theorem C43_printed_output (p : Paint) (msgs : List Msg) :
    (printExitInfo p msgs).printed =
      msgs.map (fun m => m.render p ++ "\n\n") ++
      (if errorsIn msgs = 0 then [] else
        [(Msg.simpleCompileError ("failure due to " ++ toString (errorsIn msgs) ++ " error" ++
          (if errorsIn msgs = 1 then "" else "s"))).render p ++ "\n"]) ++
      (if warningsIn msgs = 0 then [] else
        [(Msg.simpleCompileWarning (toString (warningsIn msgs) ++ " warning" ++
          (if errorsIn msgs ≤ 1 then "" else "s") ++ " emitted")).render p ++ "\n"]) := by
  simp only [printExitInfo, countMsgs_eq]
  congr 1
  · congr 1
    rcases Nat.lt_or_ge 0 (errorsIn msgs) with h | h
    · have h0 : errorsIn msgs ≠ 0 := by omega
      by_cases h1 : errorsIn msgs = 1
      · simp [h1]
      · have : errorsIn msgs > 1 := by omega
        simp [h, h0, h1, this]
    · have : errorsIn msgs = 0 := by omega
      simp [this]
  · rcases Nat.lt_or_ge 0 (warningsIn msgs) with h | h
    · have h0 : warningsIn msgs ≠ 0 := by omega
      by_cases h1 : errorsIn msgs ≤ 1
      · have : ¬ errorsIn msgs > 1 := by omega
        simp [h, h0, h1, this]
      · have : errorsIn msgs > 1 := by omega
        simp [h, h0, h1, this]
    · have : warningsIn msgs = 0 := by omega
      simp [this]

example : errorsIn [.simpleCompileWarning "w", .simpleCompileError "a", .simpleProgramError "b"] = 2 ∧
    (printExitInfo .plain [.simpleCompileWarning "w"]).code = 0 ∧
    (printExitInfo .plain [.simpleCompileWarning "w", .simpleCompileError "a"]) =
      ⟨["warning: w\n\n", "error: a\n\n", "error: failure due to 1 error\n",
        "warning: 1 warning emitted\n"], 1⟩ := by decide

/-- The warning summary with the plural that English asks for. -/
def goodWarningSummary (n : Nat) : String :=
  "warning: " ++ (toString n ++ " warning" ++ (if n = 1 then "" else "s") ++ " emitted") ++ "\n"

theorem append_left_cancel' {a b c : String} (h : a ++ b = a ++ c) : b = c := by
  have := congrArg String.toList h
  simp at this
  exact String.toList_inj.1 this

theorem append_right_cancel' {a b c : String} (h : a ++ c = b ++ c) : a = b := by
  have := congrArg String.toList h
  simp at this
  exact String.toList_inj.1 this

/-- C44: without colours, the last thing printed when there are warnings is their count, and it is the
correct English summary if and only if "more than one warning" and "more than one error" agree. -/
theorem C44_warning_summary (msgs : List Msg) (hw : warningsIn msgs > 0) :
    ∃ plural, plural ∈ ["", "s"] ∧
      (printExitInfo .plain msgs).printed.getLast? =
        some ("warning: " ++ (toString (warningsIn msgs) ++ " warning" ++ plural ++ " emitted") ++ "\n") ∧
      ((printExitInfo .plain msgs).printed.getLast? = some (goodWarningSummary (warningsIn msgs)) ↔
        (warningsIn msgs > 1 ↔ errorsIn msgs > 1)) := by
  have hw0 : warningsIn msgs ≠ 0 := by omega
  have hr : ∀ s, (Msg.simpleCompileWarning s).render .plain ++ "\n" = "warning: " ++ s ++ "\n" := by
    intro s
    apply String.toList_inj.1
    simp [Msg.render, Msg.simpleCompileWarning, Paint.plain]
  refine ⟨if errorsIn msgs ≤ 1 then "" else "s", by split <;> simp, ?_, ?_⟩
  · rw [C43_printed_output]
    simp only [hw0, if_false, List.getLast?_append, List.getLast?_singleton, Option.some_or, hr]
  · rw [C43_printed_output]
    simp only [hw0, if_false, List.getLast?_append, List.getLast?_singleton, Option.some_or,
      Option.some.injEq]
    rw [hr]
    unfold goodWarningSummary
    constructor
    · intro h
      have h1 := append_right_cancel' (append_left_cancel' (append_right_cancel' h))
      have h2 := append_left_cancel' h1
      by_cases he : errorsIn msgs ≤ 1
      · by_cases hone : warningsIn msgs = 1
        · omega
        · simp [he, hone] at h2
      · by_cases hone : warningsIn msgs = 1
        · simp [he, hone] at h2
        · omega
    · intro h
      have : (errorsIn msgs ≤ 1) ↔ warningsIn msgs = 1 := by omega
      by_cases he : errorsIn msgs ≤ 1
      · have h1 := this.1 he; simp [he, h1]
      · have h1 : ¬ warningsIn msgs = 1 := fun h => he (this.2 h)
        simp [he, h1]

example : warningsIn [.simpleCompileWarning "a", .simpleCompileWarning "b"] > 0 ∧
    (printExitInfo .plain [.simpleCompileWarning "a", .simpleCompileWarning "b"]).printed.getLast? =
      some "warning: 2 warning emitted\n" := by decide

/-! ### C45, C46: configuration -/

/-- Where the configuration file is looked for. -/
def configPath (a : CliArgs) : Path := a.configFile.getD ⟨false, [".qlcrc.json"]⟩

/-- The directory of a path. -/
def dirOf (p : Path) : Path := ⟨p.abs, p.comps.dropLast⟩

/-- First given value wins. -/
def firstOf {α : Type} (cli file : Option α) (dflt : α) : α :=
  match cli, file with
  | some v, _ => v
  | none, some v => v
  | none, none => dflt

/-- The configuration meant by arguments and config file contents, setting by setting (the custom
scalar prefix is the subject of C46). -/
structure ConfigMeant (cpus : Nat) (a : CliArgs) (c : ConfigFile) (r : RuntimeConfig) : Prop where
  rootDir : r.rootDir = a.rootDir.getD ⟨false, ["."]⟩
  schemaPath : r.schemaPath = firstOf a.schemaPath
    (c.schemaPath.map (fun s => (dirOf (configPath a)).join s))
    (r.rootDir.join ⟨false, ["schema.json"]⟩)
  showDeprecationWarnings : r.showDeprecationWarnings = true ↔
    a.showDeprecationWarnings = true ∨ c.showDeprecationWarnings = some true
  useCustomScalars : r.useCustomScalars = true ↔
    a.useCustomScalars = true ∨ c.useCustomScalars = some true
  disableReadonlyTypes : r.disableReadonlyTypes = true ↔
    a.disableReadonlyTypes = true ∨ c.disableReadonlyTypes = some true
  numberThreads : r.numberThreads = firstOf a.numThreads c.numThreads (min cpus 8)
  rootDirImportPrefix : r.rootDirImportPrefix = firstOf (a.rootDirImportPrefix.map some)
    (c.rootDirImportPrefix.map some) none
  globalTypesModuleName : r.globalTypesModuleName =
    firstOf a.globalTypesModuleName c.globalTypesModuleName "graphql-globals"
  typedGraphqlDocumentnodeModuleName : r.typedGraphqlDocumentnodeModuleName =
    firstOf a.typedGraphqlDocumentnodeModuleName c.typedGraphqlDocumentnodeModuleName
      "@notarize/qlc-cli/typed-documentnode"

theorem or_getD_firstOf {α : Type} (x y : Option α) (d : α) : (x.or y).getD d = firstOf x y d := by
  cases x <;> cases y <;> rfl

theorem orB_iff (b : Bool) (o : Option Bool) : (b || o.getD false) = true ↔ b = true ∨ o = some true := by
  cases b <;> rcases o with _ | _ | _ <;> simp

theorem join_abs {d s : Path} (h : s.abs = true) : d.join s = s := by simp [Path.join, h]

theorem merge_meant (cpus : Nat) (a : CliArgs) (c c' : ConfigFile)
    (hsp : c'.schemaPath = c.schemaPath.map (fun s => (dirOf (configPath a)).join s))
    (h2 : c'.showDeprecationWarnings = c.showDeprecationWarnings)
    (h3 : c'.useCustomScalars = c.useCustomScalars)
    (h4 : c'.disableReadonlyTypes = c.disableReadonlyTypes)
    (h5 : c'.numThreads = c.numThreads)
    (h6 : c'.rootDirImportPrefix = c.rootDirImportPrefix)
    (h7 : c'.globalTypesModuleName = c.globalTypesModuleName)
    (h8 : c'.typedGraphqlDocumentnodeModuleName = c.typedGraphqlDocumentnodeModuleName) :
    ConfigMeant cpus a c (RuntimeConfig.merge cpus a c') where
  rootDir := rfl
  schemaPath := by
    simp only [RuntimeConfig.merge, hsp, or_getD_firstOf]; rfl
  showDeprecationWarnings := by simp only [RuntimeConfig.merge, h2]; exact orB_iff _ _
  useCustomScalars := by simp only [RuntimeConfig.merge, h3]; exact orB_iff _ _
  disableReadonlyTypes := by simp only [RuntimeConfig.merge, h4]; exact orB_iff _ _
  numberThreads := by simp only [RuntimeConfig.merge, h5, or_getD_firstOf]
  rootDirImportPrefix := by
    simp only [RuntimeConfig.merge, h6]
    cases a.rootDirImportPrefix <;> cases c.rootDirImportPrefix <;> rfl
  globalTypesModuleName := by simp only [RuntimeConfig.merge, h7, or_getD_firstOf]
  typedGraphqlDocumentnodeModuleName := by
    simp only [RuntimeConfig.merge, h8, or_getD_firstOf]

theorem schemaPath_resolved (path : Path) (hp : path.comps ≠ []) (sp : Option Path) :
    sp.bind (fun s => if s.abs then some s else path.parent.map (fun d => d.join s)) =
      sp.map (fun s => (dirOf path).join s) := by
  cases sp with
  | none => rfl
  | some s =>
    simp only [Option.bind_some, Option.map_some]
    by_cases h : s.abs = true
    · simp [h, join_abs h]
    · have : path.comps.isEmpty = false := by cases hc : path.comps <;> simp_all
      simp [h, Path.parent, this, dirOf, Path.pop]

/-- C45: with a readable config file every setting takes the command line value, else the config file
value, else the default; flags are disjunctions; a config file's schema path is relative to the config
file.  A config file that is neither named nor present counts as empty; in every other case the program
stops with one error.  (A config file path is never empty, since it was opened.) -/
theorem C45_configuration_precedence (cpus : Nat) (read : Path → ConfigRead) (a : CliArgs) :
    (∀ c, read (configPath a) = .parsed c → (configPath a).comps ≠ [] →
      ∃ r, RuntimeConfig.fromCli cpus read a = .ok r ∧ ConfigMeant cpus a c r) ∧
    (∀ e, read (configPath a) = .notFound e → a.configFile = none →
      ∃ r, RuntimeConfig.fromCli cpus read a = .ok r ∧ ConfigMeant cpus a {} r) ∧
    (((∃ e, read (configPath a) = .ioError e) ∨ (∃ e, read (configPath a) = .serdeError e) ∨
        (∃ e, read (configPath a) = .notFound e) ∧ a.configFile ≠ none) →
      ∃ m, RuntimeConfig.fromCli cpus read a = .error m ∧ m.level ≠ .compileWarning) := by
  have hcp : a.configFile.getD (Path.ofString ".qlcrc.json") = configPath a := by
    unfold configPath; rfl
  refine ⟨?_, ?_, ?_⟩
  · intro c hr hne
    simp only [RuntimeConfig.fromCli, ConfigFile.fromFileParse, hcp, hr]
    refine ⟨_, rfl, ?_⟩
    apply merge_meant <;> first | rfl | exact schemaPath_resolved _ hne _
  · intro e hr hn
    have : a.configFile.isSome = false := by simp [hn]
    simp only [RuntimeConfig.fromCli, ConfigFile.fromFileParse, hcp, hr, this]
    refine ⟨_, rfl, ?_⟩
    apply merge_meant <;> rfl
  · rintro (⟨e, hr⟩ | ⟨e, hr⟩ | ⟨⟨e, hr⟩, hn⟩)
    · simp only [RuntimeConfig.fromCli, ConfigFile.fromFileParse, hcp, hr]
      exact ⟨_, rfl, by simp [Msg.ioError]⟩
    · simp only [RuntimeConfig.fromCli, ConfigFile.fromFileParse, hcp, hr]
      exact ⟨_, rfl, by simp [Msg.simpleProgramError]⟩
    · have : a.configFile.isSome = true := by cases h : a.configFile <;> simp_all
      simp only [RuntimeConfig.fromCli, ConfigFile.fromFileParse, hcp, hr, this]
      exact ⟨_, rfl, by simp [Msg.ioError]⟩

/-- A config file named on the command line whose relative schema path resolves next to it. -/
example :
    (RuntimeConfig.fromCli 16
      (fun _ => .parsed { schemaPath := some (Path.ofString "s.json"), numThreads := some 3 }) { configFile := some (Path.ofString "conf/q.json") }).toOption.map
      (fun r => (r.schemaPath, r.numberThreads, r.globalTypesModuleName)) =
    some (⟨false, ["conf", "s.json"]⟩, 3, "graphql-globals") ∧
    (configPath { configFile := some (Path.ofString "conf/q.json") }).comps ≠ [] := by decide

/-- C46: custom scalars are printed with prefix `p` exactly if they are enabled by either source and
`p` is the command line's prefix, or there is none there, the config file itself sets `useCustomScalars`
(to anything) and has prefix `p`. -/
theorem C46_custom_scalar_prefix (cpus : Nat) (a : CliArgs) (c : ConfigFile) (p : String) :
    (RuntimeConfig.merge cpus a c).bottomTypeConfig = .realNameWithPrefix p ↔
      (a.useCustomScalars = true ∨ c.useCustomScalars = some true) ∧
      (a.customScalarPrefix = some p ∨
        a.customScalarPrefix = none ∧ c.useCustomScalars ≠ none ∧ c.customScalarPrefix = some p) := by
  simp only [RuntimeConfig.bottomTypeConfig, RuntimeConfig.merge]
  rcases a.useCustomScalars with _ | _ <;> rcases c.useCustomScalars with _ | _ | _ <;>
    cases a.customScalarPrefix <;> cases c.customScalarPrefix <;> simp

/-- C46: they are printed as `any` exactly if neither source enables them, and the config file read by
`from_cli` keeps the two settings involved. -/
theorem C46_custom_scalars_off (cpus : Nat) (a : CliArgs) (c : ConfigFile) :
    ((RuntimeConfig.merge cpus a c).bottomTypeConfig = .defaultBottomType ↔
      ¬ (a.useCustomScalars = true ∨ c.useCustomScalars = some true)) ∧
    (∀ path, ∀ c', ConfigFile.fromFileParse path (fun _ => .parsed c) = .ok c' →
      c'.useCustomScalars = c.useCustomScalars ∧ c'.customScalarPrefix = c.customScalarPrefix) := by
  constructor
  · simp only [RuntimeConfig.bottomTypeConfig, RuntimeConfig.merge]
    rcases a.useCustomScalars with _ | _ <;> rcases c.useCustomScalars with _ | _ | _ <;>
      cases a.customScalarPrefix <;> cases c.customScalarPrefix <;> simp
  · intro path c' h
    simp only [ConfigFile.fromFileParse] at h
    injection h with h
    subst h
    exact ⟨rfl, rfl⟩

/-- The surprising corner of C46: the prefix of the config file is ignored when custom scalars are
only enabled on the command line, but honoured when the config file *disables* them. -/
theorem C46_surprising_corner (cpus : Nat) :
    (RuntimeConfig.merge cpus { useCustomScalars := true } { customScalarPrefix := some "S" }
      ).bottomTypeConfig = .realName ∧
    (RuntimeConfig.merge cpus { useCustomScalars := true }
      { useCustomScalars := some false, customScalarPrefix := some "S" }).bottomTypeConfig =
        .realNameWithPrefix "S" := ⟨rfl, rfl⟩

/-! ### C47: the caret -/

theorem splitNl_append_nl (a b : List Char) (h : '\n' ∉ a) :
    splitNl (a ++ '\n' :: b) = a :: splitNl b := by
  induction a with
  | nil => simp [splitNl]
  | cons c a ih =>
    simp only [List.mem_cons, not_or] at h
    have hc : ¬ c = '\n' := fun e => h.1 e.symm
    simp [splitNl, hc, ih h.2]

theorem splitNl_noNl (a : List Char) (h : '\n' ∉ a) : splitNl a = [a] := by
  induction a with
  | nil => rfl
  | cons c a ih =>
    simp only [List.mem_cons, not_or] at h
    have hc : ¬ c = '\n' := fun e => h.1 e.symm
    simp [splitNl, hc, ih h.2]

theorem spaces_toList (n : Nat) : (spaces n).toList = List.replicate n ' ' := by
  simp [spaces]

/-- The help part of a rendered location, without colours. -/
def helpPart (indent : Nat) : Option String → String
  | none => ""
  | some t => "\n" ++ spaces indent ++ "= help: " ++ t

/-- C47: printed without colours, a location with column `c` shows the source line on its third
output line and a caret on the fourth; the caret is the only visible character right of the bar, and
what stands above it (and to the right) is the quoted line from column `c` on. -/
theorem C47_caret_under_column (style lineNumber line : String) (help : Option String) (c : Nat)
    (hc : c ≥ 1) (hline : '\n' ∉ line.toList) (hnum : '\n' ∉ lineNumber.toList) :
    ∃ rest srcLine caretLine,
      splitNl ((Location.lineEncoding .plain style ⟨lineNumber, line, help, some c⟩).toList) =
        [] :: (List.replicate (lineNumber.length + 1) ' ' ++ ['|']) :: srcLine :: caretLine :: rest ∧
      srcLine = lineNumber.toList ++ " | ".toList ++ line.toList ∧
      ∃ i, caretLine = List.replicate (lineNumber.length + 1) ' ' ++ ['|'] ++
          List.replicate (i - (lineNumber.length + 2)) ' ' ++ ['^'] ∧
        caretLine[i]? = some '^' ∧ srcLine.drop i = line.toList.drop (c - 1) := by
  obtain ⟨helpLines, hh⟩ : ∃ helpLines, ∀ a : List Char, '\n' ∉ a →
      splitNl (a ++ (helpPart (lineNumber.length + 1) help).toList) = a :: helpLines := by
    cases help with
    | none => exact ⟨[], fun a ha => by simpa [helpPart] using splitNl_noNl a ha⟩
    | some t =>
      refine ⟨splitNl (spaces (lineNumber.length + 1) ++ "= help: " ++ t).toList, fun a ha => ?_⟩
      rw [← splitNl_append_nl a _ ha]
      simp [helpPart]
  refine ⟨helpLines, lineNumber.toList ++ " | ".toList ++ line.toList,
    List.replicate (lineNumber.length + 1) ' ' ++ ['|', ' '] ++ List.replicate (c - 1) ' ' ++ ['^'],
    ?_, rfl, lineNumber.length + 2 + c, ?_, ?_, ?_⟩
  · have hrep : ∀ n, '\n' ∉ List.replicate n ' ' := by
      intro n h; have := List.eq_of_mem_replicate h; simp at this
    have e : (Location.lineEncoding .plain style ⟨lineNumber, line, help, some c⟩).toList =
        [] ++ '\n' :: ((List.replicate (lineNumber.length + 1) ' ' ++ ['|']) ++ '\n' ::
          ((lineNumber.toList ++ " | ".toList ++ line.toList) ++ '\n' ::
            ((List.replicate (lineNumber.length + 1) ' ' ++ ['|', ' '] ++
              List.replicate (c - 1) ' ' ++ ['^']) ++ (helpPart (lineNumber.length + 1) help).toList))) := by
      cases help <;> simp [Location.lineEncoding, helpPart, spaces_toList, Paint.plain]
    rw [e, splitNl_append_nl _ _ (by simp), splitNl_append_nl _ _ (by
        simp only [List.mem_append, not_or]; exact ⟨hrep _, by simp⟩),
      splitNl_append_nl _ _ (by
        simp only [List.mem_append, not_or]
        exact ⟨⟨hnum, by decide⟩, hline⟩), hh]
    simp only [List.mem_append, not_or]
    exact ⟨⟨⟨hrep _, by simp⟩, hrep _⟩, by simp⟩
  · have : lineNumber.length + 2 + c - (lineNumber.length + 2) = (c - 1) + 1 := by omega
    rw [this]
    simp [List.replicate_succ]
  · rw [List.getElem?_append_right (by simp; omega)]
    have : lineNumber.length + 2 + c - (List.replicate (lineNumber.length + 1) ' ' ++ ['|', ' '] ++
        List.replicate (c - 1) ' ').length = 0 := by simp; omega
    rw [this]; rfl
  · rw [List.drop_append]
    have h1 : (lineNumber.toList ++ " | ".toList).length = lineNumber.length + 3 := by
      simp [String.length_toList]
    rw [List.drop_eq_nil_of_le (by rw [h1]; omega), h1]
    have : lineNumber.length + 2 + c - (lineNumber.length + 3) = c - 1 := by omega
    rw [this]; rfl

example : ((12 : Nat) ≥ 1) ∧ '\n' ∉ "  user { nmae }".toList ∧ '\n' ∉ (toString 107).toList ∧
    Location.lineEncoding .plain "red" ⟨toString 107, "  user { nmae }", none, some 10⟩ =
      "\n    |\n107 |   user { nmae }\n    |          ^" := by decide

/-- C47: the quoted line of a located diagnostic is the line of the file with the reported number. -/
theorem C47_quotes_the_reported_line (level : Level) (message contents : String) (path : Path)
    (pos : Pos) (help : Option String) (ls : List (List Char)) (hl : IsLines contents.toList ls)
    (l : List Char) (h : ls[pos.line - 1]? = some l) :
    ∃ loc, (Msg.located level message path contents pos help).source = some ⟨path, some loc⟩ ∧
      loc.line.toList = l ∧ loc.lineNumber = toString pos.line ∧ loc.columnNumber = some pos.column ∧
      loc.helpText = help := by
  have h' : (lines contents)[pos.line - 1]? = some (String.ofList l) := by
    unfold lines
    rw [List.getElem?_map, ← (isLines_iff _ _).1 hl, h]
    rfl
  cases help <;>
    simp [Msg.located, Location.ofContentsAndPos, Location.withHelp, h']

example : IsLines "query A {\r\n  b\n}".toList ["query A {".toList, "  b".toList, "}".toList] ∧
    ["query A {".toList, "  b".toList, "}".toList][(⟨2, 3⟩ : Pos).line - 1]? = some "  b".toList :=
  ⟨(isLines_iff _ _).2 (by decide), rfl⟩

/-! ### C48: suggestions -/

/-- C48: no suggestion exactly if no candidate is near; otherwise the text lists, in the given order,
exactly the candidates at distance below 3. -/
theorem C48_suggestions (dist : String → String → Nat) (name : String) (possible : List String) :
    (similarHelp dist name possible = none ↔ ∀ p ∈ possible, 3 ≤ dist name p) ∧
    (∀ text, similarHelp dist name possible = some text →
      ∃ near, near ≠ [] ∧ List.Sublist near possible ∧
        (∀ p, near.count p = if dist name p < 3 then possible.count p else 0) ∧
        text = " Did you mean one of the following: `" ++ joinWith "`, `" near ++ "`?") := by
  simp only [similarHelp]
  constructor
  · cases hf : possible.filter (fun p => decide (dist name p < 3)) with
    | nil => simpa [List.filter_eq_nil_iff] using hf
    | cons a l =>
      simp only [List.isEmpty_cons, Bool.false_eq_true, if_false, reduceCtorEq, false_iff]
      intro h
      have : a ∈ possible.filter (fun p => decide (dist name p < 3)) := by rw [hf]; simp
      simp only [List.mem_filter, decide_eq_true_eq] at this
      have := h a this.1
      omega
  · intro text h
    cases hf : (possible.filter (fun p => decide (dist name p < 3))).isEmpty with
    | true => simp [hf] at h
    | false =>
      simp only [hf] at h
      refine ⟨_, ?_, List.filter_sublist, ?_, (by simpa using h.symm)⟩
      · intro h'; rw [h'] at hf; simp at hf
      · intro p
        by_cases hp : dist name p < 3
        · rw [if_pos hp, List.count_filter (by simpa using hp)]
        · rw [if_neg hp]
          apply List.count_eq_zero.2
          simp [hp]

example : similarHelp (fun a b => if a = b then 0 else if b = "name" then 2 else 3) "nmae"
    ["name", "id"] = some " Did you mean one of the following: `name`?" := by decide

end Qlc
