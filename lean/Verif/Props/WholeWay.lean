import Verif.Spec.WholeWay
import Verif.Props.DocumentNames
import Verif.Props.JsonText
import Verif.Props.Toolchain
/-
C131: the whole way, from the bytes of the files to the types.
-/
set_option autoImplicit false

namespace Qlc
open Spec

/-! ### Only what is in scope under a name matters -/

theorem collect_get {doc : JSchema} {frags frags' : Frags} {applies : List Directive → Prop} {T : String}
    (e : ∀ x, AMap.get? frags x = AMap.get? frags' x) {items : List Selection} {L : List Wanted}
    (h : Collect doc frags applies T items L) : Collect doc frags' applies T items L := by
  induction h with
  | nil => exact .nil
  | leftOutField h1 _ ih => exact .leftOutField h1 ih
  | leftOutInline h1 _ ih => exact .leftOutInline h1 ih
  | leftOutSpread h1 _ ih => exact .leftOutSpread h1 ih
  | field h1 _ ih => exact .field h1 ih
  | inline h1 h2 _ _ ih1 ih2 => exact .inline h1 h2 ih1 ih2
  | otherInline h1 h2 _ ih => exact .otherInline h1 h2 ih
  | spread h1 h2 h3 _ _ ih1 ih2 => exact .spread h1 ((e _).symm.trans h2) h3 ih1 ih2
  | otherSpread h1 h2 h3 _ ih => exact .otherSpread h1 ((e _).symm.trans h2) h3 ih

theorem answers_get {doc : JSchema} {frags frags' : Frags} {applies : List Directive → Prop}
    {scalars : String → JVal → Prop} (e : ∀ x, AMap.get? frags x = AMap.get? frags' x) (n : Nat) :
    AnswersTo doc frags applies scalars n = AnswersTo doc frags' applies scalars n := by
  have hc : Collect doc frags applies = Collect doc frags' applies := by
    funext T items L
    exact propext ⟨collect_get e, collect_get fun x => (e x).symm⟩
  have hm : CollectMany doc frags applies = CollectMany doc frags' applies := by
    funext T sets L
    unfold CollectMany
    rw [hc]
  induction n with
  | zero => rfl
  | succ n ih =>
    funext T sets v
    unfold AnswersTo
    rw [hm, ih]

section
variable {ω : Path → Hash} {ω' : Hash} {fuel threads : Nat} {P : ParserSetup} {dist : String → String → Nat}
  {cfg : CompileConfig} {w : World} {root : Entry} {rootPath : Path} {cwd : List String} {doc : JSchema} {schema : Schema}
  {applies : List Directive → Prop}

/-- **C131.** A complete run over a sound project ends with status 0, and the types that it leaves are right: those of the
data admit every answer of a server, those of the variables everything that the server takes; and nothing else, if the
file meets what exact types need. -/
theorem C131_right_types (hs : Schema.ofJson doc = .ok schema)
    (F : SoundProject (Ext.graphql P dist) cwd w cfg doc schema applies rootPath root)
    {s : PoolSt World} {ms : List Msg} {w' : World}
    (R : RunsTo ω ω' fuel (Ext.graphql P dist) cfg schema rootPath root threads w s ms w') (paint : Paint)
    (scalars env : String → JVal → Prop) (he : ScalarEnv cfg.toTsConfig doc scalars env) :
    (printExitInfo paint ms).code = 0 ∧
    ∃ g : List TsStmt,
      ((∃ n, UsedGlobal ω fuel (Ext.graphql P dist) cfg schema w root n) → HoldsModule w' (globalsId w cfg rootPath) g) ∧
      ((¬ ∃ n, UsedGlobal ω fuel (Ext.graphql P dist) cfg schema w root n) → g = []) ∧
      ∀ p, FoundIn root p → ∃ contents d frags m T₀, w.read p = .ok contents ∧
        (∃ ts, TokensOf (P.place contents.toList) contents.toList ts ∧ IsDocument [d] ts) ∧
        InScope (Ext.graphql P dist) w cfg p contents frags ∧ serverRoot d = some T₀ ∧
        HoldsModule w' (w.resolve (outputPath p)) m ∧
        TypesAdmit doc applies scalars env frags d T₀ m g ∧
        (ExactFile (Ext.graphql P dist) w cfg doc schema scalars env p →
          TypesAdmitOnly doc applies scalars env frags d T₀ m g) := by
  obtain ⟨S, hk, ho, F, hm, hf⟩ := F
  obtain ⟨hr, hd, hg⟩ := C114_paths_apart ho
  obtain ⟨h0, g, g1, g2, hfiles⟩ := C130_right_types hs S hk ho F hm applies hf R paint scalars env he
  refine ⟨h0, g, g1, g2, fun p hp => ?_⟩
  obtain ⟨contents, d, frags, m, hread, hparse, hsc, hmod, m1, m2⟩ := hfiles p hp
  obtain ⟨contents', d', hr', hp', I, hval, hsup⟩ := F.files p hp
  obtain rfl : contents' = contents := Except.ok.inj (hr'.symm.trans hread)
  obtain rfl : d' = d := by
    have := hp'.symm.trans hparse
    simpa using this
  obtain ⟨T₀, hT₀, _⟩ := (hval frags hsc).selections
  obtain ⟨ts, t1, _, t2⟩ := (C127_reads_iff P _ _).1 hparse
  refine ⟨_, _, frags, m, T₀, hread, ⟨ts, t1, t2⟩, hsc, hT₀, hmod, ⟨m1 T₀ hT₀, m2⟩, fun E => ?_⟩
  -- the exact part
  have hcon := loaded_consistent S.valid hs
  obtain ⟨ω₂, fuel₂, text, g', hgc, hgp, g1', g2', hfiles'⟩ := run_texts hr hd hg R paint h0 hs S
  obtain rfl : g' = g := by
    by_cases hu : ∃ n, UsedGlobal ω fuel (Ext.graphql P dist) cfg schema w root n
    · exact holdsModule_unique (g1' hu) (g1 hu)
    · rw [g2 hu, g2' hu]
  obtain ⟨contents₂, d₂, st, op, ws, c, G, hdisk, hsub⟩ := hfiles' p hp
  obtain rfl : contents₂ = contents' := Except.ok.inj (G.readable.symm.trans hread)
  obtain rfl : d₂ = d' := by
    have := G.parses.symm.trans hparse
    simpa using this
  have hsc₂ := inScope_foreign (Ext.graphql P dist) cfg w p (ω p) G.scanned I.names
  obtain ⟨q1, q2⟩ := hm p hp _ _ hr' hp'
  obtain ⟨r1, r2, r3⟩ := ruled_of_text F hp (hf p hp) _ _ hr' hp'
  obtain ⟨r3, r4, r5⟩ := r3 _ hsc₂
  obtain ⟨r5, r6⟩ := r5 T₀ hT₀
  have hfr := fragsValid_of_gql S.valid hs (hval _ hsc₂) (fun name fd hget => q2 fd ((hsc₂ name fd).1 hget).2)
  have hone := oneTypePerKey_of_merging S.valid hs hk (q1 _ hsc₂ T₀ hT₀)
  have D : DocumentFit cfg.toTsConfig doc schema
      (parseForeignFragments (ω p) (Ext.graphql P dist) p st.imports st.messages).1 d₂ applies T₀ :=
    { notSubscription := hsup.notSubscription
      root := hT₀
      oneType := hone
      lookAlikes := C124_look_alikes_agree S.valid hs hone r5 r6
      unconditional := r2
      fragsApply := r3
      name := r4.name
      keys := r4.keys
      fragmentKeys := r4.fragmentKeys
      variablesValid := r1
      variableNames := r4.variableNames
      apart := r4.apart }
  have E₂ := E _ _ hr' hp' _ hsc₂ T₀ hT₀
  obtain ⟨m', g₂, hp1, hp2, hiff⟩ := C92_admits_exactly (ω p) ω₂ fuel fuel₂ cfg.showDeprecationWarnings
    cfg.toTsConfig hs S hfr d₂ op ws T₀ applies G.valid D scalars env he E₂ c G.generated s.aggregate.2 hsub text hgc
  rw [hgp] at hp2
  cases hp2
  obtain rfl : m' = m := holdsModule_unique ⟨_, hdisk, hp1⟩ hmod
  have hget : ∀ x, AMap.get? (parseForeignFragments (ω p) (Ext.graphql P dist) p st.imports st.messages).1 x =
      AMap.get? frags x := inScope_get (Ext.graphql P dist) cfg w p hsc₂ hsc
  refine ⟨fun v hv => ?_, fun hne v hv => ?_⟩
  · obtain ⟨T, hT, ha⟩ := (hiff v).1 hv
    exact ⟨T, hT, fun n => by rw [← answers_get hget n]; exact ha n⟩
  · have hname := name_of_compiled hcon G.valid
    obtain ⟨m₂, g₂, hq1, hq2, hvars⟩ := C80_variables_admit_exactly (ω p) ω₂ fuel fuel₂
      cfg.showDeprecationWarnings cfg.toTsConfig S.valid S.validInputs S.inputLists hs S.writable S.globalsWritable
      S.scalarsApart d₂ op ws T₀ (root_of_server D.notSubscription D.root G.valid) G.valid
      (by rw [hname]; exact D.name) D.keys D.fragmentKeys hne D.variablesValid D.variableNames
      (fun n hn => by rw [hname]; exact D.apart n hn) scalars env (scalars_iff he E₂.tight) c G.generated
      s.aggregate.2 hsub text hgc
    rw [hp1] at hq1
    rw [hgp] at hq2
    cases hq1
    cases hq2
    exact (hvars v).1 hv

end

/-! ### From the bytes -/

theorem configBytes_is {configs : Path → FileRead} {say : List UInt8 → String} {a : CliArgs} {c : ConfigFile}
    (h : ConfigBytes configs a c) : ConfigIs (fun p => ((configs p).asJson say).asConfig) a c := by
  rcases h with ⟨bs, j, h1, h2, h3⟩ | ⟨h1, h2, e, h3⟩
  · refine .inl ?_
    have := (C125_file_iff say bs j (say bs)).2 ⟨h2, rfl⟩
    simp only [h1, FileRead.asJson, this, JsonFile.asConfig, (C63_config_read_by_key j c).2 h3]
  · exact .inr ⟨h1, h2, e, by simp only [h3]; rfl⟩

theorem fromCli_of_configIs {cpus : Nat} {read : Path → ConfigRead} {a : CliArgs} {c : ConfigFile}
    (h : ConfigIs read a c) : ∃ r, RuntimeConfig.fromCli cpus read a = .ok r := by
  have e : Path.ofString ".qlcrc.json" = ⟨false, [".qlcrc.json"]⟩ := by decide
  unfold RuntimeConfig.fromCli ConfigFile.fromFileParse
  rw [e]
  rcases h with h | ⟨h1, _, x, h2⟩
  · simp only [h]
    exact ⟨_, rfl⟩
  · rw [h1]
    simp only [Option.getD_none, h2, Option.isSome_none, Bool.false_eq_true, if_false]
    exact ⟨_, rfl⟩

section
variable {P : ParserSetup} {dist : String → String → Nat} {colours : Paint} {cpus : Nat} {say : List UInt8 → String}
  {configs schemas : Path → FileRead} {tree : Path → Entry} {w : World} {words : List String} {ss : List Setting}
  {a : CliArgs} {c : ConfigFile} {schema : Schema} {cwd : List String} {applies : List Directive → Prop}

/-- **C131.** The schema file holds, in some spelling, what a server answered to the query of the download script; the
configuration file, if there is one, holds settings in some spelling; qlc is started with a command line that names the
schema file, and with one thread; and the project is sound.  Then the program can end, whatever the order of hash maps, if
it is given enough time; and whenever it ends, it ends with status 0, and has left right types for every document. -/
theorem C131_whole_way (srv : Server) (hsh : srv.Shallow) {path : Path} {bs : List UInt8} {j : Json}
    (hfile : schemas path = .bytes bs) (hj : HoldsDocument bs j)
    (hsame : SameFor introspectionKeys (srv.answer introspectionQuery) j)
    (hline : CommandLine ss words) (honce : Once ss) (hprefix : PrefixAllowed ss) (hmeans : Means ss a)
    (hconfig : ConfigBytes configs a c) (hpath : a.schemaPath = some path)
    (hone : a.numThreads = some 1 ∨ a.numThreads = none ∧ c.numThreads = some 1)
    (hs : Schema.ofJson (srv.document (fun _ => none)) = .ok schema)
    (F : SoundProject (Ext.graphql P dist) cwd w (compilationMeant a c) (srv.document (fun _ => none)) schema applies
      (rootMeant a) (tree (rootMeant a)))
    (hn : (filesOf (tree (rootMeant a))).Nodup) :
    (∃ N, ∀ fuel, N ≤ fuel → ∀ ω ω', ∃ f, Invokes ω ω' fuel (Ext.graphql P dist) colours cpus
      (fun p => ((configs p).asJson say).asConfig) (fun p => ((schemas p).asJson say).asSchema) tree w words (.ran f)) ∧
    ∀ fuel ω ω' i, Invokes ω ω' fuel (Ext.graphql P dist) colours cpus
        (fun p => ((configs p).asJson say).asConfig) (fun p => ((schemas p).asJson say).asSchema) tree w words i →
      ∃ f, i = .ran f ∧ f.exit.code = 0 ∧
        ∀ scalars env : String → JVal → Prop,
          ScalarEnv (settingsMeant a c) (srv.document (fun _ => none)) scalars env →
        ∃ g : List TsStmt,
          ((∃ n, UsedGlobal ω fuel (Ext.graphql P dist) (compilationMeant a c) schema w (tree (rootMeant a)) n) →
            HoldsModule f.world (globalsId w (compilationMeant a c) (rootMeant a)) g) ∧
          ((¬ ∃ n, UsedGlobal ω fuel (Ext.graphql P dist) (compilationMeant a c) schema w (tree (rootMeant a)) n) →
            g = []) ∧
          ∀ p, FoundIn (tree (rootMeant a)) p → ∃ contents d frags m T₀, w.read p = .ok contents ∧
            (∃ ts, TokensOf (P.place contents.toList) contents.toList ts ∧ IsDocument [d] ts) ∧
            InScope (Ext.graphql P dist) w (compilationMeant a c) p contents frags ∧ serverRoot d = some T₀ ∧
            HoldsModule f.world (w.resolve (outputPath p)) m ∧
            TypesAdmit (srv.document (fun _ => none)) applies scalars env frags d T₀ m g ∧
            (ExactFile (Ext.graphql P dist) w (compilationMeant a c) (srv.document (fun _ => none)) schema scalars env p →
              TypesAdmitOnly (srv.document (fun _ => none)) applies scalars env frags d T₀ m g) := by
  have hcfg := configBytes_is (say := say) hconfig
  obtain ⟨r, hc⟩ := fromCli_of_configIs (cpus := cpus) hcfg
  obtain ⟨sp, hmerge⟩ := fromCli_merge hcfg hc
  have hcomp : CompileConfig.ofRuntime r = compilationMeant a c := by
    rw [hmerge, ofRuntime_meant]; rfl
  have hroot : r.rootDir = rootMeant a := by
    have := congrArg CompileConfig.rootDir hcomp
    exact this
  have hsp : r.schemaPath = path := by
    rw [hmerge]; simp [RuntimeConfig.merge, hpath]
  have h1 : r.numberThreads = 1 := by
    rw [hmerge]
    rcases hone with h | ⟨h, h'⟩
    · simp [RuntimeConfig.merge, h]
    · simp [RuntimeConfig.merge, h, h']
  have hargs : parseArgs words = .ok a := (line_parse hline a).2 ⟨honce, hprefix, hmeans⟩
  have hps : parseSchema r.schemaPath ((schemas r.schemaPath).asJson say).asSchema = .ok schema := by
    have hj := (C125_file_iff say bs j (say bs)).2 ⟨hj, rfl⟩
    have hd := C87_downloaded_document srv hsh
    rw [C62_other_members_do_not_matter _ _ hsame] at hd
    simp only [hsp, hfile, FileRead.asJson, hj, JsonFile.asSchema, hd, parseSchema, hs]
  rw [← hcomp, ← hroot] at F
  rw [← hroot] at hn
  rw [← hcomp, ← hroot]
  have hset : settingsMeant a c = (CompileConfig.ofRuntime r).toTsConfig := by rw [hcomp]; rfl
  rw [hset]
  obtain ⟨hr, hd, hg⟩ := C114_paths_apart F.ordinary
  constructor
  · obtain ⟨N, hN⟩ := C111_valid_project_completes F.schemaFit.valid hs F.fine hr hd hg hn .plain
    refine ⟨N, fun fuel hf ω ω' => ?_⟩
    obtain ⟨n, K, ms, w', _, R, _, _⟩ := hN fuel hf ω ω' (fun _ => (0, 1)) 1 (by decide) (fun _ => Nat.one_pos)
      (fun i hi n => ⟨n, Nat.le_refl _, by show 0 = i; omega⟩) (.inl rfl)
    obtain ⟨w'', R, _⟩ := C66_whole_program hr hd hn K ms w' R
    obtain ⟨sched, hreach⟩ := R.reached
    refine ⟨_, .ran a _ hargs (.finished r schema sched ms w'' K.pool hc hps ?_ R.finished R.globals)⟩
    rw [h1]
    exact hreach
  · intro fuel ω ω' i run
    cases run with
    | stopped e h => rw [hargs] at h; cases h
    | ran a' f ha hrun =>
    obtain rfl : a = a' := Except.ok.inj (hargs.symm.trans ha)
    obtain ⟨⟨s, ms, R, hexit⟩, _⟩ := C74_one_thread hrun hc h1 hps hr hd hg
    refine ⟨f, rfl, ?_, fun scalars env he => ?_⟩
    · rw [hexit]
      exact (C111_valid_project_succeeds F.schemaFit.valid hs F.fine hr hd hg R _).1
    · exact (C131_right_types hs F R .plain scalars env he).2

end

/-! ### A concrete case -/

namespace Demo

mutual
/-- A JSON text without white space, for strings without escapes. -/
def jsonChars : Json → List Char
  | .null => "null".toList
  | .bool b => (if b then "true" else "false").toList
  | .nat n => (toString n).toList
  | .num s => s.toList
  | .str s => ['"'] ++ s.toList ++ ['"']
  | .arr xs => ['['] ++ (itemChars xs).drop 1 ++ [']']
  | .obj ms => ['{'] ++ (memberChars ms).drop 1 ++ ['}']
/-- The items of an array, each after a comma. -/
def itemChars : List Json → List Char
  | [] => []
  | x :: xs => [','] ++ jsonChars x ++ itemChars xs
/-- The members of an object, each after a comma. -/
def memberChars : List (String × Json) → List Char
  | [] => []
  | (k, x) :: ms => [',', '"'] ++ k.toList ++ ['"', ':'] ++ jsonChars x ++ memberChars ms
end

/-- `answers`, evaluated step by step. -/
def answersIn : Nat → List Ask → Node → List (String × Json)
  | 0, _, _ => []
  | _ + 1, [], _ => []
  | k + 1, .mk field withDeprecated items :: rest, n =>
    (match n.get withDeprecated field with
      | none => []
      | some (.leaf j) => [(field, j)]
      | some .null => [(field, .null)]
      | some (.one m) => [(field, .obj (answersIn k items m))]
      | some (.many ms) => [(field, .arr (ms.map (fun m => .obj (answersIn k items m))))]) ++
      answersIn k rest n

/-- So many steps are enough. -/
def enoughFor : Nat → List Ask → Bool
  | 0, _ => false
  | _ + 1, [] => true
  | k + 1, .mk _ _ items :: rest => enoughFor k items && enoughFor k rest

/-- The tree in the schema file. -/
def wayTree : Json := .obj [("data", .obj (answersIn 200 introspectionQuery (.root server)))]

/-- The text of the schema file. -/
def wayText : List Char := jsonChars wayTree

end Demo

theorem answersIn_eq : ∀ (k : Nat) (q : List Ask) (n : Node), Demo.enoughFor k q = true →
    Demo.answersIn k q n = answers q n
  | 0, _, _, h => by simp [Demo.enoughFor] at h
  | _ + 1, [], n, _ => by simp [Demo.answersIn, answers]
  | k + 1, .mk field dep items :: rest, n, h => by
    simp only [Demo.enoughFor, Bool.and_eq_true] at h
    have h1 := fun m => answersIn_eq k items m h.1
    simp only [Demo.answersIn, answers, answersIn_eq k rest n h.2, h1]
    rfl

theorem way_tree : Demo.wayTree = Demo.server.answer introspectionQuery := by
  unfold Demo.wayTree Server.answer
  rw [answersIn_eq 200 _ _ (by decide +kernel)]

theorem way_text : DocumentText Demo.wayTree Demo.wayText := text_of_check (by decide +kernel)

namespace Demo

/-- The file system. -/
def wayWorld : World where
  resolve := Path.display
  disk := fun id => if id = "/r/q.graphql" then .ok "query Q { new color }" else .error "missing"
  writeErr := fun _ => none

/-- The parser. -/
def wayExt : Ext := Ext.graphql parser toolExt.dist

/-- The bytes of the schema file. -/
def waySchemas : Path → FileRead := fun p =>
  if p = ⟨true, ["s.json"]⟩ then .bytes (utf8Bytes wayText) else .notFound "no such file"

/-- The text of the configuration file. -/
def wayConfigText : List Char := "{ \"numThreads\" : 1 }\n".toList

/-- The bytes of the configuration file. -/
def wayConfigs : Path → FileRead := fun p =>
  if p = ⟨false, [".qlcrc.json"]⟩ then .bytes (utf8Bytes wayConfigText) else .notFound "no such file"

def wayConfig : ConfigFile := { numThreads := some 1 }

def waySettings : List Setting := [.rootDir ⟨true, ["r"]⟩, .schemaPath ⟨true, ["s.json"]⟩]

def wayWords : List String := ["/r", "-s", "/s.json"]

def wayArgs : CliArgs := { rootDir := some ⟨true, ["r"]⟩, schemaPath := some ⟨true, ["s.json"]⟩ }

end Demo

theorem way_line : CommandLine Demo.waySettings Demo.wayWords := by
  have e1 : (⟨true, ["r"]⟩ : Path) = Path.ofString "/r" := by decide
  have e2 : (⟨true, ["s.json"]⟩ : Path) = Path.ofString "/s.json" := by decide
  unfold Demo.waySettings
  rw [e1, e2]
  refine .plain (.cons (ws := ["/r"]) (.directory (by decide) ?_)
    (.cons (ws := ["-s", "/s.json"]) (.shortNext (.schemaPath (by decide)) .schemaPath ?_) .nil))
  · rintro ⟨c, cs, h⟩
    simp at h
  · rintro ⟨c, cs, h⟩
    simp at h

theorem way_accepted : Once Demo.waySettings ∧ PrefixAllowed Demo.waySettings ∧ Means Demo.waySettings Demo.wayArgs :=
  (line_parse way_line _).1 rfl

theorem way_config : ConfigBytes Demo.wayConfigs Demo.wayArgs Demo.wayConfig := by
  refine .inl ⟨utf8Bytes Demo.wayConfigText, .obj [("numThreads", .nat 1)], rfl,
    ⟨_, rfl, text_of_check (by decide +kernel)⟩, (C63_config_read_by_key _ _).1 rfl⟩

theorem way_cfg : compilationMeant Demo.wayArgs Demo.wayConfig = Demo.toolCfg := rfl

theorem way_read : Demo.wayWorld.read Demo.qPath = .ok "query Q { new color }" := rfl

theorem way_parse : Demo.wayExt.parse "query Q { new color }" = .ok [Demo.toolQuery] :=
  holdsOnlyB_sound (P := Demo.parser) (text := "query Q { new color }") (d := Demo.toolQuery) (by decide +kernel)

theorem way_noImports {cfg : CompileConfig} {p : Path} {il : ImportLine} {r : Path} :
    ¬ Imports cfg p "query Q { new color }" il r := by
  rintro ⟨h1, _⟩
  have : (importsOf "query Q { new color }").length = 0 := by decide +kernel
  rw [List.length_eq_zero_iff.1 this] at h1
  simp at h1

theorem way_reads {q : Path} (h : Spec.Reads Demo.wayWorld Demo.toolCfg Demo.qPath q) : q = Demo.qPath := by
  induction h with
  | self => rfl
  | imported _ hr hi ih =>
    subst ih
    rw [way_read] at hr
    cases Except.ok.inj hr
    exact absurd hi way_noImports

theorem way_loads {q : Path} : ¬ Loads Demo.wayWorld Demo.toolCfg Demo.qPath "query Q { new color }" q := by
  intro h
  cases h with
  | direct hi _ => exact way_noImports hi
  | trans hi _ _ => exact way_noImports hi

theorem way_scope {frags : Frags}
    (h : InScope Demo.wayExt Demo.wayWorld Demo.toolCfg Demo.qPath "query Q { new color }" frags) :
    ∀ x fd, AMap.get? frags x = some fd → False := by
  intro x fd hx
  obtain ⟨_, q, c, hl, _⟩ := (h x fd).1 hx
  exact way_loads hl

theorem way_ordinary : Ordinary [] Demo.wayWorld Demo.toolCfg ⟨true, ["r"]⟩ Demo.toolTree := by
  refine ⟨⟨_, rfl, ?_⟩, ?_, ⟨"graphql-globals.ts", by decide +kernel, ?_⟩, ?_⟩
  · intro e he
    have hq : ProperName "q.graphql" := by constructor <;> decide
    rw [List.mem_singleton] at he
    subst he
    exact Listed.file (d := ⟨true, ["r"]⟩) hq
  · intro p q hp hq
    obtain rfl := tool_found hp
    obtain rfl := way_reads hq
    decide +kernel
  · exact noDot_ts (n := "graphql-globals") (by decide)
  · have hall : ∀ p, Touched Demo.wayWorld Demo.toolCfg ⟨true, ["r"]⟩ Demo.toolTree p →
        p ∈ [Demo.qPath, outputPath Demo.qPath, ⟨true, ["r", "graphql-globals.ts"]⟩] := by
      intro p hp
      cases hp with
      | read h1 h2 =>
        obtain rfl := tool_found h1
        obtain rfl := way_reads h2
        simp
      | output h1 =>
        obtain rfl := tool_found h1
        simp
      | globals =>
        have : globalsPath Demo.toolCfg ⟨true, ["r"]⟩ = ⟨true, ["r", "graphql-globals.ts"]⟩ := by decide +kernel
        rw [this]
        simp
    have key : ∀ p ∈ [Demo.qPath, outputPath Demo.qPath, ⟨true, ["r", "graphql-globals.ts"]⟩],
        ∀ q ∈ [Demo.qPath, outputPath Demo.qPath, ⟨true, ["r", "graphql-globals.ts"]⟩],
        Path.display p = Path.display q → place [] p = place [] q := by decide +kernel
    exact fun p q hp hq e => key p (hall p hp) q (hall q hq) e

theorem way_importsFine : ImportsFine Demo.wayExt Demo.wayWorld Demo.toolCfg Demo.qPath "query Q { new color }" where
  closed := by
    intro h
    cases h with
    | here h1 _ =>
      have : (importsOf "query Q { new color }").length = 0 := by decide +kernel
      rw [List.length_eq_zero_iff.1 this] at h1
      simp at h1
    | there hi _ _ => exact way_noImports hi
  readable := by
    intro m h
    cases h with
    | here hi _ => exact way_noImports hi
    | there hi _ _ => exact way_noImports hi
  fragments := fun q c hl _ => absurd hl way_loads
  names := fun f f' ⟨_, _, hl, _⟩ _ _ => absurd hl way_loads
  finite := .intro _ (fun _ ⟨_, hi, _⟩ => absurd hi way_noImports)

theorem way_projectFine :
    ProjectFine Demo.wayExt Demo.wayWorld Demo.toolCfg Demo.toolDoc ⟨true, ["r"]⟩ Demo.toolTree where
  directories := by decide +kernel
  files := fun p hp => by
    obtain rfl := tool_found hp
    refine ⟨_, Demo.toolQuery, way_read, way_parse, way_importsFine, fun frags hsc => ?_, ?_⟩
    · refine gqlValid_congr (frags := []) ?_ (gqlValidB_sound (by decide +kernel))
      intro n
      cases hg : AMap.get? frags n with
      | none => rfl
      | some f => exact (way_scope hsc n f hg).elim
    · exact supported_of_check (by intro _ _ h; exact Definition.noConfusion h) rfl (by decide +kernel) (by decide)
        (by decide +kernel)
  outputs := fun _ _ => rfl
  globalsFile := rfl
  inputs := tool_schema.validInputs
  noNesting := by
    intro n h
    have hno : ∀ a b, ¬ InputNests Demo.toolDoc a b := by
      intro a b h
      have hm := inputNests_mem h
      have hall : ∀ a ∈ Demo.toolDoc.types.map JType.name, inputFields Demo.toolDoc a = [] := by decide +kernel
      obtain ⟨name, t, hf, _⟩ := h
      unfold inputFieldType at hf
      rw [hall a hm] at hf
      simp [lastNamed] at hf
    cases h with
    | single h => exact hno _ _ h
    | tail _ h => exact hno _ _ h

theorem way_sound : SoundProject Demo.wayExt [] Demo.wayWorld Demo.toolCfg Demo.toolDoc Demo.toolSchema
    (fun d => d.isEmpty = true) ⟨true, ["r"]⟩ Demo.toolTree where
  schemaFit := tool_schema
  namedTypes := keeps_of_noNarrowing (noNarrowingB_sound (by decide +kernel))
  ordinary := way_ordinary
  fine := way_projectFine
  merging := by
    intro p hp contents d hr hd
    obtain rfl := tool_found hp
    rw [way_read] at hr
    cases hr
    rw [way_parse] at hd
    cases hd
    refine ⟨fun frags hsc P _ T _ n => ?_, fun f ⟨_, _, hl, _⟩ => absurd hl way_loads⟩
    refine mergesWell_of_keys (A := keyNames (itemsOf Demo.toolQuery)) (by decide) ?_ n T _ ?_
    · exact fun x fd hx => (way_scope hsc x fd hx).elim
    · intro s hs a ha
      rw [List.mem_singleton] at hs
      subst hs
      exact ha
  ruled := by
    intro p hp contents d hr hd
    obtain rfl := tool_found hp
    rw [way_read] at hr
    cases hr
    rw [way_parse] at hd
    cases hd
    refine ⟨tool_document.variablesValid, tool_document.unconditional,
      ⟨by decide, by decide, tool_document.apart⟩, fun frags hsc =>
        ⟨fun x fd hx => (way_scope hsc x fd hx).elim, fun P hP => ?_⟩⟩
    cases hP
    have hb : oneTypeB Demo.toolSchema ((keyNames (itemsOf Demo.toolQuery)).map Prod.snd) = true := by decide +kernel
    refine ⟨shapes_of_keys tool_valid tool_loads (A := keyNames (itemsOf Demo.toolQuery)) (by decide)
      (fun a ha P P' f f' h1 h2 => oneTypeB_sound hb (List.mem_map.2 ⟨a, ha, rfl⟩) h1 h2)
      (fun x fd hx => (way_scope hsc x fd hx).elim) ?_, ?_⟩
    · intro s hs a ha
      rw [List.mem_singleton] at hs
      subst hs
      exact ha
    · exact .field (fun _ _ _ => .nil) (.field (fun _ _ _ => .nil) .nil)

theorem way_exact : ExactFile Demo.wayExt Demo.wayWorld Demo.toolCfg Demo.toolDoc Demo.toolSchema stringScalars tightEnv
    Demo.qPath := by
  intro contents d hr hd frags hsc P hP
  rw [way_read] at hr
  cases hr
  rw [way_parse] at hd
  cases hd
  cases hP
  cases frags with
  | nil => exact tool_exact
  | cons e r => exact (way_scope hsc e.1 e.2 (by simp [AMap.get?])).elim

/-- Three words are typed; the project, the configuration and the downloaded schema lie on the disk as texts.  The program
can end, and if it ends, the output file holds a type that admits exactly the answers of the server, for example
`{"new": [1, 2], "color": "RED"}`. -/
theorem C131_demo :
    (∃ fuel f, Invokes (fun _ => .reversed) .inOrder fuel Demo.wayExt .plain 16
      (fun p => ((Demo.wayConfigs p).asJson (fun _ => "EOF")).asConfig)
      (fun p => ((Demo.waySchemas p).asJson (fun _ => "EOF")).asSchema) (fun _ => Demo.toolTree) Demo.wayWorld
      ["/r", "-s", "/s.json"] (.ran f)) ∧
    ∀ fuel ω ω' i, Invokes ω ω' fuel Demo.wayExt .plain 16
        (fun p => ((Demo.wayConfigs p).asJson (fun _ => "EOF")).asConfig)
        (fun p => ((Demo.waySchemas p).asJson (fun _ => "EOF")).asSchema) (fun _ => Demo.toolTree) Demo.wayWorld
        ["/r", "-s", "/s.json"] i →
      ∃ f g m, i = .ran f ∧ f.exit.code = 0 ∧ HoldsModule f.world "/r/q.graphql.d.ts" m ∧
        ∀ v, (∀ n, ModuleAdmits m (linked g tightEnv) n "Q" v) ↔ ∃ T ∈ objectTypes Demo.toolDoc "Query",
          ∀ n, AnswersTo Demo.toolDoc [] (fun d => d.isEmpty = true) stringScalars n T [itemsOf Demo.toolQuery] v := by
  obtain ⟨⟨N, hN⟩, hall⟩ := C131_whole_way (P := Demo.parser) (dist := Demo.toolExt.dist) (colours := .plain) (cpus := 16)
    (say := fun _ => "EOF") (configs := Demo.wayConfigs) (schemas := Demo.waySchemas) (tree := fun _ => Demo.toolTree)
    (w := Demo.wayWorld) (words := Demo.wayWords) (ss := Demo.waySettings) (a := Demo.wayArgs) (c := Demo.wayConfig)
    (schema := Demo.toolSchema) Demo.server tool_shallow (path := ⟨true, ["s.json"]⟩) rfl ⟨_, rfl, way_text⟩
    (by rw [way_tree]; exact .refl _) way_line way_accepted.1 way_accepted.2.1 way_accepted.2.2 way_config rfl
    (.inr ⟨rfl, rfl⟩) tool_loads way_sound (by decide +kernel)
  refine ⟨⟨N, hN N (Nat.le_refl _) _ _⟩, fun fuel ω ω' i run => ?_⟩
  obtain ⟨f, h1, h2, hg⟩ := hall fuel ω ω' i run
  obtain ⟨g, _, _, hfiles⟩ := hg stringScalars tightEnv tool_env
  obtain ⟨contents, d, frags, m, T₀, hr, ⟨ts, t1, t2⟩, hsc, hT, hm, had, honly⟩ := hfiles Demo.qPath
    ((mem_filesOf _ _).1 (by decide +kernel))
  have hrd : Demo.wayWorld.read Demo.qPath = .ok contents := hr
  rw [way_read] at hrd
  cases hrd
  obtain ⟨ts', t1', _, t2'⟩ := (C127_reads_iff Demo.parser "query Q { new color }" [Demo.toolQuery]).1 way_parse
  obtain rfl := C127_one_sequence t1 t1'
  have := C127_one_document t2 t2'
  cases this
  cases hT
  obtain rfl : frags = [] := by
    cases frags with
    | nil => rfl
    | cons e r => exact (way_scope hsc e.1 e.2 (by simp [AMap.get?])).elim
  exact ⟨f, g, m, h1, h2, hm, fun v => ⟨(honly way_exact).1 v, fun ⟨T, hT, hv⟩ => had.1 T hT v hv⟩⟩

end Qlc
