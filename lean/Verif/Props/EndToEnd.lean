import Verif.Spec.EndToEnd
import Verif.Props.Program
import Verif.Props.Inputs
import Verif.Props.Library
import Verif.Props.Alike
/-
C89: what a successful run leaves on the disk.
-/
set_option autoImplicit false

namespace Qlc
open Spec

theorem no_globals_text (cfg : TsConfig) (schema : Schema) :
    compileGlobals .inOrder 1 cfg schema [] = some (.ok header) := by
  unfold compileGlobals globalTypesFromNames
  rfl

section
variable {ω : Path → Hash} {ω' : Hash} {fuel threads : Nat} {ext : Ext} {cfg : CompileConfig}
  {schema : Schema} {rootPath : Path} {root : Entry} {w : World} {s : PoolSt World} {ms : List Msg}
  {w' : World} {doc : JSchema}

theorem loads_trans {w : World} {cfg : CompileConfig} {p : Path} {contents : String} {q : Path} {c : String}
    {r : Path} (h : Loads w cfg p contents q) (hq : w.read q = .ok c) (h' : Loads w cfg q c r) :
    Loads w cfg p contents r := by
  induction h with
  | direct hi hr =>
    rw [hr] at hq
    injection hq with hq
    subst hq
    exact .trans hi hr h'
  | trans hi hr _ ih => exact .trans hi hr (ih hq h')

theorem valid_more {frags frags' : Frags}
    (h : ∀ n f, AMap.get? frags n = some f → ∃ f', AMap.get? frags' n = some f') {P : String}
    {items : List Selection} (hv : Valid schema frags P items) : Valid schema frags' P items := by
  intro P' N' sel ho
  have := hv P' N' sel ho
  cases sel with
  | field => exact this
  | inline => exact this
  | spread pos name dirs =>
    obtain ⟨f, hf⟩ := this
    exact h name f hf

/-- A file that is compiled without an error was read, parsed, valid and generated. -/
theorem generates_of_fine (F : AllFine ω fuel ext cfg schema w rootPath root) {p : Path} (hp : FoundIn root p) :
    ∃ r rep contents d st op ws c, compileFile (ω p) fuel ext cfg schema w p = some (.done r) ∧
      r.result = .ok rep ∧ Generates (ω p) fuel ext cfg schema w p contents d st op ws c := by
  obtain ⟨msgs, gs, ⟨r, hc, hres⟩, hlev⟩ := F.files p hp
  have hok : ∃ rep, r.result = .ok rep := by
    rcases hres with ⟨rep, h, _⟩ | ⟨h, _⟩
    · exact ⟨rep, h⟩
    · obtain ⟨m, hm, hl⟩ := failed_has_error hc h
      exact absurd (hlev m hm) hl
  obtain ⟨rep, hrep⟩ := hok
  rcases C41_writes_only_its_output (ω p) fuel ext cfg schema w p r hc with
    ⟨contents, d, st, op, ws, c, G, _⟩ | ⟨_, _, es, he⟩
  · exact ⟨r, rep, contents, d, st, op, ws, c, hc, hrep, G⟩
  · rw [hrep] at he; simp at he

/-- **C90.** After a run with exit status 0, in every file whose imports lie in the tree, all imported
fragments are valid: nothing that was selected is missing from its generated type because of an invalid
fragment (C12). -/
theorem C90_imported_fragments_valid (hr : NoOutputRead w cfg root) (hd : OutputsDistinct w root)
    (hg : GlobalsApart w cfg rootPath root)
    (R : RunsTo ω ω' fuel ext cfg schema rootPath root threads w s ms w') (paint : Paint)
    (h0 : (printExitInfo paint ms).code = 0) (hcon : Consistent schema) (p : Path) (contents : String)
    (d : Definition) (st : ImportSt) (op : Operation) (ws : List Warning) (c : Compile)
    (G : Generates (ω p) fuel ext cfg schema w p contents d st op ws c)
    (hin : ImportsInTree w cfg root p contents) :
    FragsValid schema (parseForeignFragments (ω p) ext p st.imports st.messages).1 := by
  have F := (C74_exit_status hr hd hg R paint).1 h0
  obtain ⟨c1, c2, _, _⟩ := C35_import_closure w cfg fuel p contents st G.scanned
  obtain ⟨s1, s2, _⟩ := C39_scope_and_errors (ω p) ext p st.imports st.messages
  intro name fd hget
  obtain ⟨_, ⟨q, c', loc⟩, he, hdef⟩ := s1 name fd hget
  have hq := (c1 q).1 ⟨c', loc, he⟩
  have hread := c2 q c' loc he
  obtain ⟨r₂, rep₂, contents₂, d₂, st₂, op₂, ws₂, cc₂, _, _, G₂⟩ := generates_of_fine F (hin q hq)
  have e1 := G₂.readable
  rw [hread] at e1
  have e1 := Except.ok.inj e1
  subst e1
  have e2 := G₂.parses
  have hdef : ext.parse c' = .ok [.fragment fd] := hdef
  rw [hdef] at e2
  have e2 := (List.cons.inj (Except.ok.inj e2)).1
  subst e2
  obtain ⟨P, hP, hcomp, hval, _⟩ := (C07_compiles_iff_valid (ω q) fuel _ hcon _ _ _ G₂.valid).1 ⟨_, rfl⟩
  injection hP with hP
  subst hP
  refine ⟨hcomp, valid_more ?_ hval⟩
  intro n f hn
  obtain ⟨t1, _, _⟩ := C39_scope_and_errors (ω q) ext q st₂.imports st₂.messages
  obtain ⟨rfl, ⟨q₃, c₃, loc₃⟩, he₃, hdef₃⟩ := t1 n f hn
  obtain ⟨d1, d2, _, _⟩ := C35_import_closure w cfg fuel q c' st₂ G₂.scanned
  have hl := loads_trans hq hread ((d1 q₃).1 ⟨c₃, loc₃, he₃⟩)
  obtain ⟨c₄, loc₄, he₄⟩ := (c1 q₃).2 hl
  have e4 := c2 q₃ c₄ loc₄ he₄
  rw [d2 q₃ c₃ loc₃ he₃] at e4
  have e4 := Except.ok.inj e4
  subst e4
  exact s2 _ he₄ f hdef₃

/-- The texts that a run with exit status 0 leaves on the disk, and how they came about. -/
theorem run_texts (hr : NoOutputRead w cfg root) (hd : OutputsDistinct w root)
    (hg : GlobalsApart w cfg rootPath root)
    (R : RunsTo ω ω' fuel ext cfg schema rootPath root threads w s ms w') (paint : Paint)
    (h0 : (printExitInfo paint ms).code = 0)
    (hs : Schema.ofJson doc = .ok schema) (S : SchemaFit cfg.toTsConfig doc) :
    ∃ ω₂ fuel₂ text g, compileGlobals ω₂ fuel₂ cfg.toTsConfig schema s.aggregate.2 = some (.ok text) ∧
      parseModule text = some g ∧
      ((∃ n, UsedGlobal ω fuel ext cfg schema w root n) → HoldsModule w' (globalsId w cfg rootPath) g) ∧
      ((¬ ∃ n, UsedGlobal ω fuel ext cfg schema w root n) → g = []) ∧
      ∀ p, FoundIn root p → ∃ contents d st op ws c,
        Generates (ω p) fuel ext cfg schema w p contents d st op ws c ∧
        w'.disk (w.resolve (outputPath p)) = .ok c.contents ∧ ∀ n ∈ c.globalTypesUsed, n ∈ s.aggregate.2 := by
  have A := after_run hr hd hg R
  have F := (C74_exit_status hr hd hg R paint).1 h0
  -- the text of the globals
  have hglob : ∃ ω₂ fuel₂ text g, compileGlobals ω₂ fuel₂ cfg.toTsConfig schema s.aggregate.2 = some (.ok text) ∧
      parseModule text = some g ∧
      ((∃ n, UsedGlobal ω fuel ext cfg schema w root n) → HoldsModule w' (globalsId w cfg rootPath) g) ∧
      ((¬ ∃ n, UsedGlobal ω fuel ext cfg schema w root n) → g = []) := by
    have hused := usedGlobal_iff A
    rcases A.globals with ⟨hn, _, _⟩ | ⟨hn, r, hc, ⟨e, rfl, hm, _⟩ | ⟨text, rfl, hdisk, hm⟩⟩
    · rw [hn]
      refine ⟨.inOrder, 1, _, [], no_globals_text _ _, by decide +kernel, ?_, fun _ => rfl⟩
      rintro ⟨n, hnu⟩
      rw [← hused, hn] at hnu
      simp at hnu
    · exfalso
      have := ((C43_exit_zero_iff_no_error paint ms).1.1 h0) e.toMsg (by rw [hm]; simp)
      exact tsError_level e this
    · obtain ⟨names, g, h1, _, _, _⟩ := C78_globals_are_a_module ω' fuel s.aggregate.2 hs S.validInputs
        S.globalsWritable _ hc
      refine ⟨ω', fuel, text, g, hc, h1, ?_, ?_⟩
      · intro hex
        refine ⟨text, ?_, h1⟩
        rw [hdisk]
        have hwe := F.written hex
        unfold World.write globalsId at *
        rw [hwe]
        simp [World.put]
      · intro hno
        exfalso
        obtain ⟨n, hnm⟩ := List.exists_mem_of_ne_nil _ hn
        exact hno ⟨n, (hused n).1 hnm⟩
  obtain ⟨ω₂, fuel₂, text, g, hgc, hgp, g1, g2⟩ := hglob
  refine ⟨ω₂, fuel₂, text, g, hgc, hgp, g1, g2, ?_⟩
  intro p hp
  obtain ⟨r, rep, _, _, _, _, _, _, hc, hrep, _⟩ := generates_of_fine F hp
  rcases C41_writes_only_its_output (ω p) fuel ext cfg schema w p r hc with
    ⟨contents, d, st, op, ws, c, G, _, hw, _⟩ | ⟨_, _, es, he⟩
  case inr => rw [hrep] at he; simp at he
  have hdisk : w'.disk (w.resolve (outputPath p)) = .ok c.contents := by
    rw [A.outputs p hp, ← (hw rep hrep).1]
    have : (poolCompile ω fuel ext cfg schema w p).2 = r.world := by
      simp [poolCompile, hc, hrep]
    rw [this]
  have hsub : ∀ n ∈ c.globalTypesUsed, n ∈ s.aggregate.2 := by
    intro n hn
    rw [A.used]
    refine ⟨p, hp, ?_⟩
    unfold globalsOfFile
    have : (poolCompile ω fuel ext cfg schema w p).1 = .done rep.globalTypesUsed rep.messages := by
      simp [poolCompile, hc, hrep]
    rw [this]
    simpa [(hw rep hrep).2] using hn
  exact ⟨contents, d, st, op, ws, c, G, hdisk, hsub⟩

/-- The variables of a fit document can be written. -/
theorem fit_variables {doc : JSchema} {schema : Schema} {frags : Frags} {tcfg : TsConfig} {d : Definition}
    {applies : List Directive → Prop} {P : String} {ω : Hash} {fuel : Nat} {showDep : Bool} {op : Operation}
    {ws : List Warning} (hs : Schema.ofJson doc = .ok schema) (S : SchemaFit tcfg doc)
    (D : DocumentFit tcfg doc schema frags d applies P)
    (h : Operation.compile ω fuel ⟨schema, showDep, frags⟩ d = some (.ok op, ws)) :
    VarsWritable schema (op.variables.getD []) := by
  have hcon := loaded_consistent S.valid hs
  by_cases hne : varsOf d = []
  · obtain ⟨_, _, h3⟩ := finish_ok (compiled_finish hcon h)
    have := (variables_none_iff h3).2 hne
    rw [this]
    intro v hv
    simp at hv
  · obtain ⟨us, ho, h1, h2⟩ := variables_facts hcon h hne
    rw [ho]
    exact varsWritable_of hs S.globalsWritable D.variablesValid D.variableNames h1

/-- **C89.** After a complete run with exit status 0, however the threads were scheduled: the globals file is
a TypeScript module, or there is none because no file uses a global; and for every file of the tree whose
document is fit and whose imports lie in the tree, the output file is a TypeScript module whose data type admits every response of a server, and
whose variables type admits every object of variables that a server takes, when imported names mean what the
globals file says. -/
theorem C89_successful_run (hr : NoOutputRead w cfg root) (hd : OutputsDistinct w root)
    (hg : GlobalsApart w cfg rootPath root)
    (R : RunsTo ω ω' fuel ext cfg schema rootPath root threads w s ms w') (paint : Paint)
    (h0 : (printExitInfo paint ms).code = 0)
    (hs : Schema.ofJson doc = .ok schema) (S : SchemaFit cfg.toTsConfig doc)
    (scalars env : String → JVal → Prop) (he : ScalarEnv cfg.toTsConfig doc scalars env) :
    ∃ g : List TsStmt,
      ((∃ n, UsedGlobal ω fuel ext cfg schema w root n) → HoldsModule w' (globalsId w cfg rootPath) g) ∧
      ((¬ ∃ n, UsedGlobal ω fuel ext cfg schema w root n) → g = []) ∧
      ∀ p, FoundIn root p → ∃ contents d st op ws c,
        Generates (ω p) fuel ext cfg schema w p contents d st op ws c ∧
        w'.disk (w.resolve (outputPath p)) = .ok c.contents ∧
        (ImportsInTree w cfg root p contents → ∀ applies P, DocumentFit cfg.toTsConfig doc schema
            (parseForeignFragments (ω p) ext p st.imports st.messages).1 d applies P →
          ∃ m, HoldsModule w' (w.resolve (outputPath p)) m ∧
            (∀ T ∈ objectTypes doc P, ∀ v,
              (∀ n, AnswersTo doc (parseForeignFragments (ω p) ext p st.imports st.messages).1 applies
                scalars n T [itemsOf d] v) →
              ∀ n, ModuleAdmits m (linked g env) n (dataName d) v) ∧
            (varsOf d ≠ [] → ∀ v, VariablesOf doc scalars (varsOf d) v →
              ∀ n, ModuleAdmits m (linked g env) n (dataName d ++ "Variables") v)) := by
  have hcon := loaded_consistent S.valid hs
  obtain ⟨ω₂, fuel₂, text, g, hgc, hgp, g1, g2, hfiles⟩ := run_texts hr hd hg R paint h0 hs S
  refine ⟨g, g1, g2, ?_⟩
  intro p hp
  obtain ⟨contents, d, st, op, ws, c, G, hdisk, hsub⟩ := hfiles p hp
  refine ⟨contents, d, st, op, ws, c, G, hdisk, ?_⟩
  intro hin applies P D
  have hfr := C90_imported_fragments_valid hr hd hg R paint h0 hcon p contents d st op ws c G hin
  have hP := root_of_server D.notSubscription D.root G.valid
  have hsame := (C23_same_bodies_iff (ω p) fuel cfg.showDeprecationWarnings hcon hfr d op ws P hP G.valid
    D.oneType).2 D.lookAlikes
  have hname := name_of_compiled hcon G.valid
  have hmain : IsBinding op.name := by rw [hname]; exact D.name
  have hvs := fit_variables hs S D G.valid
  obtain ⟨m, g', hp1, hp2, hresp⟩ := C81_responses_inhabit_both_texts (ω p) ω₂ fuel fuel₂
    cfg.showDeprecationWarnings cfg.toTsConfig S.valid S.validInputs hs S.lists S.writable S.globalsWritable
    S.scalarsApart hfr d op ws P D.notSubscription D.root G.valid D.oneType hsame applies
    D.unconditional D.fragsApply hmain D.keys D.fragmentKeys hvs
    (fun n hn => by rw [hname]; exact D.apart n (.inl hn)) scalars env he c G.generated s.aggregate.2 hsub text hgc
  rw [hgp] at hp2
  cases hp2
  refine ⟨m, ⟨_, hdisk, hp1⟩, hresp, ?_⟩
  intro hne v hv
  obtain ⟨m', g', hq1, hq2, hvars⟩ := C80_variables_inhabit_text (ω p) ω₂ fuel fuel₂
    cfg.showDeprecationWarnings cfg.toTsConfig S.valid S.validInputs S.inputLists hs S.writable
    S.globalsWritable S.scalarsApart d op ws P hP G.valid hmain
    D.keys D.fragmentKeys hne D.variablesValid D.variableNames
    (fun n hn => by rw [hname]; exact D.apart n hn) scalars env he c G.generated s.aggregate.2 hsub text hgc
  rw [hp1] at hq1
  rw [hgp] at hq2
  cases hq1
  cases hq2
  exact hvars v hv

end

/-! ### An example -/

/-- The text of the query file. -/
def Demo.runText : String := "#import \"f.graphql\"\nquery Q"

/-- `/r/q.graphql` imports `/r/f.graphql`. -/
def Demo.runWorld : World where
  resolve := Path.display
  disk := fun id =>
    if id = "/r/q.graphql" then .ok Demo.runText
    else if id = "/r/f.graphql" then .ok "fragment F"
    else .error "missing"
  writeErr := fun _ => none

/-- A stand-in for the parser on the two files. -/
def Demo.runExt : Ext where
  parse := fun c =>
    if c = Demo.runText then .ok [Demo.query]
    else if c = "fragment F" then .ok [.fragment Demo.fragF]
    else .error "syntax error"
  dist := Demo.ext.dist

/-- The pool at the end of a run with one thread. -/
def fullRun : PoolSt World :=
  (PoolSt.init Demo.runWorld 1 Demo.fileTree).run
    (poolCompile (fun _ => .inOrder) 9 Demo.runExt Demo.cfg Demo.respSchema) 1 Demo.fileSched

/-- The end of the run. -/
def fullEnd : Option (List Msg × World) :=
  finishWork .reversed 9 Demo.cfg Demo.respSchema fullRun.world ⟨true, ["r"]⟩ fullRun.aggregate

/-- The run ends with no work left, with used globals, and with status 0. -/
def fullOk : Bool :=
  fullRun.finished && (pending fullRun).isEmpty && !fullRun.aggregate.2.isEmpty && match fullEnd with
    | some (ms, _) => (printExitInfo (fun _ s => s) ms).code == 0
    | none => false

theorem full_reads {p q : Path} (hp : p = Demo.qPath ∨ p = Demo.fPath)
    (h : Spec.Reads Demo.runWorld Demo.cfg p q) : q = Demo.qPath ∨ q = Demo.fPath := by
  have rq : Demo.runWorld.read Demo.qPath = .ok Demo.runText := rfl
  have rf : Demo.runWorld.read Demo.fPath = .ok "fragment F" := rfl
  induction h with
  | self => rcases hp with h | h <;> simp [h]
  | imported _ hr hi ih =>
    rcases ih with rfl | rfl
    · rw [rq] at hr
      injection hr with hr
      subst hr
      obtain ⟨h1, h2⟩ := hi
      have hall : ∀ il ∈ importsOf Demo.runText,
          getFilePathOfFragment Demo.cfg il.after Demo.qPath.pop = some Demo.fPath := by decide +kernel
      rw [hall _ h1] at h2
      injection h2 with h2
      exact .inr h2.symm
    · rw [rf] at hr
      injection hr with hr
      subst hr
      exact absurd hi demo_imports_f

/-- The fragments in scope of the query. -/
theorem full_scope {st : ImportSt} {contents : String}
    (hr : Demo.runWorld.read Demo.qPath = .ok contents)
    (h : addImported Demo.runWorld Demo.cfg 9 Demo.qPath contents ⟨[], []⟩ = some (.done st)) :
    (parseForeignFragments .inOrder Demo.runExt Demo.qPath st.imports st.messages).1 = Demo.ctx.fragments := by
  have rq : Demo.runWorld.read Demo.qPath = .ok Demo.runText := rfl
  rw [rq] at hr
  injection hr with hr
  subst hr
  have e : (match addImported Demo.runWorld Demo.cfg 9 Demo.qPath Demo.runText ⟨[], []⟩ with
      | some (.done st) => st.imports.map (fun x => (x.1, x.2.1))
      | _ => []) = [(Demo.fPath, "fragment F")] := by decide +kernel
  rw [h] at e
  have e : st.imports.map (fun x => (x.1, x.2.1)) = [(Demo.fPath, "fragment F")] := e
  cases hi : st.imports with
  | nil => rw [hi] at e; simp at e
  | cons x rest =>
    obtain ⟨a, b, l⟩ := x
    rw [hi] at e
    simp only [List.map_cons, List.cons.injEq, Prod.mk.injEq, List.map_eq_nil_iff] at e
    obtain ⟨⟨rfl, rfl⟩, rfl⟩ := e
    have hp : Demo.runExt.parse "fragment F" = .ok [.fragment Demo.fragF] := rfl
    simp [parseForeignFragments, Hash.perm, foreignLoop, parseGraphqlFile, hp, AMap.insert, Demo.ctx]
    rfl

theorem loads_reads {w : World} {cfg : CompileConfig} {p q : Path} {contents : String}
    (h : Loads w cfg p contents q) : ∀ {r : Path}, Spec.Reads w cfg r p → w.read p = .ok contents → Spec.Reads w cfg r q := by
  induction h with
  | direct hi _ => exact fun hr hp => .imported hr hp hi
  | trans hi hc _ ih => exact fun hr hp => ih (.imported hr hp hi) hc

theorem full_inTree {contents : String} (hr : Demo.runWorld.read Demo.qPath = .ok contents) :
    ImportsInTree Demo.runWorld Demo.cfg Demo.fileTree Demo.qPath contents := by
  intro q hl
  rcases full_reads (.inl rfl) (loads_reads hl .self hr) with rfl | rfl
  · exact (mem_filesOf _ _).1 (by decide +kernel)
  · exact (mem_filesOf _ _).1 (by decide +kernel)

/-- The document of the query's file. -/
theorem full_parses {contents : String} {d : Definition}
    (hr : Demo.runWorld.read Demo.qPath = .ok contents) (hp : Demo.runExt.parse contents = .ok [d]) :
    d = Demo.query := by
  have rq : Demo.runWorld.read Demo.qPath = .ok Demo.runText := rfl
  rw [rq] at hr
  have hc := Except.ok.inj hr
  rw [← hc] at hp
  have pq : Demo.runExt.parse Demo.runText = .ok [Demo.query] := rfl
  rw [pq] at hp
  exact (List.cons.inj (Except.ok.inj hp)).1.symm

theorem full_schema : SchemaFit Demo.tsCfg Demo.respJson :=
  ⟨resp_valid, demo_inputs.1, noBadListB_sound (by decide +kernel), demo_inputs.2, demo_writable,
    demo_globals_writable, demo_apart⟩

theorem full_document {ws : List Warning} {op : Operation}
    (h : Operation.compile .inOrder 9 ⟨Demo.respSchema, true, Demo.ctx.fragments⟩ Demo.query
      = some (.ok op, ws)) :
    DocumentFit Demo.tsCfg Demo.respJson Demo.respSchema Demo.ctx.fragments Demo.query
      (fun d => d.isEmpty = true) "Query" := by
  obtain ⟨op', ws', c, h', hc, hd, hsame, _⟩ := respChecks_sound resp_checks
  rw [h] at h'
  cases h'
  have hone := (C21_listed_once_iff .inOrder 9 true (loaded_consistent resp_valid resp_loads)
    resp_frags_valid Demo.query op ws "Query" rfl h).1 hd
  exact
    { notSubscription := rfl
      root := rfl
      oneType := hone
      lookAlikes := (C23_same_bodies_iff .inOrder 9 true (loaded_consistent resp_valid resp_loads)
        resp_frags_valid Demo.query op ws "Query" rfl h hone).1 hsame
      unconditional := by unfold Unconditional; decide
      fragsApply := by intro name fd hg; obtain rfl := demo_frag hg; unfold Unconditional; decide
      name := by decide
      keys := by decide
      fragmentKeys := by intro name fd hg; obtain rfl := demo_frag hg; decide
      variablesValid := validVarsB_sound (by decide +kernel)
      variableNames := by decide
      apart := fun n hn => demo_outside hn }

/-- A run over a query and a fragment: all hypotheses are met, the status is 0, and the two files written for
the query and the globals admit a response and variables. -/
theorem C89_demo : ∃ s ms w' m g,
    NoOutputRead Demo.runWorld Demo.cfg Demo.fileTree ∧
    OutputsDistinct Demo.runWorld Demo.fileTree ∧
    GlobalsApart Demo.runWorld Demo.cfg ⟨true, ["r"]⟩ Demo.fileTree ∧
    RunsTo (fun _ => .inOrder) .reversed 9 Demo.runExt Demo.cfg Demo.respSchema ⟨true, ["r"]⟩ Demo.fileTree 1
      Demo.runWorld s ms w' ∧
    (printExitInfo (fun _ s => s) ms).code = 0 ∧ SchemaFit Demo.cfg.toTsConfig Demo.respJson ∧
    HoldsModule w' "/r/q.graphql.d.ts" m ∧
    HoldsModule w' (globalsId Demo.runWorld Demo.cfg ⟨true, ["r"]⟩) g ∧
    (∀ n, ModuleAdmits m (linked g (leastEnv Demo.tsCfg Demo.respJson stringScalars)) n "Q" respValue) ∧
    ∀ n, ModuleAdmits m (linked g (leastEnv Demo.tsCfg Demo.respJson stringScalars)) n "QVariables"
      varsValue := by
  have h : fullOk = true := by decide +kernel
  unfold fullOk at h
  simp only [Bool.and_eq_true] at h
  obtain ⟨⟨⟨h1, h2⟩, h3⟩, h4⟩ := h
  split at h4
  case h_2 => simp at h4
  rename_i ms w' e
  simp only [beq_iff_eq] at h4
  have hno : NoOutputRead Demo.runWorld Demo.cfg Demo.fileTree := by
    intro p q hp hq ho
    rcases full_reads (demo_found hp) hq with rfl | rfl <;>
    · rcases demo_output (id := _) ho with h | h
      · revert h; decide +kernel
      · revert h; decide +kernel
  have hga : GlobalsApart Demo.runWorld Demo.cfg ⟨true, ["r"]⟩ Demo.fileTree := by
    refine ⟨demo_globalsApart.1, fun p q hp hq => ?_⟩
    rcases full_reads (demo_found hp) hq with rfl | rfl <;> decide +kernel
  have R : RunsTo (fun _ => .inOrder) .reversed 9 Demo.runExt Demo.cfg Demo.respSchema ⟨true, ["r"]⟩
      Demo.fileTree 1 Demo.runWorld fullRun ms w' := ⟨⟨_, rfl⟩, h1, List.isEmpty_iff.1 h2, e⟩
  have hle := leastEnv_for Demo.tsCfg Demo.respJson stringScalars
  obtain ⟨g, g1, _, hfiles⟩ := C89_successful_run hno demo_outputsDistinct hga R (fun _ s => s) h4 resp_loads
    full_schema stringScalars (leastEnv Demo.tsCfg Demo.respJson stringScalars)
    ⟨hle.string, hle.number, hle.boolean, hle.any, hle.custom⟩
  have hq : FoundIn Demo.fileTree Demo.qPath := (mem_filesOf _ _).1 (by decide +kernel)
  obtain ⟨contents, d, st, op, ws, c, G, _, hdoc⟩ := hfiles Demo.qPath hq
  have hscope := full_scope G.readable G.scanned
  have hd : d = Demo.query := full_parses G.readable G.parses
  subst hd
  have hin := full_inTree G.readable
  have hv := G.valid
  rw [hscope] at hv hdoc
  obtain ⟨m, hm, m1, m2⟩ := hdoc hin _ _ (full_document hv)
  have hex : ∃ n, UsedGlobal (fun _ => .inOrder) 9 Demo.runExt Demo.cfg Demo.respSchema Demo.runWorld
      Demo.fileTree n := by
    have A := after_run hno demo_outputsDistinct hga R
    cases hu : fullRun.aggregate.2 with
    | nil => rw [hu] at h3; simp at h3
    | cons n _ => exact ⟨n, (usedGlobal_iff A n).1 (by rw [hu]; simp)⟩
  exact ⟨_, ms, w', m, g, hno, demo_outputsDistinct, hga, R, h4, full_schema, hm, g1 hex,
    m1 "Query" (by decide +kernel) _ resp_answers, m2 (by decide) _ varsValue_ok⟩

end Qlc
