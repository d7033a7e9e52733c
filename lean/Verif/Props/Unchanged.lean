import Verif.Props.Exact
import Verif.Props.Regenerate
import Verif.Spec.Unchanged
/-
Property C109: unchanged generated files mean unchanged answers and unchanged variables.
-/
set_option autoImplicit false

namespace Qlc
open Spec

section
variable {cfg cfg' : TsConfig} {scalars scalars' env : String → JVal → Prop} {doc doc' : JSchema}
  {frags frags' : Frags} {d d' : Definition} {applies applies' : List Directive → Prop} {P P' : String}
  {file globals : String}

/-- The two types of the texts, in one pair of modules. -/
theorem produced_admits (A : Produces cfg scalars env doc frags d applies P file globals) :
    ∃ m g, parseModule file = some m ∧ parseModule globals = some g ∧
      (∀ v, (∀ n, ModuleAdmits m (linked g env) n (dataName d) v) ↔ MayAnswer doc frags applies scalars P d v) ∧
      (varsOf d ≠ [] → ∀ v, (∀ n, ModuleAdmits m (linked g env) n (dataName d ++ "Variables") v) ↔
        VariablesOf doc scalars (varsOf d) v) := by
  obtain ⟨S, he, ω, ω', fuel, fuel', showDep, schema, op, ws, c, used, hs, hfr, h, D, E, hc, rfl, hused, hg⟩ := A
  obtain ⟨m, g, hm, hgp, hiff⟩ := C92_admits_exactly ω ω' fuel fuel' showDep cfg hs S hfr d op ws P applies h D
    scalars env he E c hc used hused globals hg
  refine ⟨m, g, hm, hgp, hiff, ?_⟩
  intro hne
  have hname := name_of_compiled (loaded_consistent S.valid hs) h
  obtain ⟨m', g', hm', hg', hvars⟩ := C80_variables_admit_exactly ω ω' fuel fuel' showDep cfg S.valid S.validInputs
    S.inputLists hs S.writable S.globalsWritable S.scalarsApart d op ws P
    (root_of_server D.notSubscription D.root h) h (by rw [hname]; exact D.name) D.keys D.fragmentKeys hne
    D.variablesValid D.variableNames (fun n hn => by rw [hname]; exact D.apart n hn) scalars env
    (scalars_iff he E.tight) c hc used hused globals hg
  rw [hm] at hm'
  rw [hgp] at hg'
  cases hm'
  cases hg'
  exact hvars

/-- **C109.** If a document and a schema are changed in any way, and even the settings, but the file generated for
the operation of that name and the globals file are as they were, then the possible answers are what they
were. -/
theorem C109_unchanged_answers (A : Produces cfg scalars env doc frags d applies P file globals)
    (A' : Produces cfg' scalars' env doc' frags' d' applies' P' file globals)
    (hn : dataName d' = dataName d) (v : JVal) :
    MayAnswer doc' frags' applies' scalars' P' d' v ↔ MayAnswer doc frags applies scalars P d v := by
  obtain ⟨m, g, hm, hg, h1, _⟩ := produced_admits A
  obtain ⟨m', g', hm', hg', h1', _⟩ := produced_admits A'
  rw [hm] at hm'
  rw [hg] at hg'
  cases hm'
  cases hg'
  rw [← h1, ← h1', hn]

/-- **C109.** And the server takes the same variables. -/
theorem C109_unchanged_variables (A : Produces cfg scalars env doc frags d applies P file globals)
    (A' : Produces cfg' scalars' env doc' frags' d' applies' P' file globals)
    (hn : dataName d' = dataName d) (hv : varsOf d ≠ []) (hv' : varsOf d' ≠ []) (v : JVal) :
    VariablesOf doc' scalars' (varsOf d') v ↔ VariablesOf doc scalars (varsOf d) v := by
  obtain ⟨m, g, hm, hg, _, h2⟩ := produced_admits A
  obtain ⟨m', g', hm', hg', _, h2'⟩ := produced_admits A'
  rw [hm] at hm'
  rw [hg] at hg'
  cases hm'
  cases hg'
  rw [← h2 hv, ← h2' hv', hn]

end

section
variable {ω₁ ω₂ : Path → Hash} {ω₁' ω₂' : Hash} {fuel₁ fuel₂ : Nat} {ext₁ ext₂ : Ext} {cfg₁ cfg₂ : CompileConfig}
  {rootPath₁ rootPath₂ : Path} {root₁ root₂ : Entry} {threads₁ threads₂ : Nat} {w₁ w₁' w₂ w₂' : World}
  {s₁ s₂ : PoolSt World} {ms₁ ms₂ : List Msg} {doc₁ doc₂ : JSchema} {schema₁ schema₂ : Schema}

/-- **C109, end to end.** Two complete runs with exit status 0, on projects that may differ in everything, leave
the same text in the output files of two documents and in the globals files (or both write none). If the
documents are fit, exactly so (C92), and have the same name, then the possible answers to the two are the same,
and so are the variables that the two servers take. -/
theorem C109_unchanged_after_runs
    (hr₁ : NoOutputRead w₁ cfg₁ root₁) (hd₁ : OutputsDistinct w₁ root₁) (hg₁ : GlobalsApart w₁ cfg₁ rootPath₁ root₁)
    (R₁ : RunsTo ω₁ ω₁' fuel₁ ext₁ cfg₁ schema₁ rootPath₁ root₁ threads₁ w₁ s₁ ms₁ w₁')
    (hr₂ : NoOutputRead w₂ cfg₂ root₂) (hd₂ : OutputsDistinct w₂ root₂) (hg₂ : GlobalsApart w₂ cfg₂ rootPath₂ root₂)
    (R₂ : RunsTo ω₂ ω₂' fuel₂ ext₂ cfg₂ schema₂ rootPath₂ root₂ threads₂ w₂ s₂ ms₂ w₂') (paint₁ paint₂ : Paint)
    (h0₁ : (printExitInfo paint₁ ms₁).code = 0) (h0₂ : (printExitInfo paint₂ ms₂).code = 0)
    (hs₁ : Schema.ofJson doc₁ = .ok schema₁) (S₁ : SchemaFit cfg₁.toTsConfig doc₁)
    (hs₂ : Schema.ofJson doc₂ = .ok schema₂) (S₂ : SchemaFit cfg₂.toTsConfig doc₂)
    (scalars₁ scalars₂ env : String → JVal → Prop) (he₁ : ScalarEnv cfg₁.toTsConfig doc₁ scalars₁ env)
    (he₂ : ScalarEnv cfg₂.toTsConfig doc₂ scalars₂ env)
    (hglob : w₂'.disk (globalsId w₂ cfg₂ rootPath₂) = w₁'.disk (globalsId w₁ cfg₁ rootPath₁))
    (hboth : (∃ n, UsedGlobal ω₂ fuel₂ ext₂ cfg₂ schema₂ w₂ root₂ n) ↔
      ∃ n, UsedGlobal ω₁ fuel₁ ext₁ cfg₁ schema₁ w₁ root₁ n)
    (p₁ p₂ : Path) (hp₁ : FoundIn root₁ p₁) (hp₂ : FoundIn root₂ p₂)
    (hfile : w₂'.disk (w₂.resolve (outputPath p₂)) = w₁'.disk (w₁.resolve (outputPath p₁))) :
    ∃ contents₁ d₁ st₁ op₁ ws₁ c₁ contents₂ d₂ st₂ op₂ ws₂ c₂,
      Generates (ω₁ p₁) fuel₁ ext₁ cfg₁ schema₁ w₁ p₁ contents₁ d₁ st₁ op₁ ws₁ c₁ ∧
      Generates (ω₂ p₂) fuel₂ ext₂ cfg₂ schema₂ w₂ p₂ contents₂ d₂ st₂ op₂ ws₂ c₂ ∧
      ∀ frags₁ frags₂, frags₁ = (parseForeignFragments (ω₁ p₁) ext₁ p₁ st₁.imports st₁.messages).1 →
        frags₂ = (parseForeignFragments (ω₂ p₂) ext₂ p₂ st₂.imports st₂.messages).1 →
        ImportsInTree w₁ cfg₁ root₁ p₁ contents₁ → ImportsInTree w₂ cfg₂ root₂ p₂ contents₂ →
        ∀ applies₁ applies₂ P₁ P₂, DocumentFit cfg₁.toTsConfig doc₁ schema₁ frags₁ d₁ applies₁ P₁ →
        DocumentFit cfg₂.toTsConfig doc₂ schema₂ frags₂ d₂ applies₂ P₂ →
        ExactFit cfg₁.toTsConfig doc₁ schema₁ frags₁ d₁ P₁ scalars₁ env →
        ExactFit cfg₂.toTsConfig doc₂ schema₂ frags₂ d₂ P₂ scalars₂ env →
        dataName d₂ = dataName d₁ →
        (∀ v, MayAnswer doc₂ frags₂ applies₂ scalars₂ P₂ d₂ v ↔ MayAnswer doc₁ frags₁ applies₁ scalars₁ P₁ d₁ v) ∧
        (varsOf d₁ ≠ [] → varsOf d₂ ≠ [] → ∀ v,
          VariablesOf doc₂ scalars₂ (varsOf d₂) v ↔ VariablesOf doc₁ scalars₁ (varsOf d₁) v) := by
  obtain ⟨g₁, a1, a2, f₁⟩ := C92_successful_run hr₁ hd₁ hg₁ R₁ paint₁ h0₁ hs₁ S₁ scalars₁ env he₁
  obtain ⟨g₂, b1, b2, f₂⟩ := C92_successful_run hr₂ hd₂ hg₂ R₂ paint₂ h0₂ hs₂ S₂ scalars₂ env he₂
  obtain ⟨contents₁, d₁, st₁, op₁, ws₁, c₁, G₁, k₁, e₁⟩ := f₁ p₁ hp₁
  obtain ⟨contents₂, d₂, st₂, op₂, ws₂, c₂, G₂, k₂, e₂⟩ := f₂ p₂ hp₂
  have hgg : g₂ = g₁ := by
    by_cases hu : ∃ n, UsedGlobal ω₁ fuel₁ ext₁ cfg₁ schema₁ w₁ root₁ n
    · obtain ⟨t₁, x1, x2⟩ := a1 hu
      obtain ⟨t₂, y1, y2⟩ := b1 (hboth.2 hu)
      rw [hglob, x1] at y1
      cases y1
      rw [x2] at y2
      exact (Option.some.inj y2).symm
    · rw [a2 hu, b2 (fun h => hu (hboth.1 h))]
  refine ⟨contents₁, d₁, st₁, op₁, ws₁, c₁, contents₂, d₂, st₂, op₂, ws₂, c₂, G₁, G₂, ?_⟩
  rintro frags₁ frags₂ rfl rfl hi₁ hi₂ applies₁ applies₂ P₁ P₂ D₁ D₂ E₁ E₂ hn
  obtain ⟨m₁, ⟨t₁, x1, x2⟩, i₁, j₁⟩ := e₁ hi₁ applies₁ P₁ D₁ E₁
  obtain ⟨m₂, ⟨t₂, y1, y2⟩, i₂, j₂⟩ := e₂ hi₂ applies₂ P₂ D₂ E₂
  rw [hfile, x1] at y1
  cases y1
  rw [x2] at y2
  cases y2
  subst hgg
  refine ⟨fun v => ?_, fun v1 v2 v => ?_⟩
  · unfold MayAnswer
    rw [← i₁, ← i₂, hn]
  · rw [← j₁ v1, ← j₂ v2, hn]

end

/-- A check that two texts are the same. -/
def sameTextB (a b : Option (Except TsError String)) : Bool :=
  match a, b with
  | some (.ok s), some (.ok t) => decide (s = t)
  | _, _ => false

theorem sameTextB_sound {a b : Option (Except TsError String)} (h : sameTextB a b = true) : a = b := by
  unfold sameTextB at h
  split at h
  · rw [decide_eq_true_eq] at h; rw [h]
  · simp at h

/-! ### A concrete case -/

/-- The schema loaded from the demo data and a type more. -/
def Demo.widerSchema : Schema := match Schema.ofJson Demo.widerJson with | .ok s => s | .error _ => []

theorem wider_loads : Schema.ofJson Demo.widerJson = .ok Demo.widerSchema := loads_of_check (by decide +kernel)

theorem wider_valid : ValidDoc Demo.widerJson := validDocB_sound (by decide +kernel)

theorem wider_frags_valid : FragsValid Demo.widerSchema Demo.ctx.fragments := by
  intro name fd h
  obtain rfl := demo_frag h
  refine ⟨by decide +kernel, (valid_iff _ _).2 ?_⟩
  have : (invalidSelections Demo.widerSchema Demo.ctx.fragments Demo.fragF.typeCond
    Demo.fragF.items).length = 0 := by decide +kernel
  exact List.length_eq_zero_iff.1 this

theorem wider_scalars {n : String} (hn : kindNamed Demo.widerJson n = some "SCALAR") :
    n ∈ ["Date", "Int", "String", "ID"] := by
  have : (Demo.widerJson.types.map JType.name).all (fun n => if kindNamed Demo.widerJson n = some "SCALAR" then
      decide (n ∈ ["Date", "Int", "String", "ID"]) else true) = true := by decide +kernel
  have := (List.all_eq_true.1 this) n (kindNamed_mem hn)
  rw [if_pos hn, decide_eq_true_eq] at this
  exact this

theorem wider_outside {n : String} (hn : Outside Demo.tsCfg Demo.widerJson n ∨
    kindNamed Demo.widerJson n = some "INPUT_OBJECT") : ¬ Generated "Q" n ∧ n ≠ "Q" ++ "Variables" := by
  rcases hn with hn | hn
  · have := outsideB_sound (q := fun n => !generatedB "Q" n && decide (n ≠ "QVariables")) (cfg := Demo.tsCfg)
        (doc := Demo.widerJson) (by decide +kernel) n hn
    rw [Bool.and_eq_true, decide_eq_true_eq, Bool.not_eq_true'] at this
    exact ⟨generatedB_sound this.1, this.2⟩
  · have : (Demo.widerJson.types.map JType.name).all (fun n =>
        if kindNamed Demo.widerJson n = some "INPUT_OBJECT" then !generatedB "Q" n && decide (n ≠ "QVariables")
        else true) = true := by decide +kernel
    have := (List.all_eq_true.1 this) n (kindNamed_mem hn)
    rw [if_pos hn, Bool.and_eq_true, decide_eq_true_eq, Bool.not_eq_true'] at this
    exact ⟨generatedB_sound this.1, this.2⟩

theorem wider_schema : SchemaFit Demo.tsCfg Demo.widerJson :=
  ⟨wider_valid, (validInputsB_sound (by decide +kernel)).1, noBadListB_sound (by decide +kernel),
    (validInputsB_sound (by decide +kernel)).2, writableB_sound (by decide +kernel),
    globalsWritableB_sound (by decide +kernel), scalarsApartB_sound (by decide +kernel)⟩

theorem wider_env : ScalarEnv Demo.tsCfg Demo.widerJson stringScalars tightEnv where
  string := fun s => ⟨s, rfl⟩
  number := fun s => ⟨s, rfl⟩
  boolean := fun b => ⟨b, rfl⟩
  any := fun _ => trivial
  custom := by
    intro n v hn hv
    have := wider_scalars hn
    simp only [List.mem_cons, List.not_mem_nil, or_false] at this
    rcases this with rfl | rfl | rfl | rfl <;> exact hv

theorem wider_tight : TightScalars Demo.tsCfg Demo.widerJson stringScalars tightEnv := by
  intro n v hn h
  have := wider_scalars hn
  simp only [List.mem_cons, List.not_mem_nil, or_false] at this
  rcases this with rfl | rfl | rfl | rfl
  · have h : ∃ s, v = .str s := h
    exact show (∃ s, v = .str s) ∧ v ≠ .null from ⟨h, by obtain ⟨s, rfl⟩ := h; simp⟩
  · exact h
  · exact h
  · exact h

/-- The settings, the demo query and either schema produce the same two texts; so the answers to the query are
those that they were before the schema got another type, and `respValue` is one of them. -/
theorem C109_demo : ∃ file globals,
    Produces Demo.tsCfg stringScalars tightEnv Demo.respJson Demo.ctx.fragments Demo.query
      (fun d => d.isEmpty = true) "Query" file globals ∧
    Produces Demo.tsCfg stringScalars tightEnv Demo.widerJson Demo.ctx.fragments Demo.query
      (fun d => d.isEmpty = true) "Query" file globals ∧
    (∀ v, MayAnswer Demo.widerJson Demo.ctx.fragments (fun d => d.isEmpty = true) stringScalars "Query" Demo.query v ↔
      MayAnswer Demo.respJson Demo.ctx.fragments (fun d => d.isEmpty = true) stringScalars "Query" Demo.query v) ∧
    MayAnswer Demo.widerJson Demo.ctx.fragments (fun d => d.isEmpty = true) stringScalars "Query" Demo.query
      respValue ∧
    VariablesOf Demo.widerJson stringScalars (varsOf Demo.query) varsValue := by
  obtain ⟨op, ws, c, h, hc, hd, hsame, htn, _⟩ := respChecks_sound resp_checks
  obtain ⟨text, hg⟩ := demo_globals
  have hch := module_checks
  unfold moduleChecks at hch
  rw [h] at hch
  simp only [hc, Bool.and_eq_true, decide_eq_true_eq] at hch
  have hused : ∀ n ∈ c.globalTypesUsed, n ∈ ["Role", "Filter"] := by rw [hch.2]; exact fun _ h => h
  have A : Produces Demo.tsCfg stringScalars tightEnv Demo.respJson Demo.ctx.fragments Demo.query
      (fun d => d.isEmpty = true) "Query" c.contents text :=
    ⟨full_schema, tightEnv_for, .inOrder, .reversed, 9, 9, true, Demo.respSchema, op, ws, c, _, resp_loads,
      resp_frags_valid, h, full_document h, demo_exact h, hc, rfl, hused, hg⟩
  have hcon := loaded_consistent resp_valid resp_loads
  have hcon' := loaded_consistent wider_valid wider_loads
  obtain ⟨ws', h', ht⟩ := C97_growth_keeps_text .inOrder .reversed 9 true true Demo.tsCfg resp_valid wider_valid
    resp_loads wider_loads (growsB_sound (by decide +kernel)) resp_frags_valid Demo.query op ws "Query" rfl h
    ((C21_listed_once_iff .inOrder 9 true hcon resp_frags_valid Demo.query op ws "Query" rfl h).1 hd) (by decide)
  have hone := (C21_listed_once_iff .reversed 9 true hcon' wider_frags_valid Demo.query op ws' "Query" rfl h').1 hd
  have hg' : compileGlobals .inOrder 9 Demo.tsCfg Demo.widerSchema ["Role", "Filter"] = some (.ok text) := by
    have : sameTextB (compileGlobals .inOrder 9 Demo.tsCfg Demo.widerSchema ["Role", "Filter"])
        (compileGlobals .reversed 9 Demo.tsCfg Demo.respSchema ["Role", "Filter"]) = true := by decide +kernel
    rw [← hg]
    exact sameTextB_sound this
  have A' : Produces Demo.tsCfg stringScalars tightEnv Demo.widerJson Demo.ctx.fragments Demo.query
      (fun d => d.isEmpty = true) "Query" c.contents text := by
    refine ⟨wider_schema, wider_env, .reversed, .inOrder, 9, 9, true, Demo.widerSchema, op, ws', c, _, wider_loads,
      wider_frags_valid, h', ?_, ?_, by rw [← ht]; exact hc, rfl, hused, hg'⟩
    · exact
        { notSubscription := rfl
          root := rfl
          oneType := hone
          lookAlikes := (C23_same_bodies_iff .reversed 9 true hcon' wider_frags_valid Demo.query op ws' "Query" rfl h'
            hone).1 hsame
          unconditional := by unfold Unconditional; decide
          fragsApply := by intro name fd hg; obtain rfl := demo_frag hg; unfold Unconditional; decide
          name := by decide
          keys := by decide
          fragmentKeys := by intro name fd hg; obtain rfl := demo_frag hg; decide
          variablesValid := validVarsB_sound (by decide +kernel)
          variableNames := by decide
          apart := fun n hn => wider_outside hn }
    · exact
        { noNarrowing := noNarrowingB_sound (by decide +kernel)
          oneTypename := key_of_oneTypename wider_valid wider_loads
            ⟨C10_generated_tree .reversed 9 true hcon' wider_frags_valid Demo.query op ws' "Query" rfl h', hd⟩ htn
          tight := wider_tight
          plainTypes := fun P T hT => by
            have := objectTypesB_sound (q := fun T => decide (Plain T)) (doc := Demo.widerJson) (by decide +kernel) P T hT
            simpa using this
          plainKeys := by decide
          plainFragmentKeys := by intro name fd hg; obtain rfl := demo_frag hg; decide }
  have hans := C109_unchanged_answers A A' rfl
  refine ⟨_, _, A, A', hans, (hans _).2 ⟨"Query", by decide +kernel, resp_answers⟩, ?_⟩
  exact (C109_unchanged_variables A A' rfl (by decide) (by decide) _).2 varsValue_ok

/-! ### Why the globals file counts -/

/-- `type Query { role: Role! }` with the given values of `Role`. -/
def Demo.roleJson (values : List String) : JSchema := ⟨[
  ⟨"OBJECT", "Query", none, none, none, some [Demo.fld "role" (Demo.nn (Demo.t "ENUM" "Role"))], none⟩,
  ⟨"ENUM", "Role", none, none, none, none, some values⟩]⟩

/-- The schema loaded from it. -/
def Demo.roleSchema (values : List String) : Schema :=
  match Schema.ofJson (Demo.roleJson values) with | .ok s => s | .error _ => []

/-- `query Q { role }`. -/
def Demo.roleQuery : Definition := .operation .query ⟨1, 1⟩ (some "Q") [] [] [Demo.leaf 1 11 "role"]

/-- **C109, why both files have to be compared.** An enum gets a value: the file of the query stays as it is and
only the globals file shows that there are new answers. -/
theorem C109_globals_witness : ∃ t g g' v,
    Demo.textOf Demo.tsCfg (Demo.roleSchema ["ADMIN"]) [] Demo.roleQuery = some t ∧
    Demo.textOf Demo.tsCfg (Demo.roleSchema ["ADMIN", "OWNER"]) [] Demo.roleQuery = some t ∧
    compileGlobals .inOrder 9 Demo.tsCfg (Demo.roleSchema ["ADMIN"]) ["Role"] = some (.ok g) ∧
    compileGlobals .inOrder 9 Demo.tsCfg (Demo.roleSchema ["ADMIN", "OWNER"]) ["Role"] = some (.ok g') ∧ g ≠ g' ∧
    MayAnswer (Demo.roleJson ["ADMIN", "OWNER"]) [] (fun _ => True) stringScalars "Query" Demo.roleQuery v ∧
    ¬ MayAnswer (Demo.roleJson ["ADMIN"]) [] (fun _ => True) stringScalars "Query" Demo.roleQuery v := by
  have h1 : (Demo.textOf Demo.tsCfg (Demo.roleSchema ["ADMIN"]) [] Demo.roleQuery).isSome = true := by decide +kernel
  have h2 : Demo.textOf Demo.tsCfg (Demo.roleSchema ["ADMIN", "OWNER"]) [] Demo.roleQuery =
      Demo.textOf Demo.tsCfg (Demo.roleSchema ["ADMIN"]) [] Demo.roleQuery := by decide +kernel
  obtain ⟨t, ht⟩ := Option.isSome_iff_exists.1 h1
  have h3 : (match compileGlobals .inOrder 9 Demo.tsCfg (Demo.roleSchema ["ADMIN"]) ["Role"],
      compileGlobals .inOrder 9 Demo.tsCfg (Demo.roleSchema ["ADMIN", "OWNER"]) ["Role"] with
    | some (.ok g), some (.ok g') => decide (g ≠ g')
    | _, _ => false) = true := by decide +kernel
  split at h3
  case h_2 => simp at h3
  rename_i g g' e e'
  refine ⟨t, g, g', .obj [("role", .str "OWNER")], ht, by rw [h2]; exact ht, e, e', of_decide_eq_true h3,
    ⟨"Query", by decide +kernel, ?_⟩, ?_⟩
  · have := answersB_sound (Demo.roleJson ["ADMIN", "OWNER"]) [] (fun _ => true) 9 "Query" [itemsOf Demo.roleQuery]
      (.obj [("role", .str "OWNER")]) (by decide +kernel)
    simpa only using this
  · rintro ⟨T, hT, h⟩
    have eT : objectTypes (Demo.roleJson ["ADMIN"]) "Query" = ["Query"] := by decide +kernel
    rw [eT, List.mem_singleton] at hT
    subst hT
    obtain ⟨x, hx, hval⟩ := answer_field (onlyFields_leaf .nil) (h 1) ⟨"role", "role", []⟩ (by rfl)
    simp only [List.mem_singleton, Prod.mk.injEq, true_and] at hx
    subst hx
    rcases hval with ⟨hn, _⟩ | ⟨_, kind, t, hf, hadm⟩
    · exact absurd hn (by decide)
    · have e : fieldType (Demo.roleJson ["ADMIN"]) "Query" "role" = some ("ENUM", .nonNull (.named "Role")) := by
        decide +kernel
      change fieldType (Demo.roleJson ["ADMIN"]) "Query" "role" = _ at hf
      rw [e] at hf
      cases hf
      obtain ⟨_, hadm | hadm⟩ := hadm
      · exact JVal.noConfusion hadm
      · rw [if_neg (by decide)] at hadm
        unfold LeafValue at hadm
        rw [if_pos rfl] at hadm
        obtain ⟨j, vs, s, hj, hvs, hs, hv⟩ := hadm
        have ej : typeNamed (Demo.roleJson ["ADMIN"]) "Role" =
          some ⟨"ENUM", "Role", none, none, none, none, some ["ADMIN"]⟩ := by rfl
        change typeNamed (Demo.roleJson ["ADMIN"]) "Role" = _ at hj
        rw [ej] at hj
        cases hj
        cases hvs
        rw [List.mem_singleton] at hs
        subst hs
        exact absurd (JVal.str.inj hv) (by decide)

end Qlc
