import Verif.Props.Project
import Verif.Props.Move
import Verif.Spec.Correct
/-
Property C118: the exit status is 0 exactly for correct projects.
-/
set_option autoImplicit false

namespace Qlc
open Spec

section
variable {doc : JSchema} {schema : Schema} {ext : Ext} {cfg : CompileConfig} {w : World} {p : Path}

/-- A variable whose type is registered, but not as a scalar, makes the generated file use that type. -/
theorem variable_makes_used (hv : ValidDoc doc) (hs : Schema.ofJson doc = .ok schema) {frags : Frags} {d : Definition}
    {ω : Hash} {fuel : Nat} {showDep : Bool} {tcfg : TsConfig} {op : Operation} {ws : List Warning} {c : Compile}
    (h : Operation.compile ω fuel ⟨schema, showDep, frags⟩ d = some (.ok op, ws))
    (hc : compileIr ω op tcfg schema = .ok c) {v : VarDef} (hm : v ∈ varsOf d)
    (hb : baseName v.type ∉ ["ID", "String", "Float", "Int", "Boolean"])
    (hk : kindNamed doc (baseName v.type) ≠ some "SCALAR") : baseName v.type ∈ c.globalTypesUsed := by
  have hcon := loaded_consistent hv hs
  have hne : varsOf d ≠ [] := List.ne_nil_of_mem hm
  obtain ⟨us, ho, _, h2⟩ := variables_facts hcon h hne
  obtain ⟨u, hu, hbv⟩ := h2 v hm
  obtain ⟨_, _, _, _, g5⟩ := buildVariable_facts hbv
  rw [(compileIr_agrees hc).2.1.mem_iff, mem_globals]
  refine .inr ?_
  rw [ho, Option.getD_some]
  unfold varGlobals
  refine List.mem_flatMap.2 ⟨u, hu, ?_⟩
  unfold VariableType.ofName at g5
  simp only [List.mem_cons, List.not_mem_nil, or_false, not_or] at hb
  rw [if_neg hb.1, if_neg hb.2.1, if_neg hb.2.2.1, if_neg hb.2.2.2.1, if_neg hb.2.2.2.2] at g5
  split at g5
  · simp at g5
  rename_i st hst
  simp only [Except.ok.injEq] at g5
  rw [← g5]
  have hns : ¬ IsScalarType schema (baseName v.type) := fun e => hk ((loaded_scalar hs _).1 e)
  have : varFlat tcfg schema (.custom (baseName v.type)) = .global (baseName v.type) := by
    unfold varFlat
    simp only [hst, Option.map_some]
    split
    · rename_i e
      exact absurd ⟨st, _, hst, by simpa using e⟩ hns
    · rfl
  rw [this]
  simp

/-- Compiling a correct document whose output can be written gives nothing but warnings, and uses enums and input
objects. -/
theorem correct_compiles (hv : ValidDoc doc) (hs : Schema.ofJson doc = .ok schema)
    (hmem : ∀ P, CompositeNamed doc P → objectTypes doc P ≠ []) (hu : NamesDiffer ext w cfg p)
    (hf : DocumentCorrect ext doc schema w cfg p) (hout : w.writeErr (w.resolve (outputPath p)) = none)
    {ω : Path → Hash} {fuel : Nat} {ms : List Msg} {gs : List String}
    (h : CompilesWith ω fuel ext cfg schema w p ms gs) :
    (∀ m ∈ ms, m.level = .compileWarning) ∧
    ∀ g ∈ gs, kindNamed doc g = some "ENUM" ∨ kindNamed doc g = some "INPUT_OBJECT" := by
  have hcon := loaded_consistent hv hs
  obtain ⟨contents, d, P, frags, hread, hparse, I, hP, hPc, hsc, hval, hvars⟩ := hf
  obtain ⟨y, hy⟩ := returns_iff_compiles.2 ⟨ms, gs, h⟩
  have hgen : ∃ st op ws c, Generates (ω p) fuel ext cfg schema w p contents d st op ws c := by
    unfold generateFile readGraphqlFile at hy
    simp only [hread, (parse_ok _ _ p _).2 hparse] at hy
    cases hi : addImported w cfg fuel p contents ⟨[], []⟩ with
    | none => simp [hi] at hy
    | some x =>
      cases x with
      | panic => simp [hi] at hy
      | done st =>
        simp only [hi] at hy
        have hsc' := inScope_foreign ext cfg w p (ω p) hi (fun f f' => hu contents d f f' hread hparse)
        cases hc : Operation.compile (ω p) fuel ⟨schema, cfg.showDeprecationWarnings,
            (parseForeignFragments (ω p) ext p st.imports st.messages).1⟩ d with
        | none => simp [hc] at hy
        | some a =>
          obtain ⟨r, ws⟩ := a
          obtain ⟨op, rfl⟩ := (C07_compiles_iff_valid (ω p) fuel _ hcon d r ws hc).2
            ⟨P, hP, (loaded_composite hs P).2 hPc, (valid_congr (inScope_get ext cfg w p hsc hsc') _ _).1 hval,
              fun v hv => ⟨(hvars v hv).1, known_of_input hs (hvars v hv).2⟩⟩
          obtain ⟨hPc', _, ht, hfin⟩ := compiled_tree hcon hP hc
          have hne : AllNonempty op.collection := by
            rintro qs hq rfl
            obtain ⟨P', sets, hP', h'⟩ := composite_under hq hcon (fun n => ⟨_, _, hPc', ht n⟩) 1
            have hm := hmem P' ((loaded_composite hs P').1 hP')
            rw [← loaded_possible hs] at hm
            obtain ⟨T, hT⟩ := List.exists_mem_of_ne_nil _ hm
            have := (h'.2.1 T).2 hT
            simp at this
          obtain ⟨c, hir⟩ := compileIr_ok (ω p) cfg.toTsConfig hne
            (fun vs hvs => variables_known (by rw [← hvs]; exact (finish_ok hfin).2.2))
          exact ⟨st, op, ws, c, hread, hparse, hi, hc, hir⟩
  obtain ⟨st, op, ws, c, G⟩ := hgen
  have hok := (generateFile_ok (ω p) fuel ext cfg schema w p _ c).2 ⟨contents, d, st, op, ws, G, rfl⟩
  have hwr : (w.write (outputPath p) c.contents).1 = none := by
    unfold World.write
    simp [hout]
  obtain ⟨r, hr, hres⟩ := h
  unfold compileFile at hr
  rw [hok] at hr
  simp only at hr
  generalize w.write (outputPath p) c.contents = o at hr hwr
  obtain ⟨o1, o2⟩ := o
  simp only at hwr
  subst hwr
  simp only [Option.some.injEq, PanicOr.done.injEq] at hr
  subst hr
  rcases hres with ⟨rep, hrep, rfl, rfl⟩ | ⟨hrep, _⟩
  case inr => simp at hrep
  simp only [Except.ok.injEq] at hrep
  subst hrep
  obtain ⟨I1, I2⟩ := I contents hread
  constructor
  · intro m hm
    rcases List.mem_append.1 hm with hm | hm
    · exfalso
      obtain ⟨_, _, h3⟩ := C39_scope_and_errors (ω p) ext p st.imports st.messages
      obtain ⟨c1, c2, _, c4⟩ := C35_import_closure w cfg fuel p contents st G.scanned
      rcases (h3 m).1 hm with hm | ⟨e, he, d', hd', hnf, _⟩
      · exact I1 m ((c4 m).1 hm)
      · obtain ⟨q, t, loc⟩ := e
        obtain ⟨f, rfl⟩ := I2 q t d' ((c1 q).1 ⟨t, loc, he⟩) (c2 q t loc he) hd'
        simp [Definition.isFragment] at hnf
    · obtain ⟨x, _, rfl⟩ := List.mem_map.1 hm
      cases x <;> rfl
  · intro g hg
    exact used_kinds hv hs hP (fun v hv' => (hvars v hv').2) G.valid G.generated hg

/-- A document that compiles with nothing but warnings, using enums and input objects only, is correct, and its
output can be written. -/
theorem compiles_correct (hv : ValidDoc doc) (hs : Schema.ofJson doc = .ok schema) (hu : NamesDiffer ext w cfg p)
    {ω : Path → Hash} {fuel : Nat} {ms : List Msg} {gs : List String}
    (h : CompilesWith ω fuel ext cfg schema w p ms gs) (hw : ∀ m ∈ ms, m.level = .compileWarning)
    (hk : ∀ g ∈ gs, kindNamed doc g = some "ENUM" ∨ kindNamed doc g = some "INPUT_OBJECT") :
    DocumentCorrect ext doc schema w cfg p ∧ w.writeErr (w.resolve (outputPath p)) = none := by
  have hcon := loaded_consistent hv hs
  obtain ⟨r, hr, ⟨rep, hrep, rfl, rfl⟩ | ⟨hrep, rfl⟩⟩ := h
  · have hI := importsInOrder_of_warnings hr hrep hw
    unfold compileFile at hr
    cases g : generateFile (ω p) fuel ext cfg schema w p with
    | none => simp [g] at hr
    | some x =>
      cases x with
      | panic => simp [g] at hr
      | done y =>
        cases y with
        | error es =>
          simp only [g, Option.some.injEq, PanicOr.done.injEq] at hr
          subst hr
          simp at hrep
        | ok a =>
          obtain ⟨msgs, c⟩ := a
          obtain ⟨contents, d, st, op, ws, G, hms⟩ := (generateFile_ok (ω p) fuel ext cfg schema w p _ c).1 g
          have hout : w.writeErr (w.resolve (outputPath p)) = none := by
            simp only [g] at hr
            unfold World.write at hr
            cases hw₁ : w.writeErr (w.resolve (outputPath p)) with
            | none => rfl
            | some e =>
              exfalso
              obtain ⟨e, left⟩ := e
              cases left <;>
              · simp only [hw₁, Option.some.injEq, PanicOr.done.injEq] at hr
                subst hr
                simp at hrep
          have hgs : rep.globalTypesUsed = c.globalTypesUsed := by
            simp only [g] at hr
            unfold World.write at hr
            simp only [hout, Option.some.injEq, PanicOr.done.injEq] at hr
            subst hr
            have hrep := Except.ok.inj hrep
            subst hrep
            rfl
          obtain ⟨P, hP, hPc, hval, hvars⟩ := (C07_compiles_iff_valid (ω p) fuel _ hcon d _ ws G.valid).1 ⟨op, rfl⟩
          refine ⟨⟨contents, d, P, _, G.readable, G.parses, hI, hP, (loaded_composite hs P).1 hPc,
            inScope_foreign ext cfg w p (ω p) G.scanned (fun f f' => hu contents d f f' G.readable G.parses), hval,
            fun v hm => ⟨(hvars v hm).1, ?_⟩⟩, hout⟩
          by_cases hb : baseName v.type ∈ ["ID", "String", "Float", "Int", "Boolean"]
          · exact .inl hb
          · by_cases hsc : kindNamed doc (baseName v.type) = some "SCALAR"
            · exact .inr ⟨_, hsc, .inl rfl⟩
            · have := variable_makes_used hv hs G.valid G.generated hm hb hsc
              rw [← hgs] at this
              rcases hk _ this with e | e
              · exact .inr ⟨_, e, .inr (.inl rfl)⟩
              · exact .inr ⟨_, e, .inr (.inr rfl)⟩
  · exfalso
    obtain ⟨m, hm, hl⟩ := failed_has_error hr hrep
    rw [hw m hm] at hl
    simp at hl

end

section
variable {doc : JSchema} {schema : Schema} {ext : Ext} {cfg : CompileConfig} {w w' : World} {rootPath : Path}
  {root : Entry} {ω : Path → Hash} {ω' : Hash} {fuel threads : Nat} {s : PoolSt World} {ms : List Msg}

/-- **C118.** A run that finds the globals file writable ends with status 0 exactly if the project is correct. -/
theorem C118_status_iff_correct (hr : NoOutputRead w cfg root) (hd : OutputsDistinct w root)
    (hg : GlobalsApart w cfg rootPath root) (hv : ValidDoc doc) (hs : Schema.ofJson doc = .ok schema)
    (hi : ValidInputs doc) (hmem : ∀ P, CompositeNamed doc P → objectTypes doc P ≠ [])
    (hu : ∀ p, FoundIn root p → NamesDiffer ext w cfg p) (hgl : w.writeErr (globalsId w cfg rootPath) = none)
    (R : RunsTo ω ω' fuel ext cfg schema rootPath root threads w s ms w') (paint : Paint) :
    (printExitInfo paint ms).code = 0 ↔ ProjectCorrect ext doc schema w cfg root := by
  rw [C74_exit_status hr hd hg R paint]
  have A := after_run hr hd hg R
  constructor
  · intro F
    have key : ∀ p, FoundIn root p → DocumentCorrect ext doc schema w cfg p ∧
        w.writeErr (w.resolve (outputPath p)) = none := by
      intro p hp
      obtain ⟨ms', gs, h, hw⟩ := F.files p hp
      refine compiles_correct hv hs (hu p hp) h hw (fun g hgm => (loaded_global_kind hs g).1 ?_)
      obtain ⟨t, h1, h2, _⟩ := F.globals s.aggregate.2 (fun g => usedGlobal_iff A g) g
        (.used ((usedGlobal_iff A g).2 ⟨p, ms', gs, hp, h, hgm⟩))
      exact ⟨t, h1, h2⟩
    exact ⟨F.directories, fun p hp => (key p hp).1, fun p hp => (key p hp).2⟩
  · intro C
    refine ⟨C.directories, fun p hp => ?_, fun used hused n hn => ?_, fun _ => hgl⟩
    · obtain ⟨gs, msgs, e⟩ := A.returned p hp
      have h := compilesWith_of_done e
      exact ⟨msgs, gs, h, (correct_compiles hv hs hmem (hu p hp) (C.documents p hp) (C.outputs p hp) h).1⟩
    · refine globals_valid hs hi (fun g hg => ?_) n hn
      obtain ⟨p, ms, gs, hp, h, hgs⟩ := (hused g).1 hg
      exact (correct_compiles hv hs hmem (hu p hp) (C.documents p hp) (C.outputs p hp) h).2 g hgs

/-- **C118.** Hence two complete runs over the same project end with status 0 both or not at all, whatever the
numbers of threads, the schedules, the orders of hash maps and the time they take. -/
theorem C118_status_is_stable (hr : NoOutputRead w cfg root) (hd : OutputsDistinct w root)
    (hg : GlobalsApart w cfg rootPath root) (hv : ValidDoc doc) (hs : Schema.ofJson doc = .ok schema)
    (hi : ValidInputs doc) (hmem : ∀ P, CompositeNamed doc P → objectTypes doc P ≠ [])
    (hu : ∀ p, FoundIn root p → NamesDiffer ext w cfg p) (hgl : w.writeErr (globalsId w cfg rootPath) = none)
    (R : RunsTo ω ω' fuel ext cfg schema rootPath root threads w s ms w')
    {ω₂ : Path → Hash} {ω₂' : Hash} {fuel₂ threads₂ : Nat} {s₂ : PoolSt World} {ms₂ : List Msg} {w₂ : World}
    (R₂ : RunsTo ω₂ ω₂' fuel₂ ext cfg schema rootPath root threads₂ w s₂ ms₂ w₂) (paint paint₂ : Paint) :
    (printExitInfo paint ms).code = 0 ↔ (printExitInfo paint₂ ms₂).code = 0 := by
  rw [C118_status_iff_correct hr hd hg hv hs hi hmem hu hgl R paint,
    C118_status_iff_correct hr hd hg hv hs hi hmem hu hgl R₂ paint₂]

end

/-! ### Examples -/

namespace Demo

/-- The parser of the demo project, had the query a variable of the object type `User`. -/
def wrongExt : Ext := { runExt with
  parse := fun t => if t = runText then
      .ok [.operation .query ⟨2, 1⟩ (some "Q") [⟨⟨2, 9⟩, "n", .named "User", none⟩] [] items]
    else runExt.parse t }

end Demo

/-- A run over that project. -/
def wrongRun : PoolSt World :=
  (PoolSt.init Demo.runWorld 1 Demo.fileTree).run
    (poolCompile (fun _ => .inOrder) 9 Demo.wrongExt Demo.cfg Demo.respSchema) 1 Demo.fileSched

/-- The end of that run. -/
def wrongEnd : Option (List Msg × World) :=
  finishWork .inOrder 9 Demo.cfg Demo.respSchema wrongRun.world ⟨true, ["r"]⟩ wrongRun.aggregate

theorem demo_members (P : String) (h : CompositeNamed Demo.respJson P) : objectTypes Demo.respJson P ≠ [] :=
  demo_supported_f.members P h

/-- Every fragment that a document of the demo project imports is the one of `f.graphql`. -/
theorem demo_names {ext : Ext} {p : Path} (hp : FoundIn Demo.fileTree p) :
    NamesDiffer ext Demo.runWorld Demo.cfg p := by
  have s1 : scanOf Demo.runWorld Demo.cfg 9 Demo.qPath Demo.runText = some [(Demo.fPath, "fragment F")] := by
    decide +kernel
  have s2 : scanOf Demo.runWorld Demo.cfg 9 Demo.fPath "fragment F" = some [] := by decide +kernel
  intro c d f f' hc _ hf hf' _
  rcases demo_found hp with rfl | rfl
  · have e : Demo.runWorld.read Demo.qPath = .ok Demo.runText := rfl
    rw [e] at hc
    have hc := Except.ok.inj hc
    subst hc
    have i := imported_of_scan (ext := ext) s1
    simp only [List.mem_singleton, exists_eq_left] at i
    have h1 := (i f).1 hf
    have h2 := (i f').1 hf'
    unfold DefinesOnly at h1 h2
    rw [h1] at h2
    simpa using h2
  · have e : Demo.runWorld.read Demo.fPath = .ok "fragment F" := rfl
    rw [e] at hc
    have hc := Except.ok.inj hc
    subst hc
    have i := imported_of_scan (ext := ext) s2
    have h1 := (i f).1 hf
    simp at h1

/-- The demo project meets the hypotheses, runs end with status 0, and so it is correct.  If its query had a variable
of an object type, runs would still generate a file for the query, but would not end with status 0, and the project
is not correct. -/
theorem C118_demo :
    (∃ s ms w', RunsTo (fun _ => .inOrder) .reversed 9 Demo.runExt Demo.cfg Demo.respSchema ⟨true, ["r"]⟩ Demo.fileTree 1
        Demo.runWorld s ms w' ∧ (printExitInfo .plain ms).code = 0 ∧
      ProjectCorrect Demo.runExt Demo.respJson Demo.respSchema Demo.runWorld Demo.cfg Demo.fileTree) ∧
    ∃ s ms w', RunsTo (fun _ => .inOrder) .inOrder 9 Demo.wrongExt Demo.cfg Demo.respSchema ⟨true, ["r"]⟩ Demo.fileTree 1
        Demo.runWorld s ms w' ∧ (printExitInfo .plain ms).code ≠ 0 ∧
      ¬ ProjectCorrect Demo.wrongExt Demo.respJson Demo.respSchema Demo.runWorld Demo.cfg Demo.fileTree := by
  obtain ⟨hno, hd, hga⟩ := C114_paths_apart C114_demo.1
  constructor
  · have a1 : (endsWith fullRun fullEnd).isSome = true := by decide +kernel
    obtain ⟨t₁, b1⟩ := Option.isSome_iff_exists.1 a1
    obtain ⟨ms₁, w₁, e₁, h1, h2, h5, d1⟩ := endsWith_some b1
    have R : RunsTo (fun _ => .inOrder) .reversed 9 Demo.runExt Demo.cfg Demo.respSchema ⟨true, ["r"]⟩
        Demo.fileTree 1 Demo.runWorld fullRun ms₁ w₁ := ⟨⟨_, rfl⟩, h1, h2, e₁⟩
    exact ⟨_, ms₁, w₁, R, h5, (C118_status_iff_correct hno hd hga resp_valid resp_loads demo_inputs.1 demo_members
      (fun p hp => demo_names hp) rfl R .plain).1 h5⟩
  · have a2 : (wrongRun.finished && (pending wrongRun).isEmpty && match wrongEnd with
        | some (ms, _) => (printExitInfo .plain ms).code != 0
        | none => false) = true := by decide +kernel
    cases e : wrongEnd with
    | none => rw [e] at a2; simp at a2
    | some x =>
      obtain ⟨ms, w₂⟩ := x
      rw [e] at a2
      simp only [Bool.and_eq_true, List.isEmpty_iff, bne_iff_ne] at a2
      obtain ⟨⟨h3, h4⟩, h6⟩ := a2
      have R : RunsTo (fun _ => .inOrder) .inOrder 9 Demo.wrongExt Demo.cfg Demo.respSchema ⟨true, ["r"]⟩
          Demo.fileTree 1 Demo.runWorld wrongRun ms w₂ := ⟨⟨_, rfl⟩, h3, h4, e⟩
      exact ⟨_, ms, w₂, R, h6, fun C => h6 ((C118_status_iff_correct hno hd hga resp_valid resp_loads demo_inputs.1
        demo_members (fun p hp => demo_names hp) rfl R .plain).2 C)⟩

end Qlc
