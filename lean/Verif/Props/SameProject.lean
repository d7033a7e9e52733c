import Verif.Spec.SameProject
import Verif.Props.Rewrite
import Verif.Props.Regenerate
/-
C143: two states of a project whose documents ask for the same data generate the same files.
-/
set_option autoImplicit false

namespace Qlc
open Spec

section
variable {ext : Ext} {cfg : CompileConfig} {schema schema' : Schema} {w w' : World} {root : Entry} {rootPath : Path}
  {doc doc' : JSchema}

/-- What a run with status 0 leaves for a file. -/
theorem run_file {ω : Path → Hash} {ω' : Hash} {fuel threads : Nat} {s : PoolSt World} {ms : List Msg} {w₁ : World}
    (paint : Paint) (hr : NoOutputRead w cfg root) (hd : OutputsDistinct w root) (hg : GlobalsApart w cfg rootPath root)
    (R : RunsTo ω ω' fuel ext cfg schema rootPath root threads w s ms w₁) (h0 : (printExitInfo paint ms).code = 0)
    {p : Path} (hp : FoundIn root p) : ∃ contents d st op ws c,
      Generates (ω p) fuel ext cfg schema w p contents d st op ws c ∧
      w₁.disk (w.resolve (outputPath p)) = .ok c.contents ∧
      globalsOfFile ω fuel ext cfg schema w p = c.globalTypesUsed := by
  have A := after_run hr hd hg R
  have F := (C74_exit_status hr hd hg R paint).1 h0
  obtain ⟨r, rep, _, _, _, _, _, _, hc, hrep, _⟩ := generates_of_fine F hp
  rcases C41_writes_only_its_output (ω p) fuel ext cfg schema w p r hc with
    ⟨contents, d, st, op, ws, c, G, _, hw, _⟩ | ⟨_, _, es, he⟩
  case inr => rw [hrep] at he; simp at he
  have e : poolCompile ω fuel ext cfg schema w p = (.done rep.globalTypesUsed rep.messages, r.world) := by
    simp [poolCompile, hc, hrep]
  refine ⟨contents, d, st, op, ws, c, G, ?_, ?_⟩
  · rw [A.outputs p hp, ← (hw rep hrep).1, e]
  · unfold globalsOfFile
    rw [e]
    exact (hw rep hrep).2

/-- What such a run leaves for the globals, if there are any. -/
theorem run_globals {ω : Path → Hash} {ω' : Hash} {fuel threads : Nat} {s : PoolSt World} {ms : List Msg} {w₁ : World}
    (paint : Paint) (hr : NoOutputRead w cfg root) (hd : OutputsDistinct w root) (hg : GlobalsApart w cfg rootPath root)
    (R : RunsTo ω ω' fuel ext cfg schema rootPath root threads w s ms w₁) (h0 : (printExitInfo paint ms).code = 0)
    (hex : ∃ n, UsedGlobal ω fuel ext cfg schema w root n) : ∃ text,
      compileGlobals ω' fuel cfg.toTsConfig schema s.aggregate.2 = some (.ok text) ∧
      w₁.disk (globalsId w cfg rootPath) = .ok text := by
  have A := after_run hr hd hg R
  have F := (C74_exit_status hr hd hg R paint).1 h0
  rcases A.globals with ⟨hn, _, _⟩ | ⟨_, r, hc, ⟨e, rfl, hm, _⟩ | ⟨text, rfl, hdisk, _⟩⟩
  · exfalso
    obtain ⟨n, hnu⟩ := hex
    rw [← usedGlobal_iff A, hn] at hnu
    simp at hnu
  · exact absurd ((C43_exit_zero_iff_no_error paint ms).1.1 h0 e.toMsg (by rw [hm]; simp)) (tsError_level e)
  · refine ⟨text, hc, ?_⟩
    rw [hdisk]
    have hwe := F.written hex
    unfold World.write globalsId at *
    rw [hwe]
    simp [World.put]

/-- Files that ask for the same data generate the same text. -/
theorem generates_same {p : Path} {ω ω' : Hash} {fuel fuel' : Nat} (hcon : Consistent schema) (hcon' : Consistent schema')
    (hh : HashProof ext schema w cfg p) (hh' : HashProof ext schema' w' cfg p)
    (ha : AsksSameIn ext cfg schema schema' w w' p)
    {contents contents' : String} {d d' : Definition} {st st' : ImportSt} {op op' : Operation} {ws ws' : List Warning}
    {c c' : Compile} (G : Generates ω fuel ext cfg schema w p contents d st op ws c)
    (G' : Generates ω' fuel' ext cfg schema' w' p contents' d' st' op' ws' c') : c' = c := by
  obtain ⟨hu, hfr, hnd⟩ := hh contents d G.readable G.parses
  obtain ⟨hu', hfr', _⟩ := hh' contents' d' G'.readable G'.parses
  obtain ⟨hhead, hkinds, hask⟩ := ha contents d contents' d' G.readable G.parses G'.readable G'.parses
  have s1 := inScope_foreign ext cfg w p ω G.scanned hu
  have s2 := inScope_foreign ext cfg w' p ω' G'.scanned hu'
  obtain ⟨P, hP, _⟩ := (C07_compiles_iff_valid ω fuel _ hcon d _ ws G.valid).1 ⟨op, rfl⟩
  obtain ⟨P', hP', _⟩ := (C07_compiles_iff_valid ω' fuel' _ hcon' d' _ ws' G'.valid).1 ⟨op', rfl⟩
  have e := (C95_same_data_same_text ω ω' fuel fuel' cfg.showDeprecationWarnings cfg.showDeprecationWarnings
    cfg.toTsConfig hcon hcon' (hfr _ s1).1 (hfr' _ s2).1 d d' op op' ws ws' P P' hP hP' G.valid G'.valid
    ((hfr _ s1).2 P hP) ((hfr' _ s2).2 P' hP') hhead hnd hkinds (hask _ _ P P' s1 s2 hP hP')).2
  rw [G.generated, G'.generated] at e
  exact (Except.ok.inj e).symm

/-- **C143.** Let two states of a project, with two schemas, hold the same files, each of which asks for the same data in
both states, and let runs over both end with status 0, whatever their hash orders and schedules.  Then every output file is
the same after both, and the same global types are used. -/
theorem C143_same_data_same_files {ω₁ ω₂ : Path → Hash} {ω₁' ω₂' : Hash} {fuel₁ fuel₂ threads₁ threads₂ : Nat}
    {s₁ s₂ : PoolSt World} {ms₁ ms₂ : List Msg} {w₁ w₂ : World} (paint : Paint)
    (hres : w'.resolve = w.resolve)
    (hr : NoOutputRead w cfg root) (hr' : NoOutputRead w' cfg root) (hd : OutputsDistinct w root)
    (hg : GlobalsApart w cfg rootPath root) (hg' : GlobalsApart w' cfg rootPath root)
    (hv : ValidDoc doc) (hv' : ValidDoc doc') (hs : Schema.ofJson doc = .ok schema) (hs' : Schema.ofJson doc' = .ok schema')
    (hh : ∀ p, FoundIn root p → HashProof ext schema w cfg p) (hh' : ∀ p, FoundIn root p → HashProof ext schema' w' cfg p)
    (ha : ∀ p, FoundIn root p → AsksSameIn ext cfg schema schema' w w' p)
    (R₁ : RunsTo ω₁ ω₁' fuel₁ ext cfg schema rootPath root threads₁ w s₁ ms₁ w₁)
    (R₂ : RunsTo ω₂ ω₂' fuel₂ ext cfg schema' rootPath root threads₂ w' s₂ ms₂ w₂)
    (h0 : (printExitInfo paint ms₁).code = 0) (h0' : (printExitInfo paint ms₂).code = 0) :
    (∀ p, FoundIn root p → ∃ text, w₁.disk (w.resolve (outputPath p)) = .ok text ∧
      w₂.disk (w.resolve (outputPath p)) = .ok text) ∧
    ∀ g, UsedGlobal ω₂ fuel₂ ext cfg schema' w' root g ↔ UsedGlobal ω₁ fuel₁ ext cfg schema w root g := by
  have hd' : OutputsDistinct w' root := by unfold OutputsDistinct; rw [hres]; exact hd
  have A := after_run hr hd hg R₁
  have B := after_run hr' hd' hg' R₂
  have file : ∀ p, FoundIn root p → ∃ c : Compile, w₁.disk (w.resolve (outputPath p)) = .ok c.contents ∧
      w₂.disk (w.resolve (outputPath p)) = .ok c.contents ∧
      globalsOfFile ω₁ fuel₁ ext cfg schema w p = c.globalTypesUsed ∧
      globalsOfFile ω₂ fuel₂ ext cfg schema' w' p = c.globalTypesUsed := by
    intro p hp
    obtain ⟨_, _, _, _, _, c, G, a1, a2⟩ := run_file paint hr hd hg R₁ h0 hp
    obtain ⟨_, _, _, _, _, c', G', b1, b2⟩ := run_file paint hr' hd' hg' R₂ h0' hp
    have := generates_same (loaded_consistent hv hs) (loaded_consistent hv' hs') (hh p hp) (hh' p hp) (ha p hp) G G'
    subst this
    rw [hres] at b1
    exact ⟨_, a1, b1, a2, b2⟩
  refine ⟨fun p hp => ?_, fun g => ?_⟩
  · obtain ⟨c, a, b, _⟩ := file p hp
    exact ⟨_, a, b⟩
  · rw [← usedGlobal_iff A, ← usedGlobal_iff B, A.used, B.used]
    refine exists_congr (fun p => and_congr_right (fun hp => ?_))
    obtain ⟨c, _, _, a, b⟩ := file p hp
    rw [a, b]

/-- **C143.** If moreover the schemas describe enums and input objects alike, the globals file is the same, if a global is
used. -/
theorem C143_same_globals {ω₁ ω₂ : Path → Hash} {ω₁' ω₂' : Hash} {fuel₁ fuel₂ threads₁ threads₂ : Nat}
    {s₁ s₂ : PoolSt World} {ms₁ ms₂ : List Msg} {w₁ w₂ : World} (paint : Paint)
    (hres : w'.resolve = w.resolve)
    (hr : NoOutputRead w cfg root) (hr' : NoOutputRead w' cfg root) (hd : OutputsDistinct w root)
    (hg : GlobalsApart w cfg rootPath root) (hg' : GlobalsApart w' cfg rootPath root)
    (hv : ValidDoc doc) (hv' : ValidDoc doc') (hs : Schema.ofJson doc = .ok schema) (hs' : Schema.ofJson doc' = .ok schema')
    (hsame : SameInputs doc doc')
    (hh : ∀ p, FoundIn root p → HashProof ext schema w cfg p) (hh' : ∀ p, FoundIn root p → HashProof ext schema' w' cfg p)
    (ha : ∀ p, FoundIn root p → AsksSameIn ext cfg schema schema' w w' p)
    (R₁ : RunsTo ω₁ ω₁' fuel₁ ext cfg schema rootPath root threads₁ w s₁ ms₁ w₁)
    (R₂ : RunsTo ω₂ ω₂' fuel₂ ext cfg schema' rootPath root threads₂ w' s₂ ms₂ w₂)
    (h0 : (printExitInfo paint ms₁).code = 0) (h0' : (printExitInfo paint ms₂).code = 0)
    (hex : ∃ g, UsedGlobal ω₁ fuel₁ ext cfg schema w root g) :
    ∃ text, w₁.disk (globalsId w cfg rootPath) = .ok text ∧ w₂.disk (globalsId w cfg rootPath) = .ok text := by
  have hd' : OutputsDistinct w' root := by unfold OutputsDistinct; rw [hres]; exact hd
  have A := after_run hr hd hg R₁
  have B := after_run hr' hd' hg' R₂
  have F := (C74_exit_status hr hd hg R₁ paint).1 h0
  have hused := (C143_same_data_same_files paint hres hr hr' hd hg hg' hv hv' hs hs' hh hh' ha R₁ R₂ h0 h0').2
  obtain ⟨t, hc, ht⟩ := run_globals paint hr hd hg R₁ h0 hex
  obtain ⟨g, hgu⟩ := hex
  obtain ⟨t', hc', ht'⟩ := run_globals paint hr' hd' hg' R₂ h0' ⟨g, (hused g).2 hgu⟩
  have e : t' = t := by
    refine compileGlobals_same (ofJson_inputFieldsOnce hs) _ _ _ _ _
      (fun n => by rw [usedGlobal_iff A, usedGlobal_iff B, hused]) ?_ hc hc'
    intro n hn
    obtain ⟨t, ht, hd, _⟩ := F.globals _ (usedGlobal_iff A) n hn
    exact loaded_same hs hs' (hsame n ((loaded_global_kind hs n).1 ⟨t, ht, hd⟩))
  have hid : globalsId w' cfg rootPath = globalsId w cfg rootPath := by unfold globalsId; rw [hres]
  rw [hid, e] at ht'
  exact ⟨t, ht, ht'⟩

/-- **C143.** A file that was tidied asks for the same data. -/
theorem C143_tidied_asks_same {p : Path} (hh : HashProof ext schema w cfg p) (ht : TidiedIn ext cfg schema w w' p) :
    AsksSameIn ext cfg schema schema w w' p := by
  intro contents d contents' d' h1 h2 h3 h4
  obtain ⟨hhead, hroot, hfr, hrw⟩ := ht contents d contents' d' h1 h2 h3 h4
  refine ⟨hhead, fun _ _ _ => Iff.rfl, ?_⟩
  intro frags frags' P P' hs hs' hP hP' n
  rw [hroot, hP] at hP'
  have hP' := Option.some.inj hP'
  subst hP'
  obtain ⟨_, hval, _⟩ := hh contents d h1 h2
  refine rewrites_sameTo ?_ n P _ _ ((hval frags hs).2 P hP) (by simpa using hrw frags P hs hP)
  intro x fd hx
  obtain ⟨a, b⟩ := (hs' x fd).1 hx
  exact (hs x fd).2 ⟨a, hfr fd b⟩

end

/-! ### An example -/

/-- The text of the tidied query. -/
def Demo.tidyText : String := "query Q tidied"

/-- The demo project after the query has been tidied: it does not import the fragment any more. -/
def Demo.tidyWorld : World where
  resolve := Path.display
  disk := fun id =>
    if id = "/r/q.graphql" then .ok Demo.tidyText
    else if id = "/r/f.graphql" then .ok "fragment F"
    else .error "missing"
  writeErr := fun _ => none

/-- A stand-in for the parser on the files of both states. -/
def Demo.tidyExt : Ext where
  parse := fun c => if c = Demo.tidyText then .ok [Demo.tidyQuery] else Demo.runExt.parse c
  dist := Demo.ext.dist

/-- Whether a text is hash-proof depends on the parser only on the files of the project. -/
theorem hashProof_parse {ext ext' : Ext} {schema : Schema} {w : World} {cfg : CompileConfig} {p : Path}
    (he : ∀ q c, w.read q = .ok c → ext'.parse c = ext.parse c) (h : HashProof ext schema w cfg p) :
    HashProof ext' schema w cfg p := by
  have hi : ∀ contents f, ImportedFragment ext' w cfg p contents f ↔ ImportedFragment ext w cfg p contents f := by
    intro contents f
    refine exists_congr (fun q => exists_congr (fun c => and_congr_right (fun _ => and_congr_right (fun hr => ?_))))
    rw [he q c hr]
  intro contents d hr hd
  rw [he p contents hr] at hd
  obtain ⟨a, b, c⟩ := h contents d hr hd
  refine ⟨fun f f' h1 h2 => a f f' ((hi _ _).1 h1) ((hi _ _).1 h2), fun frags hs => b frags ?_, c⟩
  intro n f
  rw [hs n f, hi]

theorem tidy_parse_run : ∀ q c, Demo.runWorld.read q = .ok c → Demo.tidyExt.parse c = Demo.runExt.parse c := by
  intro q c h
  have hc : c ≠ Demo.tidyText := by
    have h : Demo.runWorld.disk (Demo.runWorld.resolve q) = .ok c := h
    unfold Demo.runWorld at h
    simp only at h
    split at h
    · have := Except.ok.inj h; subst this; decide
    · split at h
      · have := Except.ok.inj h; subst this; decide
      · simp at h
  show (if c = Demo.tidyText then _ else _) = _
  rw [if_neg hc]

theorem tidy_imports {p : Path} {il : ImportLine} {r : Path} : ¬ Imports Demo.cfg p Demo.tidyText il r := by
  rintro ⟨h1, _⟩
  have : (importsOf Demo.tidyText).length = 0 := by decide +kernel
  rw [List.length_eq_zero_iff.1 this] at h1
  simp at h1

/-- The texts of the files of the tidied project. -/
theorem tidy_text {p : Path} (hp : p = Demo.qPath ∨ p = Demo.fPath) {c : String} (h : Demo.tidyWorld.read p = .ok c) :
    (p = Demo.qPath ∧ c = Demo.tidyText) ∨ (p = Demo.fPath ∧ c = "fragment F") := by
  have rq : Demo.tidyWorld.read Demo.qPath = .ok Demo.tidyText := rfl
  have rf : Demo.tidyWorld.read Demo.fPath = .ok "fragment F" := rfl
  rcases hp with rfl | rfl
  · rw [rq] at h; exact .inl ⟨rfl, (Except.ok.inj h).symm⟩
  · rw [rf] at h; exact .inr ⟨rfl, (Except.ok.inj h).symm⟩

theorem tidy_reads {p q : Path} (hp : p = Demo.qPath ∨ p = Demo.fPath)
    (h : Spec.Reads Demo.tidyWorld Demo.cfg p q) : q = p := by
  induction h with
  | self => rfl
  | imported _ hr hi ih =>
    subst ih
    rcases tidy_text hp hr with ⟨_, rfl⟩ | ⟨_, rfl⟩
    · exact absurd hi tidy_imports
    · exact absurd hi demo_imports_f

theorem tidy_none {p : Path} (hp : p = Demo.qPath ∨ p = Demo.fPath) {c : String} (h : Demo.tidyWorld.read p = .ok c)
    (f : FragmentDef) : ¬ ImportedFragment Demo.tidyExt Demo.tidyWorld Demo.cfg p c f := by
  rintro ⟨q, _, hl, _⟩
  rcases tidy_text hp h with ⟨_, rfl⟩ | ⟨_, rfl⟩
  · cases hl with
    | direct hi _ => exact tidy_imports hi
    | trans hi _ _ => exact tidy_imports hi
  · cases hl with
    | direct hi _ => exact demo_imports_f hi
    | trans hi _ _ => exact demo_imports_f hi

theorem tidy_hashProof {p : Path} (hp : FoundIn Demo.fileTree p) :
    HashProof Demo.tidyExt Demo.respSchema Demo.tidyWorld Demo.cfg p := by
  have hcon := loaded_consistent resp_valid resp_loads
  intro contents d hr hd
  have none := tidy_none (demo_found hp) hr
  have key : ∀ P, rootType d = some P → OneTypePerKey Demo.respSchema [] P [itemsOf d] ∧
      ((varsOf d).map VarDef.name).Nodup := by
    rcases tidy_text (demo_found hp) hr with ⟨_, rfl⟩ | ⟨_, rfl⟩
    · have e : Demo.tidyExt.parse Demo.tidyText = .ok [Demo.tidyQuery] := rfl
      rw [e] at hd
      have hd := (List.cons.inj (Except.ok.inj hd)).1
      subst hd
      intro P hP
      have e : rootType Demo.tidyQuery = some "Query" := rfl
      rw [e] at hP
      have hP := Option.some.inj hP
      subst hP
      obtain ⟨op, ws, c, h, _, hd, _⟩ := respChecks_sound tidy_checks
      exact ⟨(C21_listed_once_iff .inOrder 9 true hcon (frags_nil_valid _) Demo.tidyQuery op ws "Query" rfl h).1 hd,
        by decide⟩
    · have e : Demo.tidyExt.parse "fragment F" = .ok [.fragment Demo.fragF] := rfl
      rw [e] at hd
      have hd := (List.cons.inj (Except.ok.inj hd)).1
      subst hd
      intro P hP
      have e : rootType (.fragment Demo.fragF) = some "Node" := rfl
      rw [e] at hP
      have hP := Option.some.inj hP
      subst hP
      obtain ⟨op, ws, h, hd⟩ := compiledDistinct_iff.1 (show compiledDistinct
        (Operation.compile .inOrder 9 ⟨Demo.respSchema, true, []⟩ (.fragment Demo.fragF)) = true by
          decide +kernel)
      exact ⟨(C21_listed_once_iff .inOrder 9 true hcon (frags_nil_valid _) (.fragment Demo.fragF) op ws "Node" rfl h).1 hd,
        by decide⟩
  refine ⟨fun f _ h => absurd h (none f), ?_, ?_⟩
  · intro frags hs
    have hget : ∀ n, AMap.get? ([] : Frags) n = AMap.get? frags n := by
      intro n
      cases hf : AMap.get? frags n with
      | none => rfl
      | some f => exact absurd ((hs n f).1 hf).2 (none f)
    exact ⟨fragsValid_congr hget (frags_nil_valid _), fun P hP => oneTypePerKey_congr hget (key P hP).1⟩
  · cases hP : rootType d with
    | some P => exact (key P hP).2
    | none =>
      exfalso
      rcases tidy_text (demo_found hp) hr with ⟨_, rfl⟩ | ⟨_, rfl⟩
      · have e : Demo.tidyExt.parse Demo.tidyText = .ok [Demo.tidyQuery] := rfl
        rw [e] at hd
        have hd := (List.cons.inj (Except.ok.inj hd)).1
        subst hd
        simp [rootType, Demo.tidyQuery] at hP
      · have e : Demo.tidyExt.parse "fragment F" = .ok [.fragment Demo.fragF] := rfl
        rw [e] at hd
        have hd := (List.cons.inj (Except.ok.inj hd)).1
        subst hd
        simp [rootType] at hP

/-- The query was tidied, and the fragment left as it is. -/
theorem tidy_tidied {p : Path} (hp : FoundIn Demo.fileTree p) :
    TidiedIn Demo.tidyExt Demo.cfg Demo.respSchema Demo.runWorld Demo.tidyWorld p := by
  intro contents d contents' d' h1 h2 h3 h4
  have none := tidy_none (demo_found hp) h3
  rw [tidy_parse_run _ _ h1] at h2
  rcases tidy_text (demo_found hp) h3 with ⟨rfl, rfl⟩ | ⟨rfl, rfl⟩
  · have hd := full_parses h1 h2
    subst hd
    have e : Demo.tidyExt.parse Demo.tidyText = .ok [Demo.tidyQuery] := rfl
    rw [e] at h4
    have h4 := (List.cons.inj (Except.ok.inj h4)).1
    subst h4
    refine ⟨.operation rfl, rfl, fun f h => absurd h (none f), ?_⟩
    intro frags P hs hP
    have e : rootType Demo.query = some "Query" := rfl
    rw [e] at hP
    have hP := Option.some.inj hP
    subst hP
    have rq : Demo.runWorld.read Demo.qPath = .ok Demo.runText := rfl
    rw [rq] at h1
    have h1 := Except.ok.inj h1
    subst h1
    have hF : AMap.get? frags "F" = some Demo.fragF := by
      refine (hs "F" Demo.fragF).2 ⟨rfl, ?_⟩
      obtain ⟨q, c, a, b, g⟩ := run_imported_q.2 rfl
      exact ⟨q, c, a, b, by rw [tidy_parse_run _ _ b]; exact g⟩
    exact tidy_rewrites_in hF
  · have rf : Demo.runWorld.read Demo.fPath = .ok "fragment F" := rfl
    rw [rf] at h1
    have h1 := Except.ok.inj h1
    subst h1
    have e : Demo.runExt.parse "fragment F" = .ok [.fragment Demo.fragF] := rfl
    have e' : Demo.tidyExt.parse "fragment F" = .ok [.fragment Demo.fragF] := rfl
    rw [e] at h2
    rw [e'] at h4
    have h2 := (List.cons.inj (Except.ok.inj h2)).1
    have h4 := (List.cons.inj (Except.ok.inj h4)).1
    subst h2 h4
    exact ⟨.fragment rfl, rfl, fun f h => absurd h (none f), fun _ _ _ _ => .refl⟩

/-- The pool at the end of a run over the project as it was. -/
def untidyRun : PoolSt World :=
  (PoolSt.init Demo.runWorld 1 Demo.fileTree).run
    (poolCompile (fun _ => .inOrder) 9 Demo.tidyExt Demo.cfg Demo.respSchema) 1 Demo.fileSched

/-- The end of that run. -/
def untidyEnd : Option (List Msg × World) :=
  finishWork .reversed 9 Demo.cfg Demo.respSchema untidyRun.world ⟨true, ["r"]⟩ untidyRun.aggregate

/-- The pool at the end of a run over the tidied project. -/
def tidyRun : PoolSt World :=
  (PoolSt.init Demo.tidyWorld 1 Demo.fileTree).run
    (poolCompile (fun _ => .reversed) 9 Demo.tidyExt Demo.cfg Demo.respSchema) 1 Demo.fileSched

/-- The end of that run. -/
def tidyEnd : Option (List Msg × World) :=
  finishWork .inOrder 9 Demo.cfg Demo.respSchema tidyRun.world ⟨true, ["r"]⟩ tidyRun.aggregate

/-- Runs over the demo project before and after tidying leave the same files. -/
theorem C143_demo : ∃ s₁ s₂ ms₁ ms₂ w₁ w₂,
    RunsTo (fun _ => .inOrder) .reversed 9 Demo.tidyExt Demo.cfg Demo.respSchema ⟨true, ["r"]⟩ Demo.fileTree 1
      Demo.runWorld s₁ ms₁ w₁ ∧
    RunsTo (fun _ => .reversed) .inOrder 9 Demo.tidyExt Demo.cfg Demo.respSchema ⟨true, ["r"]⟩ Demo.fileTree 1
      Demo.tidyWorld s₂ ms₂ w₂ ∧
    Demo.runWorld.read Demo.qPath ≠ Demo.tidyWorld.read Demo.qPath ∧
    (∃ text, w₁.disk "/r/q.graphql.d.ts" = .ok text ∧ w₂.disk "/r/q.graphql.d.ts" = .ok text) ∧
    ∃ text, w₁.disk "/r/globals.ts" = .ok text ∧ w₂.disk "/r/globals.ts" = .ok text := by
  obtain ⟨_, _, _, _, _, hno, hd, hga, _⟩ := C89_demo
  have hno' : NoOutputRead Demo.tidyWorld Demo.cfg Demo.fileTree := by
    intro p q hp hq ho
    have := tidy_reads (demo_found hp) hq
    subst this
    rcases demo_found hp with rfl | rfl <;>
    · rcases demo_output (id := _) ho with h | h
      · revert h; decide +kernel
      · revert h; decide +kernel
  have hga' : GlobalsApart Demo.tidyWorld Demo.cfg ⟨true, ["r"]⟩ Demo.fileTree := by
    refine ⟨demo_globalsApart.1, fun p q hp hq => ?_⟩
    have := tidy_reads (demo_found hp) hq
    subst this
    rcases demo_found hp with rfl | rfl <;> decide +kernel
  have hid : globalsId Demo.runWorld Demo.cfg ⟨true, ["r"]⟩ = "/r/globals.ts" := by decide +kernel
  have a1 : (endsWith untidyRun untidyEnd).isSome = true := by decide +kernel
  have a2 : (endsWith tidyRun tidyEnd).isSome = true := by decide +kernel
  have a3 : untidyRun.aggregate.2.isEmpty = false := by decide +kernel
  obtain ⟨t₁, b1⟩ := Option.isSome_iff_exists.1 a1
  obtain ⟨t₂, b2⟩ := Option.isSome_iff_exists.1 a2
  obtain ⟨ms₁, w₁, e₁, h1, h2, h5, _⟩ := endsWith_some b1
  obtain ⟨ms₂, w₂, e₂, h3, h4, h6, _⟩ := endsWith_some b2
  have R₁ : RunsTo (fun _ => .inOrder) .reversed 9 Demo.tidyExt Demo.cfg Demo.respSchema ⟨true, ["r"]⟩
      Demo.fileTree 1 Demo.runWorld untidyRun ms₁ w₁ := ⟨⟨_, rfl⟩, h1, h2, e₁⟩
  have R₂ : RunsTo (fun _ => .reversed) .inOrder 9 Demo.tidyExt Demo.cfg Demo.respSchema ⟨true, ["r"]⟩
      Demo.fileTree 1 Demo.tidyWorld tidyRun ms₂ w₂ := ⟨⟨_, rfl⟩, h3, h4, e₂⟩
  have hh : ∀ p, FoundIn Demo.fileTree p → HashProof Demo.tidyExt Demo.respSchema Demo.runWorld Demo.cfg p :=
    fun p hp => hashProof_parse tidy_parse_run (run_hashProof hp)
  have ha : ∀ p, FoundIn Demo.fileTree p →
      AsksSameIn Demo.tidyExt Demo.cfg Demo.respSchema Demo.respSchema Demo.runWorld Demo.tidyWorld p :=
    fun p hp => C143_tidied_asks_same (hh p hp) (tidy_tidied hp)
  have hex : ∃ n, UsedGlobal (fun _ => .inOrder) 9 Demo.tidyExt Demo.cfg Demo.respSchema Demo.runWorld
      Demo.fileTree n := by
    have A := after_run hno hd hga R₁
    cases hu : untidyRun.aggregate.2 with
    | nil => rw [hu] at a3; simp at a3
    | cons n _ => exact ⟨n, (usedGlobal_iff A n).1 (by rw [hu]; simp)⟩
  have hfiles := (C143_same_data_same_files (w := Demo.runWorld) (w' := Demo.tidyWorld) .plain rfl hno hno' hd hga hga'
    resp_valid resp_valid resp_loads resp_loads
    hh (fun p hp => tidy_hashProof hp) ha R₁ R₂ h5 h6).1
  have hglobals := C143_same_globals (w := Demo.runWorld) (w' := Demo.tidyWorld) .plain rfl hno hno' hd hga hga'
    resp_valid resp_valid resp_loads resp_loads
    (fun _ _ => rfl) hh (fun p hp => tidy_hashProof hp) ha R₁ R₂ h5 h6 hex
  rw [hid] at hglobals
  have hout : Demo.runWorld.resolve (outputPath Demo.qPath) = "/r/q.graphql.d.ts" := by decide +kernel
  have hq := hfiles Demo.qPath ((mem_filesOf _ _).1 (by decide +kernel))
  rw [hout] at hq
  refine ⟨_, _, ms₁, ms₂, w₁, w₂, R₁, R₂, ?_, hq, hglobals⟩
  have rq : Demo.runWorld.read Demo.qPath = .ok Demo.runText := rfl
  have rq' : Demo.tidyWorld.read Demo.qPath = .ok Demo.tidyText := rfl
  rw [rq, rq']
  intro h
  have := Except.ok.inj h
  revert this
  decide

end Qlc
