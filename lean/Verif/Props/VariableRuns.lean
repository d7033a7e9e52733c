import Verif.Spec.VariableRuns
import Verif.Props.VariableOrder
import Verif.Props.MoreDocuments
/-
C146 for whole runs: reordering the variables of operations changes no generated file.
-/
set_option autoImplicit false

namespace Qlc
open Spec

/-- Globals files for the same used names are the same. -/
theorem globals_text_unique {schema : Schema} (hk : InputFieldsOnce schema) (hreg : NamedAsRegistered schema) (ω ω' : Hash)
    (fuel fuel' : Nat) (cfg : TsConfig) {used used' : List String} (hu : ∀ g, g ∈ used ↔ g ∈ used') {text text' : String}
    (h : compileGlobals ω fuel cfg schema used = some (.ok text))
    (h' : compileGlobals ω' fuel' cfg schema used' = some (.ok text')) : text = text' := by
  obtain ⟨names, T⟩ := globals_pieces hk hreg ω fuel cfg used h
  obtain ⟨names', T'⟩ := globals_pieces hk hreg ω' fuel' cfg used' h'
  have hfst : ∀ l : List String, (l.map (fun n => (n, declOf cfg schema n))).map Prod.fst = l := by
    intro l; rw [List.map_map]; exact List.map_id _
  have a := T.sorted
  have a' := T'.sorted
  have b := T.names
  have b' := T'.names
  rw [hfst] at a a' b b'
  have s1 := sublist_of_sorted a a' (fun n hn => (b' n).2 (globalName_mono (fun g => (hu g).1) ((b n).1 hn)))
  have s2 := sublist_of_sorted a' a (fun n hn => (b n).2 (globalName_mono (fun g => (hu g).2) ((b' n).1 hn)))
  have e : names = names' := s1.eq_of_length_le s2.length_le
  rw [T.text, T'.text, e]

section
variable {ext : Ext} {cfg : CompileConfig} {schema : Schema} {w w' : World} {root : Entry} {rootPath : Path}
  {doc : JSchema}

/-- What is read for `p` is `p` itself or comes by an import. -/
theorem reads_by_import {p q : Path} (h : Spec.Reads w cfg p q) :
    q = p ∨ ∃ contents il q₀, w.read p = .ok contents ∧ Imports cfg p contents il q₀ ∧ Spec.Reads w cfg q₀ q := by
  induction h with
  | self => exact .inl rfl
  | imported hq hr hi ih =>
    rcases ih with rfl | ⟨contents, il, q₀, a, b, c⟩
    · exact .inr ⟨_, _, _, hr, hi, .self⟩
    · exact .inr ⟨contents, il, q₀, a, b, .imported c hr hi⟩

/-- **C146, whole runs.** Take two states of a project that differ in the order of the variables of operations, and perhaps in
default values and directives of operations.  If runs over both end with status 0, they leave the same text in every output,
use the same global types, and, if there are any, leave the same globals file. -/
theorem C146_runs {ω₁ ω₂ : Path → Hash} {ω₁' ω₂' : Hash} {fuel₁ fuel₂ threads₁ threads₂ : Nat}
    {s₁ s₂ : PoolSt World} {ms₁ ms₂ : List Msg} {w₁ w₂ : World} (paint : Paint)
    (hr : NoOutputRead w cfg root) (hd : OutputsDistinct w root) (hg : GlobalsApart w cfg rootPath root)
    (hr' : NoOutputRead w' cfg root) (hd' : OutputsDistinct w' root) (hg' : GlobalsApart w' cfg rootPath root)
    (hv : ValidDoc doc) (hs : Schema.ofJson doc = .ok schema)
    (hp : ∀ p, FoundIn root p → VariablesReordered ext w w' p ∧ SameImports cfg w w' p)
    (hh : ∀ p, FoundIn root p → HashProof ext schema w' cfg p)
    (R₁ : RunsTo ω₁ ω₁' fuel₁ ext cfg schema rootPath root threads₁ w s₁ ms₁ w₁)
    (R₂ : RunsTo ω₂ ω₂' fuel₂ ext cfg schema rootPath root threads₂ w' s₂ ms₂ w₂)
    (h0 : (printExitInfo paint ms₁).code = 0) (h0' : (printExitInfo paint ms₂).code = 0) :
    (∀ p, FoundIn root p → ∃ text, w₁.disk (w.resolve (outputPath p)) = .ok text ∧
      w₂.disk (w'.resolve (outputPath p)) = .ok text) ∧
    (∀ g, UsedGlobal ω₁ fuel₁ ext cfg schema w root g ↔ UsedGlobal ω₂ fuel₂ ext cfg schema w' root g) ∧
    ((∃ g, UsedGlobal ω₁ fuel₁ ext cfg schema w root g) → ∃ text, w₁.disk (globalsId w cfg rootPath) = .ok text ∧
      w₂.disk (globalsId w' cfg rootPath) = .ok text) := by
  have hcon := loaded_consistent hv hs
  have A := after_run hr hd hg R₁
  have B := after_run hr' hd' hg' R₂
  have file : ∀ p, FoundIn root p → ∃ c c' : Compile, w₁.disk (w.resolve (outputPath p)) = .ok c.contents ∧
      w₂.disk (w'.resolve (outputPath p)) = .ok c'.contents ∧ c'.contents = c.contents ∧
      (∀ g, g ∈ c'.globalTypesUsed ↔ g ∈ c.globalTypesUsed) ∧
      globalsOfFile ω₁ fuel₁ ext cfg schema w p = c.globalTypesUsed ∧
      globalsOfFile ω₂ fuel₂ ext cfg schema w' p = c'.globalTypesUsed := by
    intro p hpf
    obtain ⟨contents, d, st, op, ws, c, G, a1, a2⟩ := run_file paint hr hd hg R₁ h0 hpf
    obtain ⟨_, _, _, _, _, c', G', b1, b2⟩ := run_file paint hr' hd' hg' R₂ h0' hpf
    have g' := (generateFile_ok _ _ _ _ _ _ _ _ c').2 ⟨_, _, _, _, _, G', rfl⟩
    obtain ⟨hre, him⟩ := hp p hpf
    have mid : ∃ contents d st op ws c'', Generates (ω₁ p) fuel₁ ext cfg schema w' p contents d st op ws c'' ∧
        c''.contents = c.contents ∧ ∀ g, g ∈ c''.globalTypesUsed ↔ g ∈ c.globalTypesUsed := by
      rcases hre with hre | ⟨t, t', e, e', r, r', k, k', i, v, n⟩
      · have g := (generateFile_ok _ _ _ _ _ _ _ _ c).2 ⟨_, _, _, _, _, G, rfl⟩
        rw [← generateFile_congr cfg w w' (ω₁ p) fuel₁ ext schema p (by
          intro q hq
          rcases reads_by_import hq with rfl | ⟨t, il, q₀, x, y, z⟩
          · exact hre
          · exact him t il q₀ q x y z)] at g
        obtain ⟨_, _, _, _, _, G'', _⟩ := (generateFile_ok _ _ _ _ _ _ _ _ c).1 g
        exact ⟨_, _, _, _, _, c, G'', rfl, fun _ => Iff.rfl⟩
      · have x := G.readable
        rw [r] at x
        have x := Except.ok.inj x
        subst x
        have x := G.parses
        rw [k] at x
        have x := (List.cons.inj (Except.ok.inj x)).1
        subst x
        obtain ⟨op', c'', G'', y, z⟩ := C146_file_stays (ω₁ p) fuel₁ G r' k' i
          (fun il q q' hi hq => him _ il q q' r hi hq) v n
        exact ⟨_, _, _, _, _, c'', G'', y, z⟩
    obtain ⟨_, _, _, _, _, c'', G'', y, z⟩ := mid
    have g := (generateFile_ok _ _ _ _ _ _ _ _ c'').2 ⟨_, _, _, _, _, G'', rfl⟩
    rcases generate_sim ext cfg schema w' p hcon (hh p hpf) _ _ _ _ g g' with ⟨m, m', c₀, e, e', _⟩ | ⟨m, m', e, _⟩
    · have e := congrArg Prod.snd (Except.ok.inj e)
      have e' := congrArg Prod.snd (Except.ok.inj e')
      simp only at e e'
      subst e e'
      exact ⟨c, _, a1, b1, y, z, a2, b2⟩
    · simp at e
  have hused : ∀ g, g ∈ s₁.aggregate.2 ↔ g ∈ s₂.aggregate.2 := by
    intro g
    rw [A.used, B.used]
    constructor
    · rintro ⟨p, hpf, h⟩
      obtain ⟨c, c', _, _, _, z, a, b⟩ := file p hpf
      exact ⟨p, hpf, by rw [b, z]; rw [a] at h; exact h⟩
    · rintro ⟨p, hpf, h⟩
      obtain ⟨c, c', _, _, _, z, a, b⟩ := file p hpf
      exact ⟨p, hpf, by rw [a, ← z]; rw [b] at h; exact h⟩
  have hiff : ∀ g, UsedGlobal ω₁ fuel₁ ext cfg schema w root g ↔ UsedGlobal ω₂ fuel₂ ext cfg schema w' root g := by
    intro g
    rw [← usedGlobal_iff A, ← usedGlobal_iff B]
    exact hused g
  refine ⟨fun p hpf => ?_, hiff, fun hex => ?_⟩
  · obtain ⟨c, c', a, b, y, _⟩ := file p hpf
    exact ⟨_, a, by rw [b, y]⟩
  · obtain ⟨t, hc, ht⟩ := run_globals paint hr hd hg R₁ h0 hex
    obtain ⟨g, hgu⟩ := hex
    obtain ⟨t', hc', ht'⟩ := run_globals paint hr' hd' hg' R₂ h0' ⟨g, (hiff g).1 hgu⟩
    have e := globals_text_unique (ofJson_inputFieldsOnce hs) (ofJson_namedAsRegistered hs) _ _ _ _ cfg.toTsConfig
      hused hc hc'
    exact ⟨t, ht, by rw [ht', e]⟩

theorem compiles_generates {ω : Path → Hash} {fuel : Nat} {p : Path} {ms : List Msg} {gs : List String}
    (h : CompilesWith ω fuel ext cfg schema w p ms gs) (hlev : ∀ m ∈ ms, m.level = .compileWarning) :
    ∃ c, generateFile (ω p) fuel ext cfg schema w p = some (.done (.ok (ms, c))) ∧ gs = c.globalTypesUsed := by
  obtain ⟨r, hc, hres⟩ := h
  rcases hres with ⟨rep, hrep, rfl, rfl⟩ | ⟨he, _⟩
  · unfold compileFile at hc
    split at hc
    · cases hc
    · cases hc
    · simp only [Option.some.injEq, PanicOr.done.injEq] at hc
      subst hc
      simp at hrep
    · rename_i ms c hgen
      split at hc
      · simp only [Option.some.injEq, PanicOr.done.injEq] at hc
        subst hc
        simp at hrep
      · simp only [Option.some.injEq, PanicOr.done.injEq] at hc
        subst hc
        have hrep := Except.ok.inj hrep
        subst hrep
        exact ⟨c, hgen, rfl⟩
  · obtain ⟨m, hm, hl⟩ := failed_has_error hc he
    exact absurd (hlev m hm) hl

/-- The document of a correct run, generated in the other state. -/
theorem reordered_generates {ω : Hash} {fuel : Nat} {p : Path} {ms : List Msg} {c : Compile}
    (hre : VariablesReordered ext w w' p) (him : SameImports cfg w w' p)
    (h : generateFile ω fuel ext cfg schema w p = some (.done (.ok (ms, c))))
    (hlev : ∀ m ∈ ms, m.level = .compileWarning) :
    ∃ ms' c', generateFile ω fuel ext cfg schema w' p = some (.done (.ok (ms', c'))) ∧
      (∀ m ∈ ms', m.level = .compileWarning) ∧ ∀ g, g ∈ c'.globalTypesUsed ↔ g ∈ c.globalTypesUsed := by
  rcases hre with hre | ⟨t, t', e, e', r, r', k, k', i, v, n⟩
  · rw [← generateFile_congr cfg w w' ω fuel ext schema p (by
      intro q hq
      rcases reads_by_import hq with rfl | ⟨t, il, q₀, x, y, z⟩
      · exact hre
      · exact him t il q₀ q x y z)] at h
    exact ⟨ms, c, h, hlev, fun _ => Iff.rfl⟩
  · obtain ⟨contents, d, st, op, ws, G, hms⟩ := (generateFile_ok _ _ _ _ _ _ _ _ c).1 h
    have x := G.readable
    rw [r] at x
    have x := Except.ok.inj x
    subst x
    have x := G.parses
    rw [k] at x
    have x := (List.cons.inj (Except.ok.inj x)).1
    subst x
    obtain ⟨op', c'', G'', _, z⟩ := C146_file_stays ω fuel G r' k' i
      (fun il q q' hi hq => him _ il q q' r hi hq) v n
    refine ⟨_, c'', (generateFile_ok _ _ _ _ _ _ _ _ c'').2 ⟨_, _, _, _, _, G'', rfl⟩, ?_, z⟩
    intro m hm
    rw [List.mem_append] at hm
    rcases hm with hm | hm
    · exact hlev m (by rw [hms]; exact List.mem_append_left _ hm)
    · obtain ⟨x, _, rfl⟩ := List.mem_map.1 hm
      cases x <;> rfl

/-- **C146, exit status.** If a run over the first state ends with status 0 and the files of the second state can be written,
then a run over the second state ends with status 0 as well. -/
theorem C146_status {ω₁ ω₂ : Path → Hash} {ω₁' ω₂' : Hash} {fuel₁ fuel₂ threads₁ threads₂ : Nat}
    {s₁ s₂ : PoolSt World} {ms₁ ms₂ : List Msg} {w₁ w₂ : World} (paint : Paint)
    (hr : NoOutputRead w cfg root) (hd : OutputsDistinct w root) (hg : GlobalsApart w cfg rootPath root)
    (hr' : NoOutputRead w' cfg root) (hd' : OutputsDistinct w' root) (hg' : GlobalsApart w' cfg rootPath root)
    (hv : ValidDoc doc) (hs : Schema.ofJson doc = .ok schema)
    (hp : ∀ p, FoundIn root p → VariablesReordered ext w w' p ∧ SameImports cfg w w' p)
    (hh : ∀ p, FoundIn root p → HashProof ext schema w' cfg p)
    (hwo : ∀ p, FoundIn root p → w'.writeErr (w'.resolve (outputPath p)) = none)
    (hwg : w'.writeErr (globalsId w' cfg rootPath) = none)
    (R₁ : RunsTo ω₁ ω₁' fuel₁ ext cfg schema rootPath root threads₁ w s₁ ms₁ w₁)
    (R₂ : RunsTo ω₂ ω₂' fuel₂ ext cfg schema rootPath root threads₂ w' s₂ ms₂ w₂)
    (h0 : (printExitInfo paint ms₁).code = 0) : (printExitInfo paint ms₂).code = 0 := by
  have hcon := loaded_consistent hv hs
  have B := after_run hr' hd' hg' R₂
  have F := (C74_exit_status hr hd hg R₁ paint).1 h0
  have file : ∀ p, FoundIn root p → ∃ ms gs ms' gs', CompilesWith ω₁ fuel₁ ext cfg schema w p ms gs ∧
      CompilesWith ω₂ fuel₂ ext cfg schema w' p ms' gs' ∧ (∀ m ∈ ms', m.level = .compileWarning) ∧
      ∀ g, g ∈ gs' ↔ g ∈ gs := by
    intro p hpf
    obtain ⟨ms, gs, hc, hlev⟩ := F.files p hpf
    obtain ⟨c, hgen, rfl⟩ := compiles_generates hc hlev
    obtain ⟨ms₀, c₀, hgen₀, hlev₀, hgs⟩ := reordered_generates (hp p hpf).1 (hp p hpf).2 hgen hlev
    obtain ⟨gs', ms', e⟩ := B.returned p hpf
    have hc' := compilesWith_of_done e
    obtain ⟨r, hcf, hres⟩ := hc'
    refine ⟨ms, _, ms', gs', hc, compilesWith_of_done e, ?_⟩
    unfold compileFile at hcf
    split at hcf
    · cases hcf
    · cases hcf
    · rename_i hgen'
      rcases generate_sim ext cfg schema w' p hcon (hh p hpf) _ _ _ _ hgen₀ hgen' with
        ⟨_, _, _, _, e', _⟩ | ⟨_, _, e', _⟩ <;> cases e'
    · rename_i m' c' hgen'
      have hwr : (w'.write (outputPath p) c'.contents).1 = none := by
        unfold World.write
        rw [hwo p hpf]
      split at hcf
      · rename_i hx
        rw [hx] at hwr
        cases hwr
      · simp only [Option.some.injEq, PanicOr.done.injEq] at hcf
        subst hcf
        rcases hres with ⟨rep, hrep, rfl, rfl⟩ | ⟨he, _⟩
        · have hrep := Except.ok.inj hrep
          subst hrep
          rcases generate_sim ext cfg schema w' p hcon (hh p hpf) _ _ _ _ hgen₀ hgen' with
            ⟨a, b, x, e₁, e₂, S⟩ | ⟨_, _, e', _⟩
          · have e₁ := Prod.mk.inj (Except.ok.inj e₁)
            have e₂ := Prod.mk.inj (Except.ok.inj e₂)
            obtain ⟨rfl, rfl⟩ := e₁
            obtain ⟨rfl, rfl⟩ := e₂
            refine ⟨fun m hm => ?_, hgs⟩
            have : m.level ∈ ms₀.map Msg.level := S.levels.mem_iff.2 (List.mem_map_of_mem hm)
            obtain ⟨n, hn, hl⟩ := List.mem_map.1 this
            rw [← hl]
            exact hlev₀ n hn
          · cases e'
        · cases he
  have same : ∀ {ω : Path → Hash} {fuel : Nat} {w : World} {p : Path} {ms ms' : List Msg} {gs gs' : List String},
      CompilesWith ω fuel ext cfg schema w p ms gs → CompilesWith ω fuel ext cfg schema w p ms' gs' → gs = gs' := by
    intro ω fuel w p ms ms' gs gs' a b
    have a := compilesWith_iff.1 a
    rw [compilesWith_iff.1 b] at a
    exact (FileOutcome.done.inj a).1.symm
  have hug : ∀ g, UsedGlobal ω₂ fuel₂ ext cfg schema w' root g ↔ UsedGlobal ω₁ fuel₁ ext cfg schema w root g := by
    intro g
    constructor
    · rintro ⟨p, m, gs₀, hpf, hc, hg⟩
      obtain ⟨ms, gs, ms', gs', a, b, _, z⟩ := file p hpf
      rw [same hc b] at hg
      exact ⟨p, ms, gs, hpf, a, (z g).1 hg⟩
    · rintro ⟨p, m, gs₀, hpf, hc, hg⟩
      obtain ⟨ms, gs, ms', gs', a, b, _, z⟩ := file p hpf
      rw [same hc a] at hg
      exact ⟨p, ms', gs', hpf, b, (z g).2 hg⟩
  refine (C74_exit_status hr' hd' hg' R₂ paint).2 ⟨F.directories, fun p hpf => ?_, fun used hu n hn => ?_, fun _ => hwg⟩
  · obtain ⟨_, _, ms', gs', _, b, l, _⟩ := file p hpf
    exact ⟨ms', gs', b, l⟩
  · exact F.globals used (fun g => by rw [hu, hug]) n hn

end

/-! ### An example -/

/-- A run over a directory with one of the versions of the query. -/
def varsRun (ω : Hash) (text : String) : PoolSt World :=
  (PoolSt.init (Demo.varsWorld text) 1 Demo.soloTree).run
    (poolCompile (fun _ => ω) 9 Demo.varsExt Demo.cfg Demo.respSchema) 1 Demo.fileSched

/-- Its end. -/
def varsEnd (ω : Hash) (text : String) : Option (List Msg × World) :=
  finishWork ω 9 Demo.cfg Demo.respSchema (varsRun ω text).world ⟨true, ["r"]⟩ (varsRun ω text).aggregate

theorem vars_no_imports : importsOf "query P1" = [] ∧ importsOf "query P2" = [] := by
  have a : (importsOf "query P1").length = 0 := by decide +kernel
  have b : (importsOf "query P2").length = 0 := by decide +kernel
  exact ⟨List.length_eq_zero_iff.1 a, List.length_eq_zero_iff.1 b⟩

theorem vars_reads {text : String} (hi : importsOf text = []) {q : Path}
    (h : Spec.Reads (Demo.varsWorld text) Demo.cfg Demo.qPath q) : q = Demo.qPath := by
  rcases reads_by_import h with h | ⟨contents, il, q₀, hr, h1, _⟩
  · exact h
  · rw [show (Demo.varsWorld text).read Demo.qPath = .ok text from rfl] at hr
    have hr := Except.ok.inj hr
    subst hr
    have h1 := h1.1
    rw [hi] at h1
    simp at h1

theorem vars_apart {text : String} (hi : importsOf text = []) :
    NoOutputRead (Demo.varsWorld text) Demo.cfg Demo.soloTree ∧ OutputsDistinct (Demo.varsWorld text) Demo.soloTree ∧
      GlobalsApart (Demo.varsWorld text) Demo.cfg ⟨true, ["r"]⟩ Demo.soloTree := by
  have hres : (Demo.varsWorld text).resolve = Path.display := rfl
  refine ⟨?_, fun p q hp hq _ => by rw [solo_found hp, solo_found hq], ?_, ?_⟩
  · rintro p q hp hq ⟨p', hp', ho⟩
    rw [solo_found hp] at hq
    rw [solo_found hp', vars_reads hi hq, hres] at ho
    revert ho
    decide +kernel
  · rintro ⟨p', hp', ho⟩
    rw [solo_found hp', globalsId, hres] at ho
    revert ho
    decide +kernel
  · intro p q hp hq
    rw [solo_found hp] at hq
    rw [vars_reads hi hq, globalsId, hres]
    decide +kernel

theorem vars_hashProof :
    HashProof Demo.varsExt Demo.respSchema (Demo.varsWorld "query P2") Demo.cfg Demo.qPath := by
  have hcon := loaded_consistent resp_valid resp_loads
  intro contents d hr hd
  rw [show (Demo.varsWorld "query P2").read Demo.qPath = .ok "query P2" from rfl] at hr
  have hr := Except.ok.inj hr
  subst hr
  rw [show Demo.varsExt.parse "query P2" =
    .ok [Demo.varsQuery [Demo.intVar, { Demo.pageVar with default := some (.other "null") }]] from rfl] at hd
  have hd := (List.cons.inj (Except.ok.inj hd)).1
  subst hd
  have none : ∀ f, ¬ ImportedFragment Demo.varsExt (Demo.varsWorld "query P2") Demo.cfg Demo.qPath "query P2" f := by
    rintro f ⟨q, _, hl, _⟩
    have no : ∀ {il : ImportLine} {r : Path}, ¬ Imports Demo.cfg Demo.qPath "query P2" il r := by
      rintro il r ⟨h1, _⟩
      rw [vars_no_imports.2] at h1
      simp at h1
    cases hl with
    | direct hi _ => exact no hi
    | trans hi _ _ => exact no hi
  refine ⟨fun f _ h => absurd h (none f), ?_, by decide⟩
  intro frags hs
  have hget : ∀ n, AMap.get? ([] : Frags) n = AMap.get? frags n := by
    intro n
    cases hf : AMap.get? frags n with
    | none => rfl
    | some f => exact absurd ((hs n f).1 hf).2 (none f)
  refine ⟨fragsValid_congr hget (frags_nil_valid _), ?_⟩
  intro P hP
  rw [show rootType (Demo.varsQuery [Demo.intVar, { Demo.pageVar with default := some (.other "null") }]) =
    some "Query" from rfl] at hP
  have hP := Option.some.inj hP
  subst hP
  obtain ⟨op, ws, h, hd⟩ := compiledDistinct_iff.1 (show compiledDistinct
    (Operation.compile .inOrder 9 ⟨Demo.respSchema, true, []⟩
      (Demo.varsQuery [Demo.intVar, { Demo.pageVar with default := some (.other "null") }])) = true by decide +kernel)
  exact oneTypePerKey_congr hget ((C21_listed_once_iff .inOrder 9 true hcon
    (frags_nil_valid _) _ op ws "Query" rfl h).1 hd)

/-- Runs over the two versions of the query leave the same output and the same globals file. -/
theorem C146_runs_demo : ∃ s₁ s₂ ms₁ ms₂ w₁ w₂,
    RunsTo (fun _ => .reversed) .reversed 9 Demo.varsExt Demo.cfg Demo.respSchema ⟨true, ["r"]⟩ Demo.soloTree 1
      (Demo.varsWorld "query P1") s₁ ms₁ w₁ ∧
    RunsTo (fun _ => .inOrder) .inOrder 9 Demo.varsExt Demo.cfg Demo.respSchema ⟨true, ["r"]⟩ Demo.soloTree 1
      (Demo.varsWorld "query P2") s₂ ms₂ w₂ ∧
    (printExitInfo .plain ms₁).code = 0 ∧ (printExitInfo .plain ms₂).code = 0 ∧
    (∃ text, w₁.disk "/r/q.graphql.d.ts" = .ok text ∧ w₂.disk "/r/q.graphql.d.ts" = .ok text) ∧
    ∃ text, w₁.disk "/r/globals.ts" = .ok text ∧ w₂.disk "/r/globals.ts" = .ok text := by
  obtain ⟨i1, i2⟩ := vars_no_imports
  obtain ⟨hno, hd, hga⟩ := vars_apart i1
  obtain ⟨hno', hd', hga'⟩ := vars_apart i2
  have hid : ∀ t, globalsId (Demo.varsWorld t) Demo.cfg ⟨true, ["r"]⟩ = "/r/globals.ts" := by
    intro t
    have : globalsId (Demo.varsWorld "query P1") Demo.cfg ⟨true, ["r"]⟩ = "/r/globals.ts" := by decide +kernel
    exact this
  have hout : ∀ t, (Demo.varsWorld t).resolve (outputPath Demo.qPath) = "/r/q.graphql.d.ts" := by
    intro t
    have : (Demo.varsWorld "query P1").resolve (outputPath Demo.qPath) = "/r/q.graphql.d.ts" := by decide +kernel
    exact this
  have a1 : (endsWith (varsRun .reversed "query P1") (varsEnd .reversed "query P1")).isSome = true := by decide +kernel
  have a2 : (endsWith (varsRun .inOrder "query P2") (varsEnd .inOrder "query P2")).isSome = true := by decide +kernel
  have a4 : (varsRun .reversed "query P1").aggregate.2.isEmpty = false := by decide +kernel
  obtain ⟨t₁, b1⟩ := Option.isSome_iff_exists.1 a1
  obtain ⟨t₂, b2⟩ := Option.isSome_iff_exists.1 a2
  obtain ⟨ms₁, w₁, e₁, h1, h2, h5, _⟩ := endsWith_some b1
  obtain ⟨ms₂, w₂, e₂, h3, h4, _, _⟩ := endsWith_some b2
  have R₁ : RunsTo (fun _ => .reversed) .reversed 9 Demo.varsExt Demo.cfg Demo.respSchema ⟨true, ["r"]⟩
      Demo.soloTree 1 (Demo.varsWorld "query P1") (varsRun .reversed "query P1") ms₁ w₁ := ⟨⟨_, rfl⟩, h1, h2, e₁⟩
  have R₂ : RunsTo (fun _ => .inOrder) .inOrder 9 Demo.varsExt Demo.cfg Demo.respSchema ⟨true, ["r"]⟩
      Demo.soloTree 1 (Demo.varsWorld "query P2") (varsRun .inOrder "query P2") ms₂ w₂ := ⟨⟨_, rfl⟩, h3, h4, e₂⟩
  have hp : ∀ p, FoundIn Demo.soloTree p →
      VariablesReordered Demo.varsExt (Demo.varsWorld "query P1") (Demo.varsWorld "query P2") p ∧
        SameImports Demo.cfg (Demo.varsWorld "query P1") (Demo.varsWorld "query P2") p := by
    intro p hp
    rw [solo_found hp]
    refine ⟨.inr ⟨"query P1", "query P2", Demo.varsQuery [Demo.pageVar, Demo.intVar],
      Demo.varsQuery [Demo.intVar, { Demo.pageVar with default := some (.other "null") }], rfl, rfl, rfl, rfl,
      by rw [i1, i2], .operation (List.Perm.swap _ _ _), by decide⟩, ?_⟩
    intro contents il q q' hr hi _
    rw [show (Demo.varsWorld "query P1").read Demo.qPath = .ok "query P1" from rfl] at hr
    have hr := Except.ok.inj hr
    subst hr
    have h1 := hi.1
    rw [i1] at h1
    simp at h1
  have hex : ∃ n, UsedGlobal (fun _ => .reversed) 9 Demo.varsExt Demo.cfg Demo.respSchema (Demo.varsWorld "query P1")
      Demo.soloTree n := by
    have A := after_run hno hd hga R₁
    cases hu : (varsRun .reversed "query P1").aggregate.2 with
    | nil => rw [hu] at a4; simp at a4
    | cons n _ => exact ⟨n, (usedGlobal_iff A n).1 (by rw [hu]; simp)⟩
  have hh : ∀ p, FoundIn Demo.soloTree p →
      HashProof Demo.varsExt Demo.respSchema (Demo.varsWorld "query P2") Demo.cfg p :=
    fun p hp => by rw [solo_found hp]; exact vars_hashProof
  have h6 := C146_status .plain hno hd hga hno' hd' hga' resp_valid resp_loads hp hh (fun _ _ => rfl) rfl R₁ R₂ h5
  obtain ⟨c1, _, c3⟩ := C146_runs .plain hno hd hga hno' hd' hga' resp_valid resp_loads hp hh R₁ R₂ h5 h6
  have k1 := c1 Demo.qPath ((mem_filesOf _ _).1 (by decide +kernel))
  have k2 := c3 hex
  rw [hout, hout] at k1
  rw [hid, hid] at k2
  exact ⟨_, _, ms₁, ms₂, w₁, w₂, R₁, R₂, h5, h6, k1, k2⟩

end Qlc
