import Verif.Props.FineFair
import Verif.Spec.Ends
/-
Property C103: which projects a run comes to an end on.
-/
set_option autoImplicit false

namespace Qlc
open Spec

section
variable {ω : Path → Hash} {ω' : Hash} {fuel threads : Nat} {ext : Ext} {cfg : CompileConfig}
  {schema : Schema} {w : World} {root : Entry} {rootPath : Path}

theorem enters_congr {frags frags' : Frags} (hget : ∀ n, AMap.get? frags n = AMap.get? frags' n)
    {x y : String × List Selection} (h : Enters schema frags x y) : Enters schema frags' x y := by
  cases h with
  | field a b c d => exact .field a b c d
  | «inline» a b => exact .inline a b
  | spread a b c => exact .spread a ((hget _).symm.trans b) c

theorem fits_congr {frags frags' : Frags} (hget : ∀ n, AMap.get? frags n = AMap.get? frags' n) :
    ∀ (n : Nat) {x : String × List Selection}, Fits schema frags n x → Fits schema frags' n x
  | 0, _, h => h.elim
  | n + 1, _, h => fun y hy => fits_congr hget n (h y (enters_congr (fun k => (hget k).symm) hy))

/-- Compiling a file returns. -/
def FileReturns (ω : Path → Hash) (fuel : Nat) (ext : Ext) (cfg : CompileConfig) (schema : Schema) (w : World)
    (p : Path) : Prop := ∃ r, generateFile (ω p) fuel ext cfg schema w p = some (.done r)

theorem returns_iff_compiles {p : Path} : FileReturns ω fuel ext cfg schema w p ↔
    ∃ ms gs, CompilesWith ω fuel ext cfg schema w p ms gs := by
  unfold FileReturns CompilesWith
  constructor
  · rintro ⟨r, h⟩
    unfold compileFile
    rw [h]
    cases r with
    | error ms => exact ⟨ms, [], _, rfl, .inr ⟨rfl, rfl⟩⟩
    | ok x =>
      obtain ⟨ms, c⟩ := x
      simp only
      generalize w.write (outputPath p) c.contents = y
      obtain ⟨y1, y2⟩ := y
      cases y1 with
      | none => exact ⟨_, _, _, rfl, .inl ⟨_, rfl, rfl, rfl⟩⟩
      | some e => exact ⟨_, _, _, rfl, .inr ⟨rfl, rfl⟩⟩
  · rintro ⟨ms, gs, r, h, _⟩
    unfold compileFile at h
    cases hg : generateFile (ω p) fuel ext cfg schema w p with
    | none => rw [hg] at h; simp at h
    | some x =>
      cases x with
      | panic => rw [hg] at h; simp at h
      | done r => exact ⟨r, rfl⟩

/-- In terms of the steps of compiling. -/
theorem returns_iff_steps (hcon : Consistent schema) {p : Path} :
    FileReturns ω fuel ext cfg schema w p ↔
    ∀ contents d, w.read p = .ok contents → ext.parse contents = .ok [d] →
      ∃ st, addImported w cfg fuel p contents ⟨[], []⟩ = some (.done st) ∧
        ∀ P, rootType d = some P → IsComposite schema P →
          Fits schema (parseForeignFragments (ω p) ext p st.imports st.messages).1 fuel (P, itemsOf d) := by
  unfold FileReturns generateFile readGraphqlFile
  cases hr : w.read p with
  | error e => simp
  | ok contents =>
    cases hp : parseGraphqlFile ext contents p with
    | error m =>
      simp only [hp]
      refine ⟨fun _ c d hc hd => ?_, fun _ => ⟨_, rfl⟩⟩
      cases hc
      rw [(parse_ok _ _ p _).2 hd] at hp
      simp at hp
    | ok d =>
      have hd := (parse_ok _ _ p _).1 hp
      have hone : ∀ c d', Except.ok contents = Except.ok (ε := String) c → ext.parse c = .ok [d'] →
          c = contents ∧ d' = d := by
        intro c d' hc hd'
        cases hc
        rw [hd] at hd'
        simp only [Except.ok.injEq, List.cons.injEq, and_true] at hd'
        exact ⟨rfl, hd'.symm⟩
      simp only [hp]
      cases hi : addImported w cfg fuel p contents ⟨[], []⟩ with
      | none =>
        simp only
        refine ⟨fun ⟨r, h⟩ => by simp at h, fun h => ?_⟩
        obtain ⟨st, h1, _⟩ := h contents d rfl hd
        rw [hi] at h1
        simp at h1
      | some x =>
        cases x with
        | panic =>
          simp only
          refine ⟨fun ⟨r, h⟩ => by simp at h, fun h => ?_⟩
          obtain ⟨st, h1, _⟩ := h contents d rfl hd
          rw [hi] at h1
          simp at h1
        | done st =>
          simp only
          have hnone := compile_none_iff (frags := (parseForeignFragments (ω p) ext p st.imports st.messages).1)
            (ω p) fuel cfg.showDeprecationWarnings hcon d
          constructor
          · rintro ⟨r, h⟩ c d' hc hd'
            obtain ⟨rfl, rfl⟩ := hone c d' hc hd'
            refine ⟨st, hi, fun P h1 h2 => ?_⟩
            by_contra h3
            rw [hnone.2 ⟨P, h1, h2, h3⟩] at h
            simp at h
          · intro h
            obtain ⟨st', h1, h2⟩ := h contents d rfl hd
            rw [hi] at h1
            obtain rfl : st = st' := by simpa using h1
            cases hc : Operation.compile (ω p) fuel ⟨schema, cfg.showDeprecationWarnings,
                (parseForeignFragments (ω p) ext p st.imports st.messages).1⟩ d with
            | none =>
              obtain ⟨P, h3, h4, h5⟩ := hnone.1 hc
              exact absurd (h2 P h3 h4) h5
            | some y =>
              obtain ⟨r, ws⟩ := y
              cases r with
              | error es => exact ⟨_, rfl⟩
              | ok op =>
                simp only
                cases compileIr (ω p) op cfg.toTsConfig schema with
                | error e => exact ⟨_, rfl⟩
                | ok c => exact ⟨_, rfl⟩

/-- If compiling a file can come to an end at all, it does under every hash order and with any larger amount
of time. -/
theorem ends_bound (hcon : Consistent schema) {p : Path} (hu : NamesDiffer ext w cfg p)
    (h : FileEnds ext cfg schema w p) :
    ∃ N, ∀ ω fuel, N ≤ fuel → FileReturns ω fuel ext cfg schema w p := by
  by_cases hex : ∃ contents d, w.read p = .ok contents ∧ ext.parse contents = .ok [d]
  · obtain ⟨contents, d, hread, hparse⟩ := hex
    obtain ⟨ha, hb, hch⟩ := h contents d hread hparse
    obtain ⟨n1, st, hst⟩ := (C36_returns_iff w cfg p contents ⟨[], []⟩).2 ⟨ha, hb⟩
    have hs : ∀ ω : Path → Hash, InScope ext w cfg p contents
        (parseForeignFragments (ω p) ext p st.imports st.messages).1 := fun ω =>
      inScope_foreign ext cfg w p (ω p) hst (fun f f' a b => hu contents d f f' hread hparse a b)
    have h0 := hs (fun _ => .inOrder)
    obtain ⟨n2, hn2⟩ : ∃ n, ∀ P, rootType d = some P → IsComposite schema P →
        Fits schema (parseForeignFragments .inOrder ext p st.imports st.messages).1 n (P, itemsOf d) := by
      cases hP : rootType d with
      | none => exact ⟨0, by simp⟩
      | some P =>
        by_cases hcomp : IsComposite schema P
        · obtain ⟨n, hn⟩ := (exists_fits_iff (P, itemsOf d)).2
            ((acc_iff_no_chain P (itemsOf d)).2 (hch _ h0 P hP hcomp))
          exact ⟨n, fun Q hQ _ => by obtain rfl := Option.some.inj hQ; exact hn⟩
        · exact ⟨0, fun Q hQ hc => by obtain rfl := Option.some.inj hQ; exact absurd hc hcomp⟩
    refine ⟨max n1 n2, fun ω fuel hf => (returns_iff_steps hcon).2 ?_⟩
    intro c d' hc hd'
    rw [hread] at hc
    cases hc
    rw [hparse] at hd'
    simp only [Except.ok.injEq, List.cons.injEq, and_true] at hd'
    subst hd'
    refine ⟨st, addImported_mono_le w cfg (Nat.le_trans (Nat.le_max_left _ _) hf) _ _ _ _ hst, ?_⟩
    intro P h1 h2
    exact (fits_congr (inScope_get ext cfg w p h0 (hs ω)) n2 (hn2 P h1 h2)).mono
      (Nat.le_trans (Nat.le_max_right _ _) hf)
  · refine ⟨0, fun ω fuel _ => (returns_iff_steps hcon).2 ?_⟩
    intro c d hc hd
    exact absurd ⟨c, d, hc, hd⟩ hex

/-- **C103.** Compiling a file returns, given enough time, exactly if neither its imports nor its fragments
recurse and no import line lacks its closing quote; the hash order plays no role. -/
theorem C103_file_returns_iff (hcon : Consistent schema) {p : Path} (hu : NamesDiffer ext w cfg p) :
    (∃ fuel ms gs, CompilesWith ω fuel ext cfg schema w p ms gs) ↔ FileEnds ext cfg schema w p := by
  constructor
  · rintro ⟨fuel, hc⟩ contents d hread hparse
    obtain ⟨st, h1, h2⟩ := (returns_iff_steps hcon).1 (returns_iff_compiles.2 hc) contents d hread hparse
    obtain ⟨ha, hb⟩ := (C36_returns_iff w cfg p contents ⟨[], []⟩).1 ⟨fuel, st, h1⟩
    refine ⟨ha, hb, fun frags hfr P hP hcomp => ?_⟩
    have hs := inScope_foreign ext cfg w p (ω p) h1 (fun f f' a b => hu contents d f f' hread hparse a b)
    rw [← acc_iff_no_chain, ← exists_fits_iff]
    exact ⟨fuel, fits_congr (inScope_get ext cfg w p hs hfr) fuel (h2 P hP hcomp)⟩
  · intro h
    obtain ⟨N, hN⟩ := ends_bound hcon hu h
    obtain ⟨ms, gs, hc⟩ := returns_iff_compiles.1 (hN ω N (Nat.le_refl _))
    exact ⟨N, ms, gs, hc⟩

/-- **C103.** If a file of the tree does not end, no run of the program over the tree ever completes: whatever
the number of threads, the schedule, the hash order and the time given. -/
theorem C103_recursion_never_completes (hcon : Consistent schema) (hr : NoOutputRead w cfg root)
    (hd : OutputsDistinct w root) (hg : GlobalsApart w cfg rootPath root) {p : Path} (hp : FoundIn root p)
    (hu : NamesDiffer ext w cfg p) (hne : ¬ FileEnds ext cfg schema w p) {s : PoolSt World} {ms : List Msg}
    {w' : World} : ¬ RunsTo ω ω' fuel ext cfg schema rootPath root threads w s ms w' := by
  intro R
  obtain ⟨gs, msgs, e⟩ := (after_run hr hd hg R).returned p hp
  exact hne ((C103_file_returns_iff (ω := ω) hcon hu).1 ⟨fuel, msgs, gs, compilesWith_of_done e⟩)

theorem inputDepth_mono {n : Nat} {t : SType} (h : inputDepth schema n t = true) :
    inputDepth schema (n + 1) t = true := by
  induction n generalizing t with
  | zero => simp [inputDepth] at h
  | succ n ih =>
    unfold inputDepth at h ⊢
    cases hd : t.definition with
    | inputObject name fields =>
      rw [hd] at h
      simp only [List.all_eq_true] at h ⊢
      intro e he
      have := h e he
      cases hk : e.2.type.definition with
      | inputObject =>
        rw [hk] at this
        simp only at this ⊢
        cases hT : schema.getType e.2.type.name with
        | none => rfl
        | some t' => rw [hT] at this; exact ih this
      | _ => rfl
    | _ => rfl

theorem inputDepth_le {n m : Nat} (h : n ≤ m) {t : SType} (hn : inputDepth schema n t = true) :
    inputDepth schema m t = true := by
  induction h with
  | refl => exact hn
  | step _ ih => exact inputDepth_mono ih

theorem inputDepth_of_acc {t : SType} (h : Acc (SubInput schema) t) : ∃ n, inputDepth schema n t = true := by
  induction h with
  | intro t _ ih =>
    cases hd : t.definition with
    | inputObject name fields =>
      obtain ⟨n, hn⟩ := exists_bound fields (fun e n => e.2.type.definition = .inputObject →
          ∀ t', schema.getType e.2.type.name = some t' → inputDepth schema n t' = true)
        (fun e n m h hnm hk t' ht' => inputDepth_le hnm (h hk t' ht'))
        (by
          intro e he
          by_cases hk : e.2.type.definition = .inputObject
          · cases ht : schema.getType e.2.type.name with
            | none => exact ⟨0, by simp⟩
            | some t' =>
              obtain ⟨n, hn⟩ := ih t' ⟨e.2, ⟨name, fields, e.1, hd, he⟩, hk, ht⟩
              exact ⟨n, fun _ t'' ht'' => by obtain rfl := Option.some.inj ht''; exact hn⟩
          · exact ⟨0, fun h => absurd h hk⟩)
      refine ⟨n + 1, ?_⟩
      unfold inputDepth
      rw [hd]
      simp only [List.all_eq_true]
      intro e he
      cases hk : e.2.type.definition with
      | inputObject =>
        simp only
        cases hT : schema.getType e.2.type.name with
        | none => rfl
        | some t' => exact hn e he hk t' hT
      | _ => rfl
    | _ => exact ⟨1, by unfold inputDepth; rw [hd]⟩

theorem globals_isSome_of_depth {used : List String} {n : Nat}
    (h : ∀ u ∈ used, ∀ t, schema.getType u = some t → inputDepth schema n t = true) (tcfg : TsConfig) :
    (compileGlobals ω' n tcfg schema used).isSome = true := by
  have := globalNameLoop_isSome ω' n schema (ω'.perm ["typescript.rs:201"] used)
    (fun u hu t ht m => addSub_of_depth ω' schema n t
      (h u ((ω'.isPerm _ _).mem_iff.1 hu) t ht) m) []
  unfold compileGlobals globalTypesFromNames
  cases hl : globalNameLoop ω' n schema (ω'.perm ["typescript.rs:201"] used) [] with
  | none => rw [hl] at this; simp at this
  | some r =>
    cases r with
    | error e => simp
    | ok m =>
      simp only
      cases seqE ((sortBy Prod.fst (ω'.perm ["typescript.rs:209"] m)).map
        (fun e => globalDef ω' tcfg e.1 e.2)) <;> simp

/-- On a project without recursion one amount of time suffices for all files and the globals file. -/
theorem enough_time (hcon : Consistent schema)
    (hu : ∀ p, FoundIn root p → NamesDiffer ext w cfg p)
    (hends : ∀ p, FoundIn root p → FileEnds ext cfg schema w p)
    (hinputs : InputsEnd ext cfg schema w root) :
    ∃ N, ∀ fuel, N ≤ fuel → ∀ (ω : Path → Hash) (ω' : Hash),
      (∀ p, FoundIn root p → ∃ ms gs, CompilesWith ω fuel ext cfg schema w p ms gs) ∧
      ∀ used : List String, (∀ g, g ∈ used ↔ UsedGlobal ω fuel ext cfg schema w root g) →
        (compileGlobals ω' fuel cfg.toTsConfig schema used).isSome = true := by
  obtain ⟨N1, hN1⟩ := exists_bound (filesOf root)
    (fun p N => ∀ ω fuel, N ≤ fuel → FileReturns ω fuel ext cfg schema w p)
    (fun p n m h hnm ω fuel hf => h ω fuel (Nat.le_trans hnm hf))
    (fun p hp => ends_bound hcon (hu p ((mem_filesOf root p).1 hp)) (hends p ((mem_filesOf root p).1 hp)))
  obtain ⟨N2, hN2⟩ := exists_bound schema
    (fun e N => (∃ ω fuel, UsedGlobal ω fuel ext cfg schema w root e.1) →
      ∀ t, schema.getType e.1 = some t → inputDepth schema N t = true)
    (fun e n m h hnm hx t ht => inputDepth_le hnm (h hx t ht))
    (by
      intro e _
      by_cases hx : ∃ ω fuel, UsedGlobal ω fuel ext cfg schema w root e.1
      · obtain ⟨ω, fuel, hx⟩ := hx
        cases ht : schema.getType e.1 with
        | none => exact ⟨0, by simp⟩
        | some t =>
          obtain ⟨n, hn⟩ := inputDepth_of_acc (hinputs ω fuel e.1 t hx ht)
          exact ⟨n, fun _ t' ht' => by obtain rfl := Option.some.inj ht'; exact hn⟩
      · exact ⟨0, fun h => absurd h hx⟩)
  refine ⟨max N1 N2, fun fuel hf ω ω' => ⟨fun p hp =>
    returns_iff_compiles.1 (hN1 p ((mem_filesOf root p).2 hp) ω fuel (Nat.le_trans (Nat.le_max_left _ _) hf)),
    ?_⟩⟩
  intro used hused
  refine globals_isSome_of_depth ?_ _
  intro u hu t ht
  exact inputDepth_le (Nat.le_trans (Nat.le_max_right _ _) hf)
    (hN2 (u, t) (AMap.mem_of_get? ht) ⟨ω, fuel, (hused u).1 hu⟩ t ht)

/-- **C103.** A project without recursion: if every file of the tree ends and so do the input objects below the
globals in use, then there is an amount of time that suffices for every run: under every hash order, with any
larger amount of time and under every fair schedule of single file operations, all workers exit; and with one
thread the whole program completes. -/
theorem C103_no_recursion_completes (hcon : Consistent schema) (hr : NoOutputRead w cfg root)
    (hd : OutputsDistinct w root) (hn : (filesOf root).Nodup)
    (hu : ∀ p, FoundIn root p → NamesDiffer ext w cfg p)
    (hends : ∀ p, FoundIn root p → FileEnds ext cfg schema w p)
    (hinputs : InputsEnd ext cfg schema w root) :
    ∃ N, ∀ fuel, N ≤ fuel → ∀ (ω : Path → Hash) (ω' : Hash) (sched : Nat → Nat × Nat),
      Progressing (fun n => (sched n).2) →
      (∀ threads, Fair threads (fun n => (sched n).1) →
        ∃ n, (fineAt (fun p => compileOps (ω p) fuel ext cfg schema p) threads
          (FinePool.init w threads root) sched n).pool.finished = true) ∧
      (Fair 1 (fun n => (sched n).1) →
        ∃ n F ms w', F = fineAt (fun p => compileOps (ω p) fuel ext cfg schema p) 1
            (FinePool.init w 1 root) sched n ∧
          FineRunsTo ω ω' fuel ext cfg schema rootPath root 1 w F ms w') := by
  obtain ⟨N, hN⟩ := enough_time hcon hu hends hinputs
  refine ⟨N, fun fuel hf ω ω' sched hs => ?_⟩
  obtain ⟨hall, hglob⟩ := hN fuel hf ω ω'
  constructor
  · intro threads hfair
    obtain ⟨n, h⟩ := C102_workers_finish hr hd hn hall sched hfair hs
    exact ⟨n, h n (Nat.le_refl _)⟩
  · intro hfair
    obtain ⟨n, h⟩ := C102_one_thread_completes (rootPath := rootPath) hr hd hn hall hglob sched hfair hs
    obtain ⟨F, hF, _, _, _, _, h⟩ := h n (Nat.le_refl _)
    obtain ⟨k, ms, w', _, R⟩ := h (fun _ => 1) (fun _ => Nat.one_pos)
    exact ⟨n, F, ms, w', hF, R⟩

theorem acc_of_depth : ∀ (n : Nat) {t : SType}, inputDepth schema n t = true → Acc (SubInput schema) t
  | 0, _, h => by simp [inputDepth] at h
  | n + 1, t, h => by
    refine .intro t ?_
    rintro t' ⟨f, ⟨name, fields, key, hd, hf⟩, hk, ht⟩
    unfold inputDepth at h
    rw [hd] at h
    simp only [List.all_eq_true] at h
    have := h _ hf
    rw [hk] at this
    simp only [ht] at this
    exact acc_of_depth n this

end

/-! ### The demos -/

theorem demo_namesDiffer {p : Path} (hp : FoundIn Demo.fileTree p) :
    NamesDiffer Demo.ext Demo.world Demo.cfg p := by
  intro contents d f f' hr hd
  exact (demo_hashProof hp contents d hr hd).1 f f'

theorem demo_inputsEnd : InputsEnd Demo.ext Demo.cfg Demo.schema Demo.world Demo.fileTree := by
  intro ω fuel u t _ ht
  have h := demo_depth
  rw [List.all_eq_true] at h
  exact acc_of_depth 5 (h _ (AMap.mem_of_get? ht))

/-- **C103.** The demo has no recursion: with three threads the workers exit, with one thread the program
completes. -/
theorem C103_demo : ∃ N, ∀ fuel, N ≤ fuel → ∀ (ω : Path → Hash) (ω' : Hash),
    (∃ n, (fineAt (fun p => compileOps (ω p) fuel Demo.ext Demo.cfg Demo.schema p) 3
      (FinePool.init Demo.world 3 Demo.fileTree) (fun n => (n % 3, 1)) n).pool.finished = true) ∧
    ∃ F ms w', FineRunsTo ω ω' fuel Demo.ext Demo.cfg Demo.schema ⟨true, ["r"]⟩ Demo.fileTree 1 Demo.world
      F ms w' := by
  obtain ⟨N, hN⟩ := C103_no_recursion_completes (rootPath := ⟨true, ["r"]⟩) demo_consistent demo_noOutputRead
    demo_outputsDistinct demo_nodup (fun p hp => demo_namesDiffer hp)
    (fun p hp => (C103_file_returns_iff (ω := fun _ => .inOrder) demo_consistent (demo_namesDiffer hp)).1
      ⟨5, demo_compilesWith hp⟩) demo_inputsEnd
  refine ⟨N, fun fuel hf ω ω' => ⟨?_, ?_⟩⟩
  · exact (hN fuel hf ω ω' (fun n => (n % 3, 1)) (fun _ => Nat.one_pos)).1 3 (roundRobin_fair 3)
  · obtain ⟨_, F, ms, w', _, R⟩ := (hN fuel hf ω ω' (fun _ => (0, 1)) (fun _ => Nat.one_pos)).2
      (fun i hi n => ⟨n, Nat.le_refl _, by show 0 = i; omega⟩)
    exact ⟨F, ms, w', R⟩

/-- A fragment that imports itself. -/
def Demo.loopText : String := "#import \"s.graphql\"\nfragment S"

/-- Where it is. -/
def Demo.loopPath : Path := ⟨true, ["r", "s.graphql"]⟩

/-- The file system with that file only. -/
def Demo.loopWorld : World where
  resolve := Path.display
  disk := fun id => if id = "/r/s.graphql" then .ok Demo.loopText else .error "missing"
  writeErr := fun _ => none

/-- A stand-in for the parser. -/
def Demo.loopExt : Ext where
  parse := fun _ => .ok [.fragment Demo.fragF]
  dist := Demo.ext.dist

/-- The tree. -/
def Demo.loopTree : Entry := .dir ⟨true, ["r"]⟩ [.file Demo.loopPath]

theorem loop_found {p : Path} : FoundIn Demo.loopTree p ↔ p = Demo.loopPath := by
  rw [← mem_filesOf]
  have e : filesOf Demo.loopTree = [Demo.loopPath] := by decide +kernel
  rw [e]
  simp

theorem loop_imports {il : ImportLine} {r : Path}
    (h : Imports Demo.cfg Demo.loopPath Demo.loopText il r) : r = Demo.loopPath := by
  obtain ⟨h1, h2⟩ := h
  have hall : ∀ il ∈ importsOf Demo.loopText,
      getFilePathOfFragment Demo.cfg il.after Demo.loopPath.pop = some Demo.loopPath := by
    decide +kernel
  rw [hall il h1] at h2
  exact (Option.some.inj h2).symm

theorem loop_reads {q : Path} (h : Spec.Reads Demo.loopWorld Demo.cfg Demo.loopPath q) : q = Demo.loopPath := by
  have rs : Demo.loopWorld.read Demo.loopPath = .ok Demo.loopText := rfl
  induction h with
  | self => rfl
  | imported _ hr hi ih =>
    subst ih
    rw [rs] at hr
    obtain rfl := Except.ok.inj hr
    exact loop_imports hi

theorem loop_output {id : String} (h : IsOutput Demo.loopWorld Demo.loopTree id) :
    id = "/r/s.graphql.d.ts" := by
  obtain ⟨p, hp, rfl⟩ := h
  rw [loop_found.1 hp]
  decide +kernel

/-- **C103.** No run over a tree with a file that imports itself ever completes. -/
theorem C103_loop_demo {ω : Path → Hash} {ω' : Hash} {fuel threads : Nat} {s : PoolSt World} {ms : List Msg}
    {w' : World} : ¬ RunsTo ω ω' fuel Demo.loopExt Demo.cfg Demo.schema ⟨true, ["r"]⟩ Demo.loopTree threads
      Demo.loopWorld s ms w' := by
  have rs : Demo.loopWorld.read Demo.loopPath = .ok Demo.loopText := rfl
  refine C103_recursion_never_completes demo_consistent ?_ ?_ ?_ (p := Demo.loopPath) (loop_found.2 rfl) ?_ ?_
  · intro p q hp hq ho
    obtain rfl := loop_found.1 hp
    obtain rfl := loop_reads hq
    have h := loop_output ho
    revert h
    decide +kernel
  · intro p q hp hq _
    rw [loop_found.1 hp, loop_found.1 hq]
  · refine ⟨fun ho => ?_, fun p q hp hq => ?_⟩
    · have h := loop_output ho
      revert h
      decide +kernel
    · obtain rfl := loop_found.1 hp
      obtain rfl := loop_reads hq
      decide +kernel
  · intro contents d f f' _ _ h h' _
    obtain ⟨q, c, _, _, h⟩ := h
    obtain ⟨q', c', _, _, h'⟩ := h'
    have e : ∀ c f, Demo.loopExt.parse c = .ok [.fragment f] → f = Demo.fragF := by
      intro c f h
      have := List.cons.inj (Except.ok.inj h)
      exact (Definition.fragment.inj this.1).symm
    rw [e c f h, e c' f' h']
  · intro hends
    obtain ⟨ha, _⟩ := hends _ _ rs rfl
    have hloop : ImportEdge Demo.loopWorld Demo.cfg (Demo.loopPath, Demo.loopText)
        (Demo.loopPath, Demo.loopText) := by
      have hlen : (importsOf Demo.loopText).length = 1 := by decide +kernel
      cases hI : importsOf Demo.loopText with
      | nil => rw [hI] at hlen; simp at hlen
      | cons il r =>
        have hall : ∀ il ∈ importsOf Demo.loopText,
            getFilePathOfFragment Demo.cfg il.after Demo.loopPath.pop = some Demo.loopPath := by
          decide +kernel
        have hm : il ∈ importsOf Demo.loopText := by rw [hI]; simp
        exact ⟨il, ⟨hm, hall il hm⟩, rs⟩
    exact acc_irrefl ha hloop

end Qlc
