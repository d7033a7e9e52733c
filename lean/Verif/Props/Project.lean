import Verif.Props.Graphql
import Verif.Props.Regenerate
import Verif.Props.FineRace
import Verif.Props.Ends
import Verif.Props.Inputs
import Verif.Spec.Project
/-
Property C111: a project of documents that GraphQL accepts is generated completely, with exit status 0.
-/
set_option autoImplicit false

namespace Qlc
open Spec

/-! ### The globals of a valid document -/

section
variable {doc : JSchema} {schema : Schema} {frags : Frags}

/-- The enums imported by the declarations are enums of fields in the tree. -/
theorem coll_enums (cfg : TsConfig) (n : Nat) : ∀ (ps : List Complex), sizeOf ps ≤ n → ∀ (main : String),
    ∀ d ∈ collDecls cfg ps main, ∀ m props, d = .object m props → ∀ p ∈ props, ∀ e, p.flat = .global e →
      ∃ qs, Spec.Under ps qs ∧ ∃ T fields, Complex.mk T fields ∈ qs ∧ ∃ fld ∈ fields, fld.type = .enum e := by
  induction n with
  | zero => intro ps hs; exfalso; cases ps <;> simp at hs
  | succ n ih =>
    intro ps hs main d hd m props hdm p hp e he
    rcases mem_collDecls.1 hd with ⟨b, hb, hd⟩ | ⟨_, rfl⟩
    · have hm := (mem_bodies hb).1
      unfold Body.decls at hd
      rcases mem_objDecls.1 hd with ⟨fld, hf, sub, hty, hd⟩ | rfl
      · obtain ⟨rep, lits, path⟩ := b
        obtain ⟨T, fields⟩ := rep
        have := sizeOf_sub hm hf hty
        obtain ⟨qs, hu, h⟩ := ih sub (by omega) _ d hd m props hdm p hp e he
        exact ⟨qs, under_head hm hf hty hu, h⟩
      · obtain ⟨rep, lits, path⟩ := b
        obtain ⟨T, fields⟩ := rep
        injection hdm with _ hdm
        subst hdm
        rw [aFields_props] at hp
        obtain ⟨fld, hf, rfl⟩ := List.mem_map.1 hp
        refine ⟨ps, .refl, T, fields, hm, fld, hf, ?_⟩
        simp only at he
        cases hty : fld.type with
        | enum n => rw [hty, aType] at he; injection he with he; rw [he]
        | complex sub => rw [hty, aType] at he; exact Flat.noConfusion he
        | typeName => rw [hty, aType] at he; exact Flat.noConfusion he
        | scalar s => rw [hty, aType] at he; exact absurd he ((scalarFlat_plain cfg s).2 e)
    · exact TsDecl.noConfusion hdm

/-- The enums of fields in a compiled tree are enums of the schema. -/
theorem tree_enum (hv : ValidDoc doc) (hs : Schema.ofJson doc = .ok schema) {ps qs : List Complex} {P : String}
    {items : List Selection} (hP : IsComposite schema P)
    (ht : ∀ n, TreeIs schema (collectorX schema frags) n P [items] ps) (hu : Spec.Under ps qs) {T : String}
    {fields : List IRField} (hm : Complex.mk T fields ∈ qs) {fld : IRField} (hf : fld ∈ fields) {e : String}
    (hty : fld.type = .enum e) : kindNamed doc e = some "ENUM" := by
  obtain ⟨_, _, _, h⟩ := composite_under hu (loaded_consistent hv hs) (fun n => ⟨_, _, hP, ht n⟩) 1
  obtain ⟨L, hL, _, slots, _, _, hF⟩ := h.2.2 T fields hm
  obtain ⟨s, _, c, rest, he, _, _, _, _, _, h6⟩ := forall₂_mem hF fld hf
  have hcs : c ∈ sameSlot L s.1 s.2 := by rw [he]; simp
  obtain ⟨P₀, _, hfo⟩ := collManyX_origin hL c (List.mem_filter.1 hcs).1
  rw [hty] at h6
  obtain ⟨hd, rfl⟩ := h6
  rcases loaded_field hs hv.reserved hfo with ⟨_, e'⟩ | ⟨_, j, hl, hj⟩
  · rw [e'] at hd; simp [SField.newTypeName, FieldType.newTypeName] at hd
  · obtain ⟨k, t, _, _, hk, hkn, _, hn, hdef, _⟩ := loaded_declared hv hl hj
    rcases def_of_kind hk hdef with ⟨_, hx, _⟩ | ⟨_, hx⟩ | ⟨rfl, _⟩
    · rw [hd] at hx; simp [FieldTypeDef.isComplex] at hx
    · rw [hd] at hx; simp at hx
    · rw [hn]; exact hkn

/-- The global types that a valid document uses are enums and input objects of the schema. -/
theorem used_kinds (hv : ValidDoc doc) (hs : Schema.ofJson doc = .ok schema) {d : Definition} {ω : Hash} {fuel : Nat}
    {showDep : Bool} {cfg : TsConfig} {op : Operation} {ws : List Warning} {c : Compile} {P : String}
    (hP : rootType d = some P) (hvars : ∀ v ∈ varsOf d, InputTypeNamed doc (baseName v.type))
    (h : Operation.compile ω fuel ⟨schema, showDep, frags⟩ d = some (.ok op, ws))
    (hc : compileIr ω op cfg schema = .ok c) {g : String} (hg : g ∈ c.globalTypesUsed) :
    kindNamed doc g = some "ENUM" ∨ kindNamed doc g = some "INPUT_OBJECT" := by
  have hcon := loaded_consistent hv hs
  obtain ⟨hPc, _, ht, hfin⟩ := compiled_tree hcon hP h
  rw [(compileIr_agrees hc).2.1.mem_iff, mem_globals, mem_enumsIn] at hg
  rcases hg with ⟨m, props, hd, p, hp, he⟩ | hg
  · obtain ⟨qs, hu, T, fields, hm, fld, hf, hty⟩ := coll_enums cfg _ op.collection (Nat.le_refl _) op.name _ hd m props
      rfl p hp g he
    exact .inl (tree_enum hv hs hPc ht hu hm hf hty)
  · cases ho : op.variables with
    | none => rw [ho] at hg; simp [varGlobals] at hg
    | some us =>
      have hne : varsOf d ≠ [] := by
        intro e
        rw [(variables_none_iff (finish_ok hfin).2.2).2 e] at ho
        simp at ho
      obtain ⟨us', ho', h1, _⟩ := variables_facts hcon h hne
      rw [ho] at ho'
      injection ho' with ho'
      subst ho'
      rw [ho, Option.getD_some, mem_varGlobals (ω := ω)] at hg
      obtain ⟨_, hp, he⟩ := hg
      obtain ⟨u, hu, rfl⟩ := List.mem_map.1 hp
      obtain ⟨x, hx, hb⟩ := h1 u ((sortedVars_perm ω cfg schema us).mem_iff.1 hu)
      obtain ⟨_, _, _, _, g5⟩ := buildVariable_facts hb
      replace he : varFlat cfg schema u.type = .global g := he
      have hk := hvars x hx
      unfold VariableType.ofName at g5
      have hcase : ∀ t, u.type = .custom t → g = t := by
        intro t hu
        rw [hu] at he
        unfold varFlat at he
        simp only at he
        split at he
        · exact absurd he ((scalarFlat_plain cfg _).2 g)
        · injection he with he; exact he.symm
      by_cases hbi : baseName x.type ∈ ["ID", "String", "Float", "Int", "Boolean"]
      · exfalso
        simp only [List.mem_cons, List.not_mem_nil, or_false] at hbi
        rcases hbi with hbi | hbi | hbi | hbi | hbi <;> rw [hbi] at g5 <;> simp at g5 <;> rw [← g5] at he <;>
          simp [varFlat] at he
      · rcases hk with hk | ⟨k, hk, hkk⟩
        · exact absurd hk hbi
        · simp only [List.mem_cons, List.not_mem_nil, or_false, not_or] at hbi
          rw [if_neg hbi.1, if_neg hbi.2.1, if_neg hbi.2.2.1, if_neg hbi.2.2.2.1, if_neg hbi.2.2.2.2] at g5
          split at g5
          · simp at g5
          rename_i st hst
          simp only [Except.ok.injEq] at g5
          have hgt := hcase _ g5.symm
          subst hgt
          rcases hkk with rfl | rfl | rfl
          · exfalso
            rw [← g5] at he
            obtain ⟨j, hj, _, hd⟩ := loaded_full hs hst
            have hkj : j.kind = "SCALAR" := by simpa [kindNamed, hj] using hk
            rcases typeDef_cases hd with ⟨hk', _⟩ | ⟨hk', _⟩ | ⟨hk', _⟩ | ⟨hk', m, e⟩ | ⟨hk', vs, _, e⟩ | ⟨hk', e⟩
            · rw [hkj] at hk'; simp at hk'
            · rw [hkj] at hk'; simp at hk'
            · rw [hkj] at hk'; simp at hk'
            · rw [hkj] at hk'; simp at hk'
            · rw [hkj] at hk'; simp at hk'
            · unfold varFlat at he
              simp only [hst, Option.map_some, e] at he
              exact absurd he ((scalarFlat_plain cfg _).2 _)
          · exact .inl hk
          · exact .inr hk

end

/-! ### One file -/

section
variable {doc : JSchema} {schema : Schema} {ext : Ext} {cfg : CompileConfig} {w : World} {p : Path}

/-- A valid file that is compiled is generated, with nothing but warnings, and uses enums and input objects. -/
theorem gqlFile_compiles (hv : ValidDoc doc) (hs : Schema.ofJson doc = .ok schema) (hf : GqlFile ext w cfg doc p)
    (hout : w.writeErr (w.resolve (outputPath p)) = none) {ω : Path → Hash} {fuel : Nat} {ms : List Msg}
    {gs : List String} (h : CompilesWith ω fuel ext cfg schema w p ms gs) :
    (∀ m ∈ ms, m.level = .compileWarning) ∧
    ∀ g ∈ gs, kindNamed doc g = some "ENUM" ∨ kindNamed doc g = some "INPUT_OBJECT" := by
  obtain ⟨contents, d, hread, hparse, I, hval, hsup⟩ := hf
  obtain ⟨y, hy⟩ := returns_iff_compiles.2 ⟨ms, gs, h⟩
  have hgen : ∃ st op ws c, Generates (ω p) fuel ext cfg schema w p contents d st op ws c := by
    unfold generateFile readGraphqlFile at hy
    simp only [hread, (parse_ok _ _ p _).2 hparse] at hy
    cases hi : addImported w cfg fuel p contents ⟨[], []⟩ with
    | none => simp [hi] at hy
    | some x =>
      cases x with
      | panic => simp [hi] at hy
      | done st =>
        simp only [hi] at hy
        have hsc := inScope_foreign ext cfg w p (ω p) hi I.names
        cases hc : Operation.compile (ω p) fuel ⟨schema, cfg.showDeprecationWarnings,
            (parseForeignFragments (ω p) ext p st.imports st.messages).1⟩ d with
        | none => simp [hc] at hy
        | some a =>
          obtain ⟨r, ws⟩ := a
          obtain ⟨op, c, rfl, hir⟩ := accepted_of_returns hv hs (hval _ hsc) hsup cfg.toTsConfig hc
          exact ⟨st, op, ws, c, hread, hparse, hi, hc, hir⟩
  obtain ⟨st, op, ws, c, G⟩ := hgen
  have hok := (generateFile_ok (ω p) fuel ext cfg schema w p _ c).2 ⟨contents, d, st, op, ws, G, rfl⟩
  have hwr : (w.write (outputPath p) c.contents).1 = none := by
    unfold World.write
    simp [hout]
  obtain ⟨r, hr, hres⟩ := h
  unfold compileFile at hr
  rw [hok] at hr
  simp only at hr
  generalize w.write (outputPath p) c.contents = o at hr hwr
  obtain ⟨o1, o2⟩ := o
  simp only at hwr
  subst hwr
  simp only [Option.some.injEq, PanicOr.done.injEq] at hr
  subst hr
  rcases hres with ⟨rep, hrep, rfl, rfl⟩ | ⟨hrep, _⟩
  case inr => simp at hrep
  simp only [Except.ok.injEq] at hrep
  subst hrep
  constructor
  · intro m hm
    rcases List.mem_append.1 hm with hm | hm
    · exfalso
      obtain ⟨_, _, h3⟩ := C39_scope_and_errors (ω p) ext p st.imports st.messages
      obtain ⟨c1, c2, _, c4⟩ := C35_import_closure w cfg fuel p contents st G.scanned
      rcases (h3 m).1 hm with hm | ⟨e, he, d', hd', hnf, _⟩
      · exact I.readable m ((c4 m).1 hm)
      · obtain ⟨q, t, loc⟩ := e
        obtain ⟨f, hf⟩ := I.fragments q t ((c1 q).1 ⟨t, loc, he⟩) (c2 q t loc he)
        unfold DefinesOnly at hd'
        rw [hf] at hd'
        simp only [Except.ok.injEq, List.cons.injEq, and_true] at hd'
        subst hd'
        simp [Definition.isFragment] at hnf
    · obtain ⟨x, _, rfl⟩ := List.mem_map.1 hm
      cases x <;> rfl
  · intro g hg
    have hsc := inScope_foreign ext cfg w p (ω p) G.scanned I.names
    obtain ⟨P, hP, _⟩ := (C07_compiles_iff_valid (ω p) fuel _ (loaded_consistent hv hs) d _ ws G.valid).1 ⟨op, rfl⟩
    exact used_kinds hv hs hP (fun v hv' => ((hval _ hsc).variableTypes v hv').2) G.valid G.generated hg

/-- Compiling a valid file comes to an end. -/
theorem gqlFile_ends (hv : ValidDoc doc) (hs : Schema.ofJson doc = .ok schema) (hf : GqlFile ext w cfg doc p) :
    NamesDiffer ext w cfg p ∧ FileEnds ext cfg schema w p := by
  obtain ⟨contents, d, hread, hparse, I, hval, hsup⟩ := hf
  have hone : ∀ contents' d', w.read p = .ok contents' → ext.parse contents' = .ok [d'] →
      contents' = contents ∧ d' = d := by
    intro c' d' h1 h2
    rw [hread] at h1
    cases h1
    rw [hparse] at h2
    simp only [Except.ok.injEq, List.cons.injEq, and_true] at h2
    exact ⟨rfl, h2.symm⟩
  constructor
  · intro c' d' f f' h1 h2
    obtain ⟨rfl, rfl⟩ := hone c' d' h1 h2
    exact I.names f f'
  · intro c' d' h1 h2
    obtain ⟨rfl, rfl⟩ := hone c' d' h1 h2
    refine ⟨I.finite, I.closed, fun frags hsc P hP hPc => ?_⟩
    have hcon := loaded_consistent hv hs
    exact (C13_terminates_iff .inOrder true hcon d' P hP hPc).1
      (C13_acyclic_fragments_terminate .inOrder true hcon d' (acyclic_of_noCycle (hval frags hsc).acyclic))

end

/-! ### Input objects -/

section
variable {doc : JSchema} {schema : Schema}

theorem inputNests_mem {a b : String} (h : InputNests doc a b) : a ∈ doc.types.map JType.name := by
  obtain ⟨name, t, hf, _⟩ := h
  unfold inputFieldType inputFields at hf
  cases ht : typeNamed doc a with
  | none => rw [ht] at hf; simp [lastNamed] at hf
  | some j =>
    have := lastNamed_name (name := JType.name) ht
    exact List.mem_map.2 ⟨j, this.1, this.2⟩

/-- Finitely many input objects without a cycle have no infinite chain. -/
theorem inputs_acc (hs : Schema.ofJson doc = .ok schema) (hv : ValidInputs doc)
    (h : ∀ n, ¬ Relation.TransGen (InputNests doc) n n) {n : String} {t : SType} (ht : schema.getType n = some t) :
    Acc (SubInput schema) t := by
  have hname : Acc (fun b a => InputNests doc a b) n := by
    by_contra hna
    rw [not_acc_iff_exists_descending_chain] at hna
    obtain ⟨c, _, hc⟩ := hna
    have hk : ∀ n, c n ∈ doc.types.map JType.name := fun n => inputNests_mem (hc n)
    let f : Nat → {x // x ∈ doc.types.map JType.name} := fun n => ⟨c n, hk n⟩
    have hfin : Finite {x // x ∈ doc.types.map JType.name} := List.finite_toSet _
    obtain ⟨i, j, hne, he⟩ := Finite.exists_ne_map_eq_of_infinite f
    have he : c i = c j := congrArg Subtype.val he
    have hchain : ∀ i k, Relation.TransGen (InputNests doc) (c i) (c (i + k + 1)) := by
      intro i k
      induction k with
      | zero => exact .single (hc i)
      | succ k ih => exact ih.tail (hc (i + k + 1))
    rcases Nat.lt_or_gt_of_ne hne with hlt | hlt
    · obtain ⟨k, rfl⟩ := Nat.exists_eq_add_of_lt hlt
      have := hchain i k
      rw [← he] at this
      exact h _ this
    · obtain ⟨k, rfl⟩ := Nat.exists_eq_add_of_lt hlt
      have := hchain j k
      rw [he] at this
      exact h _ this
  induction hname generalizing t with
  | intro n _ ih =>
    refine .intro _ ?_
    rintro t' ⟨f, hf, hd, hg⟩
    obtain ⟨k, key, ty, h1, h2, _, _, h4⟩ := inputFieldOf_named hs hv ht hf
    rw [h4.1 hd] at h1
    exact ih _ ⟨key, ty, h1, h2.symm⟩ hg

end

/-! ### The whole project -/

section
variable {ω : Path → Hash} {ω' : Hash} {fuel threads : Nat} {ext : Ext} {cfg : CompileConfig}
  {doc : JSchema} {schema : Schema} {w : World} {root : Entry} {rootPath : Path}

theorem allFine_of_project (hv : ValidDoc doc) (hs : Schema.ofJson doc = .ok schema)
    (F : ProjectFine ext w cfg doc rootPath root)
    (hret : ∀ p, FoundIn root p → ∃ ms gs, CompilesWith ω fuel ext cfg schema w p ms gs) :
    AllFine ω fuel ext cfg schema w rootPath root where
  directories := F.directories
  files := fun p hp => by
    obtain ⟨ms, gs, h⟩ := hret p hp
    exact ⟨ms, gs, h, (gqlFile_compiles hv hs (F.files p hp) (F.outputs p hp) h).1⟩
  globals := fun used hused n hn => by
    refine globals_valid hs F.inputs ?_ n hn
    intro g hg
    obtain ⟨p, ms, gs, hp, h, hgs⟩ := (hused g).1 hg
    exact (gqlFile_compiles hv hs (F.files p hp) (F.outputs p hp) h).2 g hgs
  written := fun _ => F.globalsFile

/-- **C111.** Every complete run over a valid project exits with status 0, whatever the number of threads, the
schedule and the order of hash maps; the output file of every document holds the text generated from it, and what
is printed are warnings. -/
theorem C111_valid_project_succeeds (hv : ValidDoc doc) (hs : Schema.ofJson doc = .ok schema)
    (F : ProjectFine ext w cfg doc rootPath root) (hr : NoOutputRead w cfg root) (hd : OutputsDistinct w root)
    (hg : GlobalsApart w cfg rootPath root) {s : PoolSt World} {ms : List Msg} {w' : World}
    (R : RunsTo ω ω' fuel ext cfg schema rootPath root threads w s ms w') (paint : Paint) :
    (printExitInfo paint ms).code = 0 ∧ (∀ m ∈ ms, m.level = .compileWarning) ∧
    ∀ p, FoundIn root p → ∃ contents d st op ws c,
      Generates (ω p) fuel ext cfg schema w p contents d st op ws c ∧
      w'.disk (w.resolve (outputPath p)) = .ok c.contents := by
  have hret : ∀ p, FoundIn root p → ∃ ms gs, CompilesWith ω fuel ext cfg schema w p ms gs := by
    intro p hp
    obtain ⟨ms, gs, h, _⟩ := (C74_everything_is_reported hr hd hg R paint).2.1 p hp
    exact ⟨ms, gs, h⟩
  have h0 := (C74_exit_status hr hd hg R paint).2 (allFine_of_project hv hs F hret)
  exact ⟨h0, (C43_exit_zero_iff_no_error paint ms).1.1 h0,
    (C74_success_means_generated hr hd hg (ofJson_namedAsRegistered hs) R paint h0).1⟩

/-- **C111.** There is an amount of time that suffices for every run over a valid project: under every order of
hash maps, with one thread and every fair schedule of single file operations, or with any number of threads and
every such schedule in which workers are not disturbed between taking work and saying so, the whole program
completes, and exits with status 0. -/
theorem C111_valid_project_completes (hv : ValidDoc doc) (hs : Schema.ofJson doc = .ok schema)
    (F : ProjectFine ext w cfg doc rootPath root) (hr : NoOutputRead w cfg root) (hd : OutputsDistinct w root)
    (hg : GlobalsApart w cfg rootPath root) (hn : (filesOf root).Nodup) (paint : Paint) :
    ∃ N, ∀ fuel, N ≤ fuel → ∀ (ω : Path → Hash) (ω' : Hash) (sched : Nat → Nat × Nat) (threads : Nat),
      0 < threads → Progressing (fun n => (sched n).2) → Fair threads (fun n => (sched n).1) →
      (threads = 1 ∨ FineUndisturbed (fun p => compileOps (ω p) fuel ext cfg schema p) threads
        (FinePool.init w threads root) sched) →
      ∃ n K ms w', K = fineAt (fun p => compileOps (ω p) fuel ext cfg schema p) threads
          (FinePool.init w threads root) sched n ∧
        FineRunsTo ω ω' fuel ext cfg schema rootPath root threads w K ms w' ∧
        (printExitInfo paint ms).code = 0 ∧
        ∀ p, FoundIn root p → ∃ contents d st op ws c,
          Generates (ω p) fuel ext cfg schema w p contents d st op ws c ∧
          w'.disk (w.resolve (outputPath p)) = .ok c.contents := by
  have hu := fun p hp => (gqlFile_ends hv hs (F.files p hp)).1
  have he := fun p hp => (gqlFile_ends hv hs (F.files p hp)).2
  have hi : InputsEnd ext cfg schema w root := fun _ _ _ _ _ ht => inputs_acc hs F.inputs F.noNesting ht
  obtain ⟨N, hN⟩ := C103_undisturbed_completes (rootPath := rootPath) (loaded_consistent hv hs) hr hd hn hu he hi
  obtain ⟨M, hM⟩ := C103_no_recursion_completes (rootPath := rootPath) (loaded_consistent hv hs) hr hd hn hu he hi
  refine ⟨max N M, fun fuel hf ω ω' sched threads ht h1 h2 h3 => ?_⟩
  have hrun : ∃ n F ms w', F = fineAt (fun p => compileOps (ω p) fuel ext cfg schema p) threads
      (FinePool.init w threads root) sched n ∧
      FineRunsTo ω ω' fuel ext cfg schema rootPath root threads w F ms w' := by
    rcases h3 with rfl | h3
    · exact (hM fuel (le_trans (le_max_right _ _) hf) ω ω' sched h1).2 h2
    · exact hN fuel (le_trans (le_max_left _ _) hf) ω ω' sched threads ht h1 h2 h3
  obtain ⟨n, K, ms, w', hK, R⟩ := hrun
  obtain ⟨w'', R', hsame⟩ := C66_whole_program hr hd hn K ms w' R
  obtain ⟨c1, _, c3⟩ := C111_valid_project_succeeds hv hs F hr hd hg R' paint
  refine ⟨n, K, ms, w', hK, R, c1, fun p hp => ?_⟩
  obtain ⟨contents, d, st, op, ws, c, G, hdisk⟩ := c3 p hp
  exact ⟨contents, d, st, op, ws, c, G, by rw [hsame.2.2]; exact hdisk⟩

end

/-! ### The demo -/

theorem gqlSelection_congr {doc : JSchema} {frags frags' : Frags} (hget : ∀ n, AMap.get? frags n = AMap.get? frags' n)
    {P : String} {s : Selection} (h : GqlSelection doc frags P s) : GqlSelection doc frags' P s := by
  induction h with
  | typename => exact .typename
  | leaf a b => exact .leaf a b
  | nested a b c _ ih => exact .nested a b c ih
  | introspection a b c _ ih => exact .introspection a b c ih
  | inline a b c _ ih => exact .inline a b c ih
  | plainInline a _ ih => exact .plainInline a ih
  | spread a b c => exact .spread ((hget _).symm.trans a) b c

/-- Only what the names of fragments mean matters. -/
theorem gqlValid_congr {doc : JSchema} {frags frags' : Frags} (hget : ∀ n, AMap.get? frags n = AMap.get? frags' n)
    {d : Definition} (h : GqlValid doc frags d) : GqlValid doc frags' d where
  selections := by
    obtain ⟨P, h1, h2, h3⟩ := h.selections
    exact ⟨P, h1, h2, fun s hs => gqlSelection_congr hget (h3 s hs)⟩
  fragments := fun name fd hf => by
    obtain ⟨h1, h2⟩ := h.fragments name fd ((hget name).trans hf)
    exact ⟨h1, fun s hs => gqlSelection_congr hget (h2 s hs)⟩
  acyclic := fun name ht => h.acyclic name
    (ht.lift id (fun a _ ⟨fd, h1, h2⟩ => ⟨fd, (hget a).trans h1, h2⟩))
  variableNames := h.variableNames
  variableTypes := h.variableTypes

/-- In the demo `Filter` contains `Page`, and nothing else is nested. -/
theorem demo_nests {a b : String} (h : InputNests Demo.respJson a b) : a = "Filter" ∧ b = "Page" := by
  have hm := inputNests_mem h
  have hall : ∀ a ∈ Demo.respJson.types.map JType.name, ∀ f ∈ inputFields Demo.respJson a,
      (match refType f.typeInformation with
        | some (k, t) => !(k == "INPUT_OBJECT") || (a == "Filter" && baseName t == "Page")
        | none => true) = true := by decide +kernel
  obtain ⟨name, t, hf, hb⟩ := h
  unfold inputFieldType at hf
  cases hl : lastNamed JField.name name (inputFields Demo.respJson a) with
  | none => rw [hl] at hf; simp at hf
  | some f =>
    rw [hl] at hf
    have := hall a hm f (lastNamed_name hl).1
    simp only [Option.bind_some] at hf
    rw [hf] at this
    simp only [beq_self_eq_true, Bool.not_true, Bool.false_or, Bool.and_eq_true, beq_iff_eq] at this
    exact ⟨this.1, hb ▸ this.2⟩

theorem demo_noNesting (n : String) : ¬ Relation.TransGen (InputNests Demo.respJson) n n := by
  have h : ∀ a b, Relation.TransGen (InputNests Demo.respJson) a b → a = "Filter" ∧ b = "Page" := by
    intro a b h
    induction h with
    | single h => exact demo_nests h
    | tail _ h ih => exact ⟨ih.1, (demo_nests h).2⟩
  intro hn
  obtain ⟨h1, h2⟩ := h n n hn
  rw [h1] at h2
  exact absurd h2 (by decide)

theorem runWorld_q : Demo.runWorld.read Demo.qPath = .ok Demo.runText := rfl
theorem runWorld_f : Demo.runWorld.read Demo.fPath = .ok "fragment F" := rfl

theorem run_loads_f {q : Path} : ¬ Loads Demo.runWorld Demo.cfg Demo.fPath "fragment F" q := by
  intro h
  cases h with
  | direct hi _ => exact demo_imports_f hi
  | trans hi _ _ => exact demo_imports_f hi

theorem run_loads_q {q : Path} (h : Loads Demo.runWorld Demo.cfg Demo.qPath Demo.runText q) : q = Demo.fPath := by
  cases h with
  | direct hi _ => exact run_imports_q hi
  | trans hi hc hl =>
    have := run_imports_q hi
    subst this
    rw [runWorld_f] at hc
    injection hc with hc
    subst hc
    exact absurd hl run_loads_f

theorem run_acc_f : Acc (ImportEdge Demo.runWorld Demo.cfg) (Demo.fPath, "fragment F") :=
  .intro _ (fun _ ⟨_, hi, _⟩ => absurd hi demo_imports_f)

theorem run_imported {p : Path} {contents : String} (hp : p = Demo.qPath ∧ contents = Demo.runText ∨
      p = Demo.fPath ∧ contents = "fragment F") {f : FragmentDef}
    (h : ImportedFragment Demo.runExt Demo.runWorld Demo.cfg p contents f) : f = Demo.fragF := by
  obtain ⟨q, c, hl, hr, hpar⟩ := h
  rcases hp with ⟨rfl, rfl⟩ | ⟨rfl, rfl⟩
  · have := run_loads_q hl
    subst this
    rw [runWorld_f] at hr
    injection hr with hr
    subst hr
    have pf : Demo.runExt.parse "fragment F" = .ok [.fragment Demo.fragF] := rfl
    rw [pf] at hpar
    simp only [Except.ok.injEq, List.cons.injEq, Definition.fragment.injEq, and_true] at hpar
    exact hpar.symm
  · exact absurd hl run_loads_f

theorem run_importsFine {p : Path} {contents : String} (hp : p = Demo.qPath ∧ contents = Demo.runText ∨
    p = Demo.fPath ∧ contents = "fragment F") : ImportsFine Demo.runExt Demo.runWorld Demo.cfg p contents := by
  have hbf : ¬ Broken Demo.runWorld Demo.cfg Demo.fPath "fragment F" := by
    intro h
    cases h with
    | here h1 _ =>
      have : (importsOf "fragment F").length = 0 := by decide +kernel
      rw [List.length_eq_zero_iff.1 this] at h1
      simp at h1
    | there hi _ _ => exact demo_imports_f hi
  have hef : ∀ m, ¬ ImportErr Demo.runWorld Demo.cfg Demo.fPath "fragment F" m := by
    intro m h
    cases h with
    | here hi _ => exact demo_imports_f hi
    | there hi _ _ => exact demo_imports_f hi
  refine ⟨?_, ?_, ?_, ?_, ?_⟩
  · rcases hp with ⟨rfl, rfl⟩ | ⟨rfl, rfl⟩
    · intro h
      cases h with
      | here h1 h2 =>
        have hall : ∀ il ∈ importsOf Demo.runText, '"' ∈ il.after := by decide +kernel
        exact h2 (hall _ h1)
      | there hi hc hb =>
        have := run_imports_q hi
        subst this
        rw [runWorld_f] at hc
        injection hc with hc
        subst hc
        exact hbf hb
    · exact hbf
  · rcases hp with ⟨rfl, rfl⟩ | ⟨rfl, rfl⟩
    · intro m h
      cases h with
      | here hi he =>
        have := run_imports_q hi
        subst this
        rw [runWorld_f] at he
        simp at he
      | there hi hc hb =>
        have := run_imports_q hi
        subst this
        rw [runWorld_f] at hc
        injection hc with hc
        subst hc
        exact hef m hb
    · exact hef
  · intro q c hl hr
    rcases hp with ⟨rfl, rfl⟩ | ⟨rfl, rfl⟩
    · have := run_loads_q hl
      subst this
      rw [runWorld_f] at hr
      injection hr with hr
      subst hr
      exact ⟨Demo.fragF, rfl⟩
    · exact absurd hl run_loads_f
  · intro f f' h1 h2 _
    rw [run_imported hp h1, run_imported hp h2]
  · rcases hp with ⟨rfl, rfl⟩ | ⟨rfl, rfl⟩
    · refine .intro _ ?_
      rintro ⟨q, c⟩ ⟨il, hi, hr⟩
      have : q = Demo.fPath := run_imports_q hi
      subst this
      have hr : Demo.runWorld.read Demo.fPath = .ok c := hr
      rw [runWorld_f] at hr
      injection hr with hr
      subst hr
      exact run_acc_f
    · exact run_acc_f

theorem demo_gqlFile_q : GqlFile Demo.runExt Demo.runWorld Demo.cfg Demo.respJson Demo.qPath := by
  have I := run_importsFine (.inl ⟨rfl, rfl⟩)
  have hp : Demo.runExt.parse Demo.runText = .ok [Demo.query] := rfl
  refine ⟨Demo.runText, Demo.query, runWorld_q, hp, I, ?_, C110_demo.2.2.2⟩
  intro frags hsc
  refine gqlValid_congr (frags := Demo.ctx.fragments) ?_ C110_demo.2.2.1
  have hF : Demo.ctx.fragments = [("F", Demo.fragF)] := rfl
  have hname : Demo.fragF.name = "F" := rfl
  intro n
  rw [hF]
  by_cases hn : n = "F"
  · subst hn
    rw [(hsc "F" Demo.fragF).2 ⟨hname, run_imported_q.2 rfl⟩]
    rfl
  · have h1 : AMap.get? [("F", Demo.fragF)] n = none := by
      simp [AMap.get?, Ne.symm hn]
    rw [h1]
    cases hg : AMap.get? frags n with
    | none => rfl
    | some f =>
      obtain ⟨h2, h3⟩ := (hsc n f).1 hg
      rw [run_imported_q.1 h3, hname] at h2
      exact absurd h2.symm hn

theorem demo_supported_f : Supported Demo.respJson (.fragment Demo.fragF) :=
  supported_of_check (by intro _ _ h; exact Definition.noConfusion h) rfl (by decide +kernel) (by decide)
    (by decide +kernel)

theorem demo_gqlFile_f : GqlFile Demo.runExt Demo.runWorld Demo.cfg Demo.respJson Demo.fPath := by
  have I := run_importsFine (.inr ⟨rfl, rfl⟩)
  have hp : Demo.runExt.parse "fragment F" = .ok [.fragment Demo.fragF] := rfl
  refine ⟨"fragment F", .fragment Demo.fragF, runWorld_f, hp, I, ?_, demo_supported_f⟩
  intro frags hsc
  refine gqlValid_congr (frags := []) ?_ (gqlValidB_sound (by decide +kernel))
  intro n
  cases hg : AMap.get? frags n with
  | none => rfl
  | some f =>
    obtain ⟨_, q, c, hl, _⟩ := (hsc n f).1 hg
    exact absurd hl run_loads_f

theorem demo_projectFine :
    ProjectFine Demo.runExt Demo.runWorld Demo.cfg Demo.respJson ⟨true, ["r"]⟩ Demo.fileTree where
  directories := by decide +kernel
  files := fun p hp => by
    rcases demo_found hp with rfl | rfl
    · exact demo_gqlFile_q
    · exact demo_gqlFile_f
  outputs := fun _ _ => rfl
  globalsFile := rfl
  inputs := demo_inputs.1
  noNesting := demo_noNesting

/-- The demo project meets the hypotheses, and runs over it complete: with one thread, one step after the other. -/
theorem C111_demo : ∃ N, ∀ fuel, N ≤ fuel → ∀ (ω : Path → Hash) (ω' : Hash), ∃ F ms w',
    FineRunsTo ω ω' fuel Demo.runExt Demo.cfg Demo.respSchema ⟨true, ["r"]⟩ Demo.fileTree 1 Demo.runWorld F ms w' ∧
    (printExitInfo (fun _ s => s) ms).code = 0 := by
  have hno : NoOutputRead Demo.runWorld Demo.cfg Demo.fileTree := by
    intro p q hp hq ho
    rcases full_reads (demo_found hp) hq with rfl | rfl <;>
    · rcases demo_output (id := _) ho with h | h
      · revert h; decide +kernel
      · revert h; decide +kernel
  have hga : GlobalsApart Demo.runWorld Demo.cfg ⟨true, ["r"]⟩ Demo.fileTree := by
    refine ⟨demo_globalsApart.1, fun p q hp hq => ?_⟩
    rcases full_reads (demo_found hp) hq with rfl | rfl <;> decide +kernel
  obtain ⟨N, hN⟩ := C111_valid_project_completes resp_valid resp_loads demo_projectFine hno demo_outputsDistinct hga
    (by decide +kernel) (fun _ s => s)
  refine ⟨N, fun fuel hf ω ω' => ?_⟩
  obtain ⟨n, K, ms, w', _, R, h0, _⟩ := hN fuel hf ω ω' (fun _ => (0, 1)) 1 (by decide) (fun _ => Nat.one_pos)
    (fun i hi n => ⟨n, Nat.le_refl _, by show 0 = i; omega⟩) (.inl rfl)
  exact ⟨K, ms, w', R, h0⟩

end Qlc
