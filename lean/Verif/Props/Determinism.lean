import Verif.Props.Tree
/-
Property C16: hash iteration order does not show in what is generated.
-/
set_option autoImplicit false

namespace Qlc
open Spec

variable {schema : Schema} {frags : Frags}

/-! ### Code generation -/

theorem genCollection_hash (ω ω' : Hash) (ps : List Poss) (main : String) :
    genCollection ω ps main = genCollection ω' ps main := by
  funext g
  unfold genCollection
  have hs : ∀ (p : Poss) (l : List String) (path : String),
      genSmoosh p (ω.perm ["typescript.rs:375,404", main] l) path =
        genSmoosh p (ω'.perm ["typescript.rs:375,404", main] l) path := by
    intro p l path
    unfold genSmoosh
    rw [sortStr_eq_of_perm ((ω.isPerm ["typescript.rs:375,404", main] l).trans
      (ω'.isPerm ["typescript.rs:375,404", main] l).symm)]
  cases ps with
  | nil => rfl
  | cons a ps =>
    cases ps with
    | nil => rfl
    | cons b ps => simp only [hs]

mutual
theorem genFields_hash (ω ω' : Hash) (cfg : TsConfig) (dispName path : String) : ∀ fs : List IRField,
    genFields ω cfg dispName path fs = genFields ω' cfg dispName path fs
  | [] => by unfold genFields; rfl
  | .mk prop doc dep last mods ty :: rest => by
    unfold genFields
    rw [genFieldType_hash ω ω' cfg _ _ ty, genFields_hash ω ω' cfg dispName path rest]
theorem genFieldType_hash (ω ω' : Hash) (cfg : TsConfig) (dispName subPath : String) : ∀ t : IRType,
    genFieldType ω cfg dispName subPath t = genFieldType ω' cfg dispName subPath t
  | .complex ps => by
    unfold genFieldType
    rw [possOf_hash ω ω' cfg ps, genCollection_hash ω ω']
  | .enum name => by unfold genFieldType; rfl
  | .scalar s => by unfold genFieldType; rfl
  | .typeName => by unfold genFieldType; rfl
theorem possOf_hash (ω ω' : Hash) (cfg : TsConfig) : ∀ ps : List Complex,
    possOf ω cfg ps = possOf ω' cfg ps
  | [] => by unfold possOf; rfl
  | .mk name fields :: rest => by
    unfold possOf
    rw [possOf_hash ω ω' cfg rest]
    congr 2
    funext dispName path g
    rw [genFields_hash ω ω' cfg dispName path fields]
end

theorem compileVariableTypes_names (cfg : TsConfig) (schema : Schema) : ∀ (vars : List Variable)
    (g : List String) (vs : List (Variable × String)) (g' : List String),
    compileVariableTypes cfg schema vars g = .ok (vs, g') → vs.map Prod.fst = vars
  | [], g, vs, g', h => by
    unfold compileVariableTypes at h
    simp only [Except.ok.injEq, Prod.mk.injEq] at h
    rw [← h.1]; rfl
  | v :: rest, g, vs, g', h => by
    unfold compileVariableTypes at h
    split at h
    · simp at h
    · split at h
      · simp at h
      · rename_i h2
        simp only [Except.ok.injEq, Prod.mk.injEq] at h
        rw [← h.1, List.map_cons, compileVariableTypes_names cfg schema rest _ _ _ h2]

theorem compileVariables_hash (ω ω' : Hash) (cfg : TsConfig) (schema : Schema) (op : Operation)
    (hv : ∀ vars, op.variables = some vars → (vars.map Variable.propName).Nodup) :
    compileVariablesTypeDefinition ω cfg schema op = compileVariablesTypeDefinition ω' cfg schema op := by
  funext g
  unfold compileVariablesTypeDefinition
  cases ho : op.variables with
  | none => rfl
  | some vars =>
    simp only
    cases hc : compileVariableTypes cfg schema vars g with
    | error e => rfl
    | ok r =>
      obtain ⟨vs, g'⟩ := r
      simp only
      have hn := compileVariableTypes_names cfg schema vars g vs g' hc
      have : sortBy (fun (e : Variable × String) => e.1.propName) (ω.perm ["typescript.rs:511"] vs) =
          sortBy (fun (e : Variable × String) => e.1.propName) (ω'.perm ["typescript.rs:511"] vs) := by
        apply sortBy_eq_of_perm
        · exact (ω.isPerm ["typescript.rs:511"] vs).trans (ω'.isPerm ["typescript.rs:511"] vs).symm
        · have : (vs.map (fun (e : Variable × String) => e.1.propName)).Nodup := by
            have := hv vars ho
            rw [← hn, List.map_map] at this
            exact this
          exact ((ω.isPerm ["typescript.rs:511"] vs).map _).nodup_iff.2 this
      rw [this]

/-- **C16.** From one intermediate tree, the same text is generated for every hash order, if the
document's variables have distinct names. -/
theorem C16_code_generation_deterministic (ω ω' : Hash) (op : Operation) (cfg : TsConfig)
    (schema : Schema)
    (hv : ∀ vars, op.variables = some vars → (vars.map Variable.propName).Nodup) :
    compileIr ω op cfg schema = compileIr ω' op cfg schema := by
  unfold compileIr
  rw [possOf_hash ω ω', genCollection_hash ω ω', compileVariables_hash ω ω' cfg schema op hv]
  have hi : ∀ docNode used, compileImports ω cfg docNode used = compileImports ω' cfg docNode used := by
    intro docNode used
    unfold compileImports
    rw [sortStr_eq_of_perm ((ω.isPerm ["typescript.rs:547"] used).trans
      (ω'.isPerm ["typescript.rs:547"] used).symm)]
  simp only [hi]

/-! ### Selections -/

theorem compile_finish_variables {schema : Schema} {d : Definition} {coll : List Complex}
    {op : Operation} (h : finish schema d coll = .ok op) (hv : (varsOf d).map VarDef.name |>.Nodup) :
    ∀ vars, op.variables = some vars → (vars.map Variable.propName).Nodup := by
  intro vars ho
  unfold finish at h
  split at h
  · simp at h
  · rename_i vs hvs
    injection h with h
    subst h
    simp only at ho
    subst ho
    unfold tryBuildVariableIr at hvs
    split at hvs
    · simp at hvs
    · split at hvs
      · simp at hvs
      · rename_i vs' hs
        simp only [Except.ok.injEq, Option.some.injEq] at hvs
        subst hvs
        rw [seqE_ok_iff] at hs
        have : vs'.map Variable.propName = (varsOf d).map VarDef.name := by
          generalize varsOf d = ds at hs
          clear hv
          induction ds generalizing vs' with
          | nil => cases vs' with
            | nil => rfl
            | cons => simp at hs
          | cons v ds ih => cases vs' with
            | nil => simp at hs
            | cons w ws =>
              simp only [List.map_cons, List.cons.injEq] at hs ⊢
              refine ⟨?_, ih ws hs.2⟩
              have := hs.1
              unfold buildVariable at this
              split at this
              · simp at this
              · split at this
                · simp at this
                · injection this with this; rw [← this]
        rw [this]
        exact hv

/-- **C16.** The intermediate tree of a definition is the same for every hash order, if no generated
object type lists a property twice. -/
theorem C16_selection_result_deterministic (ω ω' : Hash) (fuel fuel' : Nat) (showDep showDep' : Bool)
    (hcon : Consistent schema) (d : Definition) (op op' : Operation) (ws ws' : List Warning)
    (h : Operation.compile ω fuel ⟨schema, showDep, frags⟩ d = some (.ok op, ws))
    (h' : Operation.compile ω' fuel' ⟨schema, showDep', frags⟩ d = some (.ok op', ws'))
    (hd : DistinctPoss op.collection) : op = op' := by
  cases hP : rootType d with
  | none =>
    cases d with
    | selectionSet pos items => simp [Operation.compile] at h
    | operation kw pos name vars dirs items => cases kw <;> simp [rootType] at hP
    | fragment f => simp [rootType] at hP
  | some P =>
    obtain ⟨_, _, ht, hf⟩ := compiled_tree hcon hP h
    obtain ⟨_, _, ht', hf'⟩ := compiled_tree hcon hP h'
    have hc : op.collection = op'.collection :=
      tree_unique collectorX_functional _ P _ _ _ le_rfl hd (ht _) (ht' _)
    rw [hc, hf'] at hf
    injection hf with hf
    exact hf.symm

/-- **C16.** Success does not depend on the hash order, and neither do the warnings or the errors, apart
from the order in which they list object types and offered names. -/
theorem C16_diagnostics_deterministic (ω ω' : Hash) (fuel fuel' : Nat) (showDep : Bool)
    (hcon : Consistent schema) (d : Definition) (r r' : Except (List IrError) Operation)
    (ws ws' : List Warning)
    (h : Operation.compile ω fuel ⟨schema, showDep, frags⟩ d = some (r, ws))
    (h' : Operation.compile ω' fuel' ⟨schema, showDep, frags⟩ d = some (r', ws')) :
    ((∃ op, r = .ok op) ↔ ∃ op, r' = .ok op) ∧
    (∀ es es', r = .error es → r' = .error es' → es.map IrError.strip = es'.map IrError.strip) ∧
    ws.map Warning.norm = ws'.map Warning.norm := by
  refine ⟨by rw [C07_compiles_iff_valid ω fuel showDep hcon d r ws h,
    C07_compiles_iff_valid ω' fuel' showDep hcon d r' ws' h'], ?_⟩
  cases hP : rootType d with
  | none =>
    cases d with
    | selectionSet pos items =>
      simp only [Operation.compile, Option.some.injEq, Prod.mk.injEq] at h h'
      obtain ⟨rfl, rfl⟩ := h
      obtain ⟨rfl, rfl⟩ := h'
      refine ⟨?_, rfl⟩
      intro es es' he he'
      injection he with he; injection he' with he'
      rw [← he, ← he']
    | operation kw pos name vars dirs items => cases kw <;> simp [rootType] at hP
    | fragment f => simp [rootType] at hP
  | some P =>
    by_cases hcomp : IsComposite schema P
    · rcases compile_spec ω fuel showDep hcon d r ws P hP h with ⟨h1, _⟩ | ⟨_, es, h2, h3, h4, h5⟩
      · exact absurd hcomp h1
      rcases compile_spec ω' fuel' showDep hcon d r' ws' P hP h' with ⟨h1, _⟩ | ⟨_, es', h2', h3', h4', h5'⟩
      · exact absurd hcomp h1
      refine ⟨?_, by rw [h3, h3']⟩
      have hes : es.map IrError.strip = es'.map IrError.strip := by rw [h2.1, h2'.1]
      intro fs fs' he he'
      by_cases hn : es = []
      · have hn' : es' = [] := by subst hn; simpa using hes.symm
        obtain ⟨coll, _, hr⟩ := h5 hn
        obtain ⟨coll', _, hr'⟩ := h5' hn'
        rw [he] at hr; rw [he'] at hr'
        unfold finish at hr hr'
        cases hv : tryBuildVariableIr schema (varsOf d) with
        | error e =>
          rw [hv] at hr hr'
          injection hr with hr; injection hr' with hr'
          rw [hr, hr']
        | ok vs => rw [hv] at hr; simp at hr
      · have hn' : es' ≠ [] := by
          rintro rfl
          simp at hes
          exact hn hes
        have a := h4 hn; have b := h4' hn'
        rw [he] at a; rw [he'] at b
        injection a with a; injection b with b
        rw [a, b, hes]
    · have hnone : ∀ (pos : Pos), CTrav.new schema P pos = .error (conditionError schema P pos) := by
        intro pos
        refine new_error ?_ pos
        unfold IsComposite at hcomp
        cases hf : fieldsOf schema P with
        | none => rfl
        | some _ => rw [hf] at hcomp; simp at hcomp
      have same : Operation.compile ω fuel ⟨schema, showDep, frags⟩ d =
          Operation.compile ω' fuel' ⟨schema, showDep, frags⟩ d := by
        cases d with
        | selectionSet pos items => rfl
        | operation kw pos name vars dirs items =>
          have : (opNames kw).1 = P := by
            cases kw <;> simp only [rootType, Option.some.injEq] at hP <;> rw [← hP] <;> rfl
          simp only [Operation.compile, this, hnone]
        | fragment f =>
          simp only [rootType, Option.some.injEq] at hP
          simp only [Operation.compile, hP, hnone]
      rw [h, h'] at same
      simp only [Option.some.injEq, Prod.mk.injEq] at same
      obtain ⟨rfl, rfl⟩ := same
      refine ⟨?_, rfl⟩
      intro es es' he he'
      rw [he] at he'
      injection he' with he'
      rw [he']

/-- **C16.** Selections and code generation together: for a document with valid imported fragments, one
named type per response key, and distinct variable names, the generated text is the same for every hash
order. -/
theorem C16_text_deterministic (ω ω' : Hash) (fuel fuel' : Nat) (showDep : Bool) (cfg : TsConfig)
    (hcon : Consistent schema) (hfr : FragsValid schema frags) (d : Definition) (op op' : Operation)
    (ws ws' : List Warning) (P : String) (hP : rootType d = some P)
    (h : Operation.compile ω fuel ⟨schema, showDep, frags⟩ d = some (.ok op, ws))
    (h' : Operation.compile ω' fuel' ⟨schema, showDep, frags⟩ d = some (.ok op', ws'))
    (hone : OneTypePerKey schema frags P [itemsOf d]) (hv : ((varsOf d).map VarDef.name).Nodup) :
    compileIr ω op cfg schema = compileIr ω' op' cfg schema := by
  have hd := C21_properties_listed_once ω fuel showDep hcon hfr d op ws P hP h hone
  have e := C16_selection_result_deterministic ω ω' fuel fuel' showDep showDep hcon d op op' ws ws' h h' hd
  subst e
  obtain ⟨_, _, _, hf⟩ := compiled_tree hcon hP h
  exact C16_code_generation_deterministic ω ω' op cfg schema (compile_finish_variables hf hv)

/-- The demo query meets the hypotheses. -/
example : ((varsOf Demo.query).map VarDef.name).Nodup := by decide

/-- Text generated for the query with a narrowed field type. -/
def covText (ω : Hash) : Option String :=
  match Operation.compile ω 5 ⟨Demo.covSchema, true, []⟩ Demo.covQuery with
  | some (.ok op, _) =>
    match compileIr ω op ⟨false, .realName, "g", "d"⟩ Demo.covSchema with
    | .ok c => some c.contents
    | .error _ => none
  | _ => none

/-- **C16, the proviso is needed.** With a narrowed field type two hash orders give different texts. -/
theorem C16_narrowed_field_text_depends_on_hash :
    ∃ t t', covText .inOrder = some t ∧ covText .reversed = some t' ∧ t ≠ t' := by
  have h1 : (covText .inOrder).isSome = true := by decide +kernel
  have h2 : (covText .reversed).isSome = true := by decide +kernel
  have h3 : covText .inOrder ≠ covText .reversed := by decide +kernel
  obtain ⟨t, ht⟩ := Option.isSome_iff_exists.1 h1
  obtain ⟨t', ht'⟩ := Option.isSome_iff_exists.1 h2
  exact ⟨t, t', ht, ht', fun e => h3 (by rw [ht, ht', e])⟩

end Qlc
