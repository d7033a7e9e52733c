import Verif.Spec.Widen
import Verif.Props.Narrow
/-
Property C122: when less is asked of the input, values of the old variables types are values of the new ones.
-/
set_option autoImplicit false

namespace Qlc
open Spec

variable {new old : JSchema} {scalars : String → JVal → Prop}

theorem narrower_nullable : ∀ {t t' : VarTy}, NarrowerTy t t' → isNullable t = true → isNullable t' = true
  | .named _, .named _, _, _ => rfl
  | .list _, .list _, _, _ => rfl
  | .named _, .list _, h, _ => by simp [NarrowerTy] at h
  | .named _, .nonNull _, h, _ => by simp [NarrowerTy] at h
  | .list _, .named _, h, _ => by simp [NarrowerTy] at h
  | .list _, .nonNull _, h, _ => by simp [NarrowerTy] at h
  | .nonNull _, _, _, hn => by simp [isNullable] at hn

theorem wider_leaf (hd : DemandsLess new old) {n : String} {v : JVal} (h : LeafOf old scalars n v) :
    LeafOf new scalars n v := by
  obtain ⟨kind, hk, hn, hv⟩ := h
  refine ⟨kind, hk, hd.kinds n kind (by revert hk; simp; tauto) hn, ?_⟩
  unfold LeafValue at hv ⊢
  by_cases he : kind = "ENUM"
  · rw [if_pos he] at hv ⊢
    obtain ⟨j, vs, s, e1, e2, e3, e4⟩ := hv
    obtain ⟨j', vs', f1, f2, f3⟩ := hd.enums _ j vs e1 e2
    exact ⟨j', vs', s, f1, f2, f3 s e3, e4⟩
  · rw [if_neg he] at hv ⊢
    exact hv

theorem inputFieldType_listed {doc : JSchema} {P name : String} {r : String × VarTy}
    (h : inputFieldType doc P name = some r) : name ∈ (inputFields doc P).map JField.name := by
  unfold inputFieldType at h
  cases hl : lastNamed JField.name name (inputFields doc P) with
  | none => rw [hl] at h; simp at h
  | some j => exact lastNamed_mem_names hl

/-- What a server took for an input type it still takes. -/
theorem wider_input (hd : DemandsLess new old) (k : Nat) : ∀ n v, InputOf old scalars k n v →
    InputOf new scalars k n v := by
  induction k with
  | zero =>
    rintro n v (h | h)
    · exact .inl (hd.kinds n _ (by simp) h)
    · exact .inr (wider_leaf hd h)
  | succ k ih =>
    rintro n v (h | ⟨hk, fs, rfl, h1, h2, h3⟩)
    · exact .inl (wider_leaf hd h)
    · refine .inr ⟨hd.kinds n _ (by simp) hk, fs, rfl, h1, ?_, ?_⟩
      · intro key hkey
        obtain ⟨kind, t, hf, _⟩ := h3 key (h2 key hkey)
        obtain ⟨t', hf', _⟩ := hd.fields n key kind t hf
        exact inputFieldType_listed hf'
      · intro name hname
        by_cases hold : name ∈ (inputFields old n).map JField.name
        · obtain ⟨kind, t, hf, hx⟩ := h3 name hold
          obtain ⟨t', hf', hnar⟩ := hd.fields n name kind t hf
          refine ⟨kind, t', hf', ?_⟩
          rcases hx with ⟨x, hx, ha⟩ | ⟨hnull, hx⟩
          · refine .inl ⟨x, hx, narrower_admits hnar x (admits_mono ?_ t x ha)⟩
            intro y hy
            rw [← narrower_base hnar]
            exact ih _ y hy
          · exact .inr ⟨narrower_nullable hnar hnull, hx⟩
        · obtain ⟨kind, t, hf, hnull⟩ := hd.added n hk name hname hold
          exact ⟨kind, t, hf, .inr ⟨hnull, fun hm => hold (h2 name hm)⟩⟩

/-- What a server took for the old variables it takes for the new ones. -/
theorem wider_variables (hd : DemandsLess new old) {ds ds' : List VarDef} (hw : WiderVars ds' ds) {v : JVal}
    (h : VariablesOf old scalars ds v) : VariablesOf new scalars ds' v := by
  obtain ⟨fs, rfl, h1, h2, h3⟩ := h
  refine ⟨fs, rfl, h1, ?_, ?_⟩
  · intro key hkey
    obtain ⟨x, hx, e⟩ := List.mem_map.1 (h2 key hkey)
    obtain ⟨y, hy, e'⟩ := hw.kept x hx
    exact List.mem_map.2 ⟨y, hy, e'.trans e⟩
  · intro y hy
    by_cases hold : ∃ x ∈ ds, x.name = y.name
    · obtain ⟨x, hx, e⟩ := hold
      have hnar := hw.types x hx y hy e.symm
      rw [← e]
      rcases h3 x hx with ⟨z, hz, ha⟩ | ⟨hnull, hz⟩
      · refine .inl ⟨z, hz, narrower_admits hnar z (admits_mono ?_ x.type z ha)⟩
        intro u hu
        rw [← narrower_base hnar]
        exact fun k => wider_input hd k _ u (hu k)
      · exact .inr ⟨narrower_nullable hnar hnull, hz⟩
    · refine .inr ⟨hw.added y hy (fun x hx e => hold ⟨x, hx, e⟩), fun hm => ?_⟩
      obtain ⟨x, hx, e⟩ := List.mem_map.1 (h2 y.name hm)
      exact hold ⟨x, hx, e⟩

/-- **C122.** Let a new version of the schema ask for less input than the old one: types of input fields may
have lost non-null marks, nullable input fields may have been added, enums may have got values.  Let the new
version of a document have the old variables, maybe with fewer non-null marks, and maybe more variables that are
nullable; its selections and fragments may have changed at will.  Then every value of the variables type generated
from the old version, with the globals of the old version, is a value of the variables type generated from the new
version, with the globals of the new; conditions as in C80. -/
theorem C122_asking_for_less (ω ω₁ ω₂ ω₃ : Hash) (fuel fuel₁ fuel₂ fuel₃ : Nat) (showDep : Bool) (cfg : TsConfig)
    (hd : DemandsLess new old) (scalars env : String → JVal → Prop)
    -- with the old version
    (schema : Schema) (hs : Schema.ofJson old = .ok schema) (S : SchemaFit cfg old)
    (henv : ∀ n v, kindNamed old n = some "SCALAR" →
      (env (scalarSpelling cfg n) v ↔ LeafValue old scalars "SCALAR" n v))
    (frags : Frags) (d : Definition) (op : Operation) (ws : List Warning)
    (h : Operation.compile ω fuel ⟨schema, showDep, frags⟩ d = some (.ok op, ws))
    (V : VariablesFit cfg old frags d)
    (c : Compile) (hc : compileIr ω op cfg schema = .ok c)
    (used : List String) (hused : ∀ n ∈ c.globalTypesUsed, n ∈ used)
    (text : String) (hg : compileGlobals ω₁ fuel₁ cfg schema used = some (.ok text))
    -- with the new version
    (schema' : Schema) (hs' : Schema.ofJson new = .ok schema') (S' : SchemaFit cfg new)
    (he' : ScalarEnv cfg new scalars env)
    (frags' : Frags) (d' : Definition) (op' : Operation) (ws' : List Warning)
    (h' : Operation.compile ω₂ fuel₂ ⟨schema', showDep, frags'⟩ d' = some (.ok op', ws'))
    (V' : VariablesFit cfg new frags' d')
    (c' : Compile) (hc' : compileIr ω₂ op' cfg schema' = .ok c')
    (used' : List String) (hused' : ∀ n ∈ c'.globalTypesUsed, n ∈ used')
    (text' : String) (hg' : compileGlobals ω₃ fuel₃ cfg schema' used' = some (.ok text'))
    -- the variables
    (hne : varsOf d ≠ []) (hw : WiderVars (varsOf d') (varsOf d)) :
    ∃ m g m' g', parseModule c.contents = some m ∧ parseModule text = some g ∧
      parseModule c'.contents = some m' ∧ parseModule text' = some g' ∧
      ∀ v, (∀ k, ModuleAdmits m (linked g env) k (dataName d ++ "Variables") v) →
        ∀ k, ModuleAdmits m' (linked g' env) k (dataName d' ++ "Variables") v := by
  have hcon := loaded_consistent S.valid hs
  have hcon' := loaded_consistent S'.valid hs'
  have hname := name_of_compiled hcon h
  have hname' := name_of_compiled hcon' h'
  have hne' : varsOf d' ≠ [] := by
    intro e
    cases hx : varsOf d with
    | nil => exact hne hx
    | cons x l =>
      obtain ⟨y, hy, _⟩ := hw.kept x (by rw [hx]; simp)
      rw [e] at hy
      simp at hy
  obtain ⟨P, hP, _⟩ := (C07_compiles_iff_valid ω fuel showDep hcon d _ ws h).1 ⟨op, rfl⟩
  obtain ⟨P', hP', _⟩ := (C07_compiles_iff_valid ω₂ fuel₂ showDep hcon' d' _ ws' h').1 ⟨op', rfl⟩
  obtain ⟨m, g, k1, k2, hiff⟩ := C80_variables_admit_exactly ω ω₁ fuel fuel₁ showDep cfg S.valid S.validInputs
    S.inputLists hs S.writable S.globalsWritable S.scalarsApart d op ws P hP h (by rw [hname]; exact V.name)
    V.keys V.fragmentKeys hne V.variablesValid V.variableNames (fun n hn => by rw [hname]; exact V.apart n hn)
    scalars env henv c hc used hused text hg
  obtain ⟨m', g', k3, k4, hall⟩ := C80_variables_inhabit_text ω₂ ω₃ fuel₂ fuel₃ showDep cfg S'.valid S'.validInputs
    S'.inputLists hs' S'.writable S'.globalsWritable S'.scalarsApart d' op' ws' P' hP' h'
    (by rw [hname']; exact V'.name)
    V'.keys V'.fragmentKeys hne' V'.variablesValid V'.variableNames
    (fun n hn => by rw [hname']; exact V'.apart n hn) scalars env he' c' hc' used' hused' text' hg'
  exact ⟨m, g, m', g', k1, k2, k3, k4, fun v hv => hall v (wider_variables hd hw ((hiff v).1 hv))⟩

/-! ### An example -/

/-- The demo introspection data with one more role, `Filter.page` nullable, and one more input field. -/
def Demo.laxJson : JSchema := ⟨Demo.respJson.types.map (fun j =>
  { j with
    inputFields := j.inputFields.map (fun l => l.map (fun f =>
      if f.name = "page" then { f with typeInformation := Demo.t "INPUT_OBJECT" "Page" } else f) ++
      if j.name = "Filter" then [Demo.fld "text" (Demo.t "SCALAR" "String")] else [])
    enumValues := j.enumValues.map (fun l => "OWNER" :: l) })⟩

/-- The schema loaded from it. -/
def Demo.laxSchema : Schema := match Schema.ofJson Demo.laxJson with | .ok s => s | .error _ => []

/-- `query Q2($f: Filter, $r: [Role!], $n: Int) { viewer { id } }`, a new version of the demo query. -/
def Demo.laxQuery : Definition := .operation .query ⟨2, 1⟩ (some "Q2")
  [⟨⟨2, 9⟩, "f", .named "Filter", none⟩, ⟨⟨2, 20⟩, "r", .list (.nonNull (.named "Role")), none⟩,
   ⟨⟨2, 30⟩, "n", .named "Int", none⟩] []
  [.field ⟨3, 3⟩ none "viewer" [] [] [Demo.leaf 3 12 "id"]]

theorem lax_loads : Schema.ofJson Demo.laxJson = .ok Demo.laxSchema :=
  loads_of_check (by decide +kernel)

theorem lax_valid : ValidDoc Demo.laxJson := validDocB_sound (by decide +kernel)

theorem lax_inputs : ValidInputs Demo.laxJson ∧ OneListLevel Demo.laxJson :=
  validInputsB_sound (by decide +kernel)

theorem lax_schema : SchemaFit Demo.tsCfg Demo.laxJson :=
  ⟨lax_valid, lax_inputs.1, noBadListB_sound (by decide +kernel), lax_inputs.2,
    writableB_sound (by decide +kernel), globalsWritableB_sound (by decide +kernel),
    scalarsApartB_sound (by decide +kernel)⟩

theorem lax_names : Demo.laxJson.types.map JType.name = Demo.respJson.types.map JType.name := by
  decide +kernel

theorem lax_kind (n : String) : kindNamed Demo.laxJson n = kindNamed Demo.respJson n := by
  by_cases hn : n ∈ Demo.respJson.types.map JType.name
  · have : (Demo.respJson.types.map JType.name).all (fun n =>
        decide (kindNamed Demo.laxJson n = kindNamed Demo.respJson n)) = true := by decide +kernel
    simpa using (List.all_eq_true.1 this) n hn
  · have h1 : kindNamed Demo.respJson n = none := by
      cases h : kindNamed Demo.respJson n with
      | none => rfl
      | some k => exact absurd (kindNamed_mem h) hn
    have h2 : kindNamed Demo.laxJson n = none := by
      cases h : kindNamed Demo.laxJson n with
      | none => rfl
      | some k => exact absurd (lax_names ▸ kindNamed_mem h) hn
    rw [h1, h2]

theorem lax_outside {n : String} (hn : Outside Demo.tsCfg Demo.laxJson n ∨
    kindNamed Demo.laxJson n = some "INPUT_OBJECT") : ¬ Generated "Q2" n ∧ n ≠ "Q2" ++ "Variables" := by
  rcases hn with hn | hn
  · have := outsideB_sound (q := fun n => !generatedB "Q2" n && decide (n ≠ "Q2Variables")) (cfg := Demo.tsCfg)
        (doc := Demo.laxJson) (by decide +kernel) n hn
    rw [Bool.and_eq_true, decide_eq_true_eq, Bool.not_eq_true'] at this
    exact ⟨generatedB_sound this.1, this.2⟩
  · have : (Demo.laxJson.types.map JType.name).all (fun n =>
        if kindNamed Demo.laxJson n = some "INPUT_OBJECT" then !generatedB "Q2" n && decide (n ≠ "Q2Variables")
        else true) = true := by decide +kernel
    have := (List.all_eq_true.1 this) n (kindNamed_mem hn)
    rw [if_pos hn, Bool.and_eq_true, decide_eq_true_eq, Bool.not_eq_true'] at this
    exact ⟨generatedB_sound this.1, this.2⟩

theorem lax_env : ScalarEnv Demo.tsCfg Demo.laxJson stringScalars tightEnv :=
  ⟨tightEnv_for.string, tightEnv_for.number, tightEnv_for.boolean, tightEnv_for.any,
    fun n v hn hv => tightEnv_for.custom n v (lax_kind n ▸ hn) hv⟩

/-- A check of `DemandsLess`, for two versions with the same types. -/
def demandsLessB (new old : JSchema) : Bool :=
  (old.types.map JType.name).all (fun P => decide (kindNamed new P = kindNamed old P) &&
    ((inputFields old P).map JField.name).all (fun f => match inputFieldType old P f, inputFieldType new P f with
      | some (k, t), some (k', t') => decide (k' = k) && narrowerB t t'
      | none, _ => true
      | _, _ => false) &&
    ((inputFields new P).map JField.name).all (fun f => decide (f ∈ (inputFields old P).map JField.name) ||
      match inputFieldType new P f with
      | some (_, t) => isNullable t
      | none => false) &&
    (match (typeNamed old P).bind JType.enumValues, (typeNamed new P).bind JType.enumValues with
      | some vs, some vs' => vs.all (fun s => decide (s ∈ vs'))
      | none, _ => true
      | _, _ => false))

theorem demandsLessB_sound (h : demandsLessB new old = true) : DemandsLess new old := by
  unfold demandsLessB at h
  simp only [Bool.and_eq_true, List.all_eq_true, decide_eq_true_eq, Bool.or_eq_true] at h
  refine ⟨?_, ?_, ?_, ?_⟩
  · intro n k _ hn
    rw [(h n (kindNamed_mem hn)).1.1.1]
    exact hn
  · intro P name k t hf
    have hl := inputFieldType_listed hf
    have hP : P ∈ old.types.map JType.name := by
      unfold inputFields at hl
      cases hj : typeNamed old P with
      | none => rw [hj] at hl; simp at hl
      | some j => exact typeNamed_mem hj
    have := (h P hP).1.1.2 name hl
    rw [hf] at this
    cases ho : inputFieldType new P name with
    | none => rw [ho] at this; simp at this
    | some r =>
      obtain ⟨k₀, t'⟩ := r
      rw [ho] at this
      simp only [Bool.and_eq_true, decide_eq_true_eq] at this
      obtain ⟨rfl, hn⟩ := this
      exact ⟨t', rfl, narrowerB_sound hn⟩
  · intro P hk name hname hnot
    rcases (h P (kindNamed_mem hk)).1.2 name hname with h1 | h1
    · exact absurd h1 hnot
    · cases hf : inputFieldType new P name with
      | none => rw [hf] at h1; simp at h1
      | some r => rw [hf] at h1; exact ⟨r.1, r.2, rfl, h1⟩
  · intro n j vs hj hv
    have := (h n (typeNamed_mem hj)).2
    rw [hj] at this
    simp only [Option.bind_some, hv] at this
    cases ho : typeNamed new n with
    | none => rw [ho] at this; simp at this
    | some j' =>
      rw [ho] at this
      simp only [Option.bind_some] at this
      cases hvs : j'.enumValues with
      | none => rw [hvs] at this; simp at this
      | some vs' =>
        rw [hvs] at this
        simp only [List.all_eq_true, decide_eq_true_eq] at this
        exact ⟨j', vs', rfl, hvs, this⟩

theorem lax_demands : DemandsLess Demo.laxJson Demo.respJson := demandsLessB_sound (by decide +kernel)

theorem lax_wider : WiderVars (varsOf Demo.laxQuery) (varsOf Demo.query) := by
  refine ⟨by decide, ?_, by decide⟩
  intro x hx y hy e
  apply narrowerB_sound
  revert x y
  decide

theorem lax_written : ∃ op ws c text,
    Operation.compile .inOrder 9 ⟨Demo.laxSchema, true, []⟩ Demo.laxQuery = some (.ok op, ws) ∧
    compileIr .inOrder op Demo.tsCfg Demo.laxSchema = .ok c ∧
    (∀ n ∈ c.globalTypesUsed, n ∈ ["Role", "Filter"]) ∧
    compileGlobals .reversed 9 Demo.tsCfg Demo.laxSchema ["Role", "Filter"] = some (.ok text) := by
  have e : (match Operation.compile .inOrder 9 ⟨Demo.laxSchema, true, []⟩ Demo.laxQuery with
      | some (.ok op, _) => match compileIr .inOrder op Demo.tsCfg Demo.laxSchema with
        | .ok c => match compileGlobals .reversed 9 Demo.tsCfg Demo.laxSchema ["Role", "Filter"] with
          | some (.ok _) => c.globalTypesUsed.all (fun n => decide (n ∈ ["Role", "Filter"]))
          | _ => false
        | _ => false
      | _ => false) = true := by decide +kernel
  cases h : Operation.compile .inOrder 9 ⟨Demo.laxSchema, true, []⟩ Demo.laxQuery with
  | none => rw [h] at e; simp at e
  | some r =>
    obtain ⟨r, ws⟩ := r
    cases r with
    | error _ => rw [h] at e; simp at e
    | ok op =>
      rw [h] at e
      simp only at e
      cases hc : compileIr .inOrder op Demo.tsCfg Demo.laxSchema with
      | error _ => rw [hc] at e; simp at e
      | ok c =>
        rw [hc] at e
        simp only at e
        split at e
        · simp only [List.all_eq_true, decide_eq_true_eq] at e
          exact ⟨op, ws, c, _, rfl, hc, e, by assumption⟩
        · simp at e

theorem lax_variables : VariablesFit Demo.tsCfg Demo.laxJson [] Demo.laxQuery where
  name := by decide
  keys := by decide
  fragmentKeys := by intro name fd hg; simp [AMap.get?] at hg
  variablesValid := validVarsB_sound (by decide +kernel)
  variableNames := by decide
  apart := fun n hn => lax_outside hn

/-- All conditions are met for the demo query and its new version, and the old type has a value. -/
theorem C122_demo : ∃ op ws c text op' ws' c' text' m g m' g',
    Operation.compile .inOrder 9 ⟨Demo.respSchema, true, Demo.ctx.fragments⟩ Demo.query = some (.ok op, ws) ∧
    compileIr .inOrder op Demo.tsCfg Demo.respSchema = .ok c ∧ parseModule c.contents = some m ∧
    compileGlobals .reversed 9 Demo.tsCfg Demo.respSchema ["Role", "Filter"] = some (.ok text) ∧
    parseModule text = some g ∧
    Operation.compile .inOrder 9 ⟨Demo.laxSchema, true, []⟩ Demo.laxQuery = some (.ok op', ws') ∧
    compileIr .inOrder op' Demo.tsCfg Demo.laxSchema = .ok c' ∧ parseModule c'.contents = some m' ∧
    compileGlobals .reversed 9 Demo.tsCfg Demo.laxSchema ["Role", "Filter"] = some (.ok text') ∧
    parseModule text' = some g' ∧
    (∀ k, ModuleAdmits m (linked g tightEnv) k "QVariables" varsValue) ∧
    ∀ v, (∀ k, ModuleAdmits m (linked g tightEnv) k "QVariables" v) →
      ∀ k, ModuleAdmits m' (linked g' tightEnv) k "Q2Variables" v := by
  obtain ⟨op, ws, c, h, hc, _⟩ := respChecks_sound resp_checks
  obtain ⟨text, hg⟩ := demo_globals
  obtain ⟨op', ws', c', text', h', hc', hused', hg'⟩ := lax_written
  have hch := module_checks
  unfold moduleChecks at hch
  rw [h] at hch
  simp only [hc, Bool.and_eq_true, decide_eq_true_eq] at hch
  have hused : ∀ n ∈ c.globalTypesUsed, n ∈ ["Role", "Filter"] := by rw [hch.2]; exact fun _ h => h
  have D := full_document h
  have V : VariablesFit Demo.tsCfg Demo.respJson Demo.ctx.fragments Demo.query :=
    ⟨D.name, D.keys, D.fragmentKeys, D.variablesValid, D.variableNames, D.apart⟩
  have hcon := loaded_consistent resp_valid resp_loads
  have hname := name_of_compiled hcon h
  obtain ⟨m, g, k1, k2, m', g', k3, k4, k5⟩ : ∃ m g, parseModule c.contents = some m ∧ parseModule text = some g ∧
      ∃ m' g', parseModule c'.contents = some m' ∧ parseModule text' = some g' ∧
      ∀ v, (∀ k, ModuleAdmits m (linked g tightEnv) k "QVariables" v) →
        ∀ k, ModuleAdmits m' (linked g' tightEnv) k "Q2Variables" v := by
    obtain ⟨m, g, m', g', k1, k2, k3, k4, k5⟩ := C122_asking_for_less .inOrder .reversed .inOrder .reversed 9 9 9 9
      true Demo.tsCfg lax_demands stringScalars tightEnv
      _ resp_loads full_schema (fun n v hn => ⟨tightEnv_tight n v hn, scalarEnv_leaf tightEnv_for hn⟩)
      Demo.ctx.fragments Demo.query op ws h V c hc _ hused text hg
      _ lax_loads lax_schema lax_env [] Demo.laxQuery op' ws' h' lax_variables c' hc' _ hused' text' hg'
      (by decide) lax_wider
    exact ⟨m, g, k1, k2, m', g', k3, k4, k5⟩
  obtain ⟨m₂, g₂, n1, n2, hall⟩ := C80_variables_inhabit_text .inOrder .reversed 9 9 true Demo.tsCfg resp_valid
    demo_inputs.1 demo_inputs.2 resp_loads demo_writable demo_globals_writable demo_apart Demo.query op ws "Query" rfl
    h (by rw [hname]; exact V.name) V.keys V.fragmentKeys (by decide) V.variablesValid V.variableNames
    (fun n hn => by rw [hname]; exact V.apart n hn) stringScalars tightEnv tightEnv_for c hc _ hused text hg
  rw [k1] at n1
  rw [k2] at n2
  cases n1
  cases n2
  exact ⟨op, ws, c, text, op', ws', c', text', m, g, m', g', h, hc, k1, hg, k2, h', hc', k3, hg', k4,
    hall _ varsValue_ok, k5⟩

end Qlc
