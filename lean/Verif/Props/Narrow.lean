import Verif.Spec.Narrow
import Verif.Props.Extend
/-
Property C121: when the schema promises more, values of the new types are values of the old ones.
-/
set_option autoImplicit false

namespace Qlc
open Spec

variable {new old : JSchema} {frags : Frags} {applies : List Directive → Prop} {scalars : String → JVal → Prop}

theorem narrower_admits {B : JVal → Prop} : ∀ {t' t : VarTy}, NarrowerTy t' t → ∀ x, Admits B t' x → Admits B t x
  | .named _, .named _, _, _, hx => hx
  | .named _, .list _, h, _, _ => by simp [NarrowerTy] at h
  | .named _, .nonNull _, h, _, _ => by simp [NarrowerTy] at h
  | .list _, .named _, h, _, _ => by simp [NarrowerTy] at h
  | .list _, .nonNull _, h, _, _ => by simp [NarrowerTy] at h
  | .list a, .list b, h, x, hx => by
    rcases hx with rfl | ⟨vs, rfl, hx⟩
    · exact .inl rfl
    · exact .inr ⟨vs, rfl, fun y hy => narrower_admits (t' := a) (t := b) h y (hx y hy)⟩
  | .nonNull a, .nonNull b, h, x, hx => ⟨hx.1, narrower_admits (t' := a) (t := b) h x hx.2⟩
  | .nonNull a, .named B, h, x, hx => narrower_admits (t' := a) (t := .named B) h x hx.2
  | .nonNull a, .list b, h, x, hx => narrower_admits (t' := a) (t := .list b) h x hx.2

theorem narrower_base : ∀ {t' t : VarTy}, NarrowerTy t' t → baseName t' = baseName t
  | .named _, .named _, h => h
  | .named _, .list _, h => by simp [NarrowerTy] at h
  | .named _, .nonNull _, h => by simp [NarrowerTy] at h
  | .list _, .named _, h => by simp [NarrowerTy] at h
  | .list _, .nonNull _, h => by simp [NarrowerTy] at h
  | .list a, .list b, h => narrower_base (t' := a) (t := b) h
  | .nonNull a, .nonNull b, h => narrower_base (t' := a) (t := b) h
  | .nonNull a, .named B, h => narrower_base (t' := a) (t := .named B) h
  | .nonNull a, .list b, h => narrower_base (t' := a) (t := .list b) h

theorem collect_members (hm : ∀ P T, T ∈ objectTypes new P ↔ T ∈ objectTypes old P) {T : String}
    {items : List Selection} {L : List Wanted} (h : Collect new frags applies T items L) :
    Collect old frags applies T items L := by
  induction h with
  | nil => exact .nil
  | leftOutField hd _ ih => exact .leftOutField hd ih
  | leftOutInline hd _ ih => exact .leftOutInline hd ih
  | leftOutSpread hd _ ih => exact .leftOutSpread hd ih
  | field hd _ ih => exact .field hd ih
  | inline hd hc _ _ ih1 ih2 => exact .inline hd (fun C e => (hm C T).1 (hc C e)) ih1 ih2
  | otherInline hd hc _ ih => exact .otherInline hd (fun h => hc ((hm _ T).2 h)) ih
  | spread hd hf hc _ _ ih1 ih2 => exact .spread hd hf ((hm _ T).1 hc) ih1 ih2
  | otherSpread hd hf hc _ ih => exact .otherSpread hd hf (fun h => hc ((hm _ T).2 h)) ih

/-- A response under the new schema is one under the old. -/
theorem promised_answers (hp : PromisesMore new old) (n : Nat) : ∀ (T : String) (sets : List (List Selection))
    (v : JVal), AnswersTo new frags applies scalars n T sets v → AnswersTo old frags applies scalars n T sets v := by
  induction n with
  | zero => intro T sets v h; exact h
  | succ n ih =>
    rintro T sets v ⟨L, ⟨Ls, hL, rfl⟩, fs, rfl, h1, h2, h3⟩
    refine ⟨_, ⟨Ls, ?_, rfl⟩, fs, rfl, h1, h2, ?_⟩
    · clear h1 h2 h3
      induction hL with
      | nil => exact .nil
      | cons a _ ih => exact .cons (collect_members hp.members a) ih
    · intro w hw
      obtain ⟨x, hx, r, rest, hr, hv⟩ := h3 w hw
      refine ⟨x, hx, r, rest, hr, ?_⟩
      rcases hv with hv | ⟨hne, kind, t', hf, ha⟩
      · exact .inl hv
      · obtain ⟨t, hf', hnar⟩ := hp.fields T r.name kind t' hf
        refine .inr ⟨hne, kind, t, hf', narrower_admits hnar x (admits_mono ?_ t' x ha)⟩
        intro y hy
        rw [narrower_base hnar] at hy
        by_cases hk : CompositeKind kind
        · simp only [if_pos hk] at hy ⊢
          obtain ⟨T', hT', hy⟩ := hy
          exact ⟨T', (hp.members _ T').1 hT', ih T' _ y hy⟩
        · simp only [if_neg hk] at hy ⊢
          unfold LeafValue at hy ⊢
          by_cases he : kind = "ENUM"
          · rw [if_pos he] at hy ⊢
            obtain ⟨j', vs', s, e1, e2, e3, e4⟩ := hy
            obtain ⟨j, vs, f1, f2, f3⟩ := hp.enums _ j' vs' e1 e2
            exact ⟨j, vs, s, f1, f2, f3 s e3, e4⟩
          · rw [if_neg he] at hy ⊢
            exact hy

/-- **C121.** Let a new version of the schema differ from the old one only in that field types have got non-null
marks and enums have lost values.  Then every value of the type generated for a document from the new version, with
the globals of the new version, is a value of the type generated from the old version, with the globals of the
old; conditions as in C92 for the new and C89 for the old version. -/
theorem C121_promising_more (ω ω₁ ω₂ ω₃ : Hash) (fuel fuel₁ fuel₂ fuel₃ : Nat) (showDep : Bool) (cfg : TsConfig)
    (hp : PromisesMore new old)
    (scalars env : String → JVal → Prop) (applies : List Directive → Prop) (P : String) (d : Definition)
    -- with the old version
    (schema : Schema) (hs : Schema.ofJson old = .ok schema) (S : SchemaFit cfg old) (hfr : FragsValid schema frags)
    (he : ScalarEnv cfg old scalars env) (op : Operation) (ws : List Warning)
    (h : Operation.compile ω fuel ⟨schema, showDep, frags⟩ d = some (.ok op, ws))
    (D : DocumentFit cfg old schema frags d applies P)
    (c : Compile) (hc : compileIr ω op cfg schema = .ok c)
    (used : List String) (hused : ∀ n ∈ c.globalTypesUsed, n ∈ used)
    (text : String) (hg : compileGlobals ω₁ fuel₁ cfg schema used = some (.ok text))
    -- with the new version
    (schema' : Schema) (hs' : Schema.ofJson new = .ok schema') (S' : SchemaFit cfg new)
    (hfr' : FragsValid schema' frags)
    (he' : ScalarEnv cfg new scalars env) (op' : Operation) (ws' : List Warning)
    (h' : Operation.compile ω₂ fuel₂ ⟨schema', showDep, frags⟩ d = some (.ok op', ws'))
    (D' : DocumentFit cfg new schema' frags d applies P) (E' : ExactFit cfg new schema' frags d P scalars env)
    (c' : Compile) (hc' : compileIr ω₂ op' cfg schema' = .ok c')
    (used' : List String) (hused' : ∀ n ∈ c'.globalTypesUsed, n ∈ used')
    (text' : String) (hg' : compileGlobals ω₃ fuel₃ cfg schema' used' = some (.ok text')) :
    ∃ m g m' g', parseModule c.contents = some m ∧ parseModule text = some g ∧
      parseModule c'.contents = some m' ∧ parseModule text' = some g' ∧
      ∀ v, (∀ n, ModuleAdmits m' (linked g' env) n (dataName d) v) →
        ∀ n, ModuleAdmits m (linked g env) n (dataName d) v := by
  obtain ⟨m, g, hm1, hg1, hresp⟩ := fit_admits ω ω₁ fuel fuel₁ showDep cfg hs S hfr h D he hc hused hg
  obtain ⟨m', g', hm2, hg2, hiff⟩ := C92_admits_exactly ω₂ ω₃ fuel₂ fuel₃ showDep cfg hs' S' hfr' d op' ws' P applies
    h' D' scalars env he' E' c' hc' used' hused' text' hg'
  refine ⟨m, g, m', g', hm1, hg1, hm2, hg2, ?_⟩
  intro v hv
  obtain ⟨T, hT, hans⟩ := (hiff v).1 hv
  exact hresp T ((hp.members P T).1 hT) v (fun n => promised_answers hp n T _ v (hans n))

/-! ### An example -/

/-- The demo introspection data with `name` and `node` made non-null and one role dropped. -/
def Demo.strictJson : JSchema := ⟨Demo.respJson.types.map (fun j =>
  { j with
    fields := j.fields.map (fun l => l.map (fun f =>
      if f.name = "name" ∨ f.name = "node" then { f with typeInformation := Demo.nn f.typeInformation } else f))
    enumValues := j.enumValues.map (fun l => l.filter (fun s => decide (s ≠ "GUEST"))) })⟩

/-- The schema loaded from it. -/
def Demo.strictSchema : Schema := match Schema.ofJson Demo.strictJson with | .ok s => s | .error _ => []

theorem strict_loads : Schema.ofJson Demo.strictJson = .ok Demo.strictSchema :=
  loads_of_check (by decide +kernel)

theorem strict_valid : ValidDoc Demo.strictJson := validDocB_sound (by decide +kernel)

theorem strict_inputs : ValidInputs Demo.strictJson ∧ OneListLevel Demo.strictJson :=
  validInputsB_sound (by decide +kernel)

theorem strict_schema : SchemaFit Demo.tsCfg Demo.strictJson :=
  ⟨strict_valid, strict_inputs.1, noBadListB_sound (by decide +kernel), strict_inputs.2,
    writableB_sound (by decide +kernel), globalsWritableB_sound (by decide +kernel),
    scalarsApartB_sound (by decide +kernel)⟩

theorem strict_frags_valid : FragsValid Demo.strictSchema Demo.ctx.fragments := by
  intro name fd h
  obtain rfl := demo_frag h
  refine ⟨by decide +kernel, (valid_iff _ _).2 ?_⟩
  have : (invalidSelections Demo.strictSchema Demo.ctx.fragments Demo.fragF.typeCond
    Demo.fragF.items).length = 0 := by decide +kernel
  exact List.length_eq_zero_iff.1 this

theorem strict_checks : respChecks Demo.tsCfg Demo.strictSchema Demo.ctx.fragments Demo.query = true := by
  decide +kernel

theorem strict_names : Demo.strictJson.types.map JType.name = Demo.respJson.types.map JType.name := by
  decide +kernel

theorem strict_kind (n : String) : kindNamed Demo.strictJson n = kindNamed Demo.respJson n := by
  by_cases hn : n ∈ Demo.respJson.types.map JType.name
  · have : (Demo.respJson.types.map JType.name).all (fun n =>
        decide (kindNamed Demo.strictJson n = kindNamed Demo.respJson n)) = true := by decide +kernel
    simpa using (List.all_eq_true.1 this) n hn
  · have h1 : kindNamed Demo.respJson n = none := by
      cases h : kindNamed Demo.respJson n with
      | none => rfl
      | some k => exact absurd (kindNamed_mem h) hn
    have h2 : kindNamed Demo.strictJson n = none := by
      cases h : kindNamed Demo.strictJson n with
      | none => rfl
      | some k => exact absurd (strict_names ▸ kindNamed_mem h) hn
    rw [h1, h2]

theorem strict_outside {n : String} (hn : Outside Demo.tsCfg Demo.strictJson n ∨
    kindNamed Demo.strictJson n = some "INPUT_OBJECT") : ¬ Generated "Q" n ∧ n ≠ "Q" ++ "Variables" := by
  apply demo_outside
  unfold Outside at hn ⊢
  simpa only [strict_kind] using hn

theorem strict_document {ws : List Warning} {op : Operation}
    (h : Operation.compile .inOrder 9 ⟨Demo.strictSchema, true, Demo.ctx.fragments⟩ Demo.query
      = some (.ok op, ws)) :
    DocumentFit Demo.tsCfg Demo.strictJson Demo.strictSchema Demo.ctx.fragments Demo.query
      (fun d => d.isEmpty = true) "Query" := by
  obtain ⟨op', ws', c, h', hc, hd, hsame, _⟩ := respChecks_sound strict_checks
  rw [h] at h'
  cases h'
  have hcon := loaded_consistent strict_valid strict_loads
  have hone := (C21_listed_once_iff .inOrder 9 true hcon strict_frags_valid Demo.query op ws "Query" rfl h).1 hd
  exact
    { notSubscription := rfl
      root := rfl
      oneType := hone
      lookAlikes := (C23_same_bodies_iff .inOrder 9 true hcon strict_frags_valid Demo.query op ws "Query" rfl h
        hone).1 hsame
      unconditional := by unfold Unconditional; decide
      fragsApply := by intro name fd hg; obtain rfl := demo_frag hg; unfold Unconditional; decide
      name := by decide
      keys := by decide
      fragmentKeys := by intro name fd hg; obtain rfl := demo_frag hg; decide
      variablesValid := validVarsB_sound (by decide +kernel)
      variableNames := by decide
      apart := fun n hn => strict_outside hn }

theorem strict_env : ScalarEnv Demo.tsCfg Demo.strictJson stringScalars tightEnv :=
  ⟨tightEnv_for.string, tightEnv_for.number, tightEnv_for.boolean, tightEnv_for.any,
    fun n v hn hv => tightEnv_for.custom n v (strict_kind n ▸ hn) hv⟩

theorem strict_exact {ws : List Warning} {op : Operation}
    (h : Operation.compile .inOrder 9 ⟨Demo.strictSchema, true, Demo.ctx.fragments⟩ Demo.query
      = some (.ok op, ws)) :
    ExactFit Demo.tsCfg Demo.strictJson Demo.strictSchema Demo.ctx.fragments Demo.query "Query" stringScalars
      tightEnv := by
  obtain ⟨op', ws', c, h', hc, hd, hsame, htn, _⟩ := respChecks_sound strict_checks
  rw [h] at h'
  cases h'
  exact
    { noNarrowing := noNarrowingB_sound (by decide +kernel)
      oneTypename := key_of_oneTypename strict_valid strict_loads
        ⟨C10_generated_tree .inOrder 9 true (loaded_consistent strict_valid strict_loads) strict_frags_valid
          Demo.query op ws "Query" rfl h, hd⟩ htn
      tight := fun n v hn hv => tightEnv_tight n v (strict_kind n ▸ hn) hv
      plainTypes := fun P T hT => by
        have := objectTypesB_sound (q := fun T => decide (Plain T)) (doc := Demo.strictJson) (by decide +kernel) P T hT
        simpa using this
      plainKeys := by decide
      plainFragmentKeys := by intro name fd hg; obtain rfl := demo_frag hg; decide }

/-- A check of `NarrowerTy`. -/
def narrowerB : VarTy → VarTy → Bool
  | .named A, .named B => decide (A = B)
  | .list a, .list b => narrowerB a b
  | .nonNull a, .nonNull b => narrowerB a b
  | .nonNull a, .named B => narrowerB a (.named B)
  | .nonNull a, .list b => narrowerB a (.list b)
  | _, _ => false

theorem narrowerB_sound : ∀ {a b : VarTy}, narrowerB a b = true → NarrowerTy a b
  | .named _, .named _, h => by simpa [narrowerB, NarrowerTy] using h
  | .named _, .list _, h => by simp [narrowerB] at h
  | .named _, .nonNull _, h => by simp [narrowerB] at h
  | .list _, .named _, h => by simp [narrowerB] at h
  | .list _, .nonNull _, h => by simp [narrowerB] at h
  | .list a, .list b, h => narrowerB_sound (a := a) (b := b) (by simpa [narrowerB] using h)
  | .nonNull a, .nonNull b, h => narrowerB_sound (a := a) (b := b) (by simpa [narrowerB] using h)
  | .nonNull a, .named B, h => narrowerB_sound (a := a) (b := .named B) (by simpa [narrowerB] using h)
  | .nonNull a, .list b, h => narrowerB_sound (a := a) (b := .list b) (by simpa [narrowerB] using h)

/-- A check of `PromisesMore`. -/
def promisesMoreB (new old : JSchema) : Bool :=
  (new.types.map JType.name).all (fun P => decide (objectTypes new P = objectTypes old P) &&
    ((declaredFields new P).map JField.name).all (fun f => match fieldType new P f, fieldType old P f with
      | some (k', t'), some (k, t) => decide (k' = k) && narrowerB t' t
      | none, _ => true
      | _, _ => false) &&
    (match (typeNamed new P).bind JType.enumValues, (typeNamed old P).bind JType.enumValues with
      | some vs', some vs => vs'.all (fun s => decide (s ∈ vs))
      | none, _ => true
      | _, _ => false)) &&
  (old.types.map JType.name).all (fun P => decide (P ∈ new.types.map JType.name))

theorem promisesMoreB_sound (h : promisesMoreB new old = true) : PromisesMore new old := by
  unfold promisesMoreB at h
  simp only [Bool.and_eq_true, List.all_eq_true, decide_eq_true_eq] at h
  obtain ⟨h, h'⟩ := h
  refine ⟨fun P T => ⟨fun hT => ?_, fun hT => ?_⟩, ?_, ?_⟩
  · rw [← (h P (objectTypes_mem hT)).1.1]; exact hT
  · rw [(h P (h' P (objectTypes_mem hT))).1.1]; exact hT
  · intro P name k t' hf
    have hP : P ∈ new.types.map JType.name := by
      obtain ⟨f, hf, _⟩ := fieldType_mem hf
      unfold declaredFields at hf
      cases hj : typeNamed new P with
      | none => rw [hj] at hf; simp at hf
      | some j => exact typeNamed_mem hj
    obtain ⟨f, hm, rfl⟩ := fieldType_mem hf
    have := (h P hP).1.2 f.name (List.mem_map.2 ⟨f, hm, rfl⟩)
    rw [hf] at this
    cases ho : fieldType old P f.name with
    | none => rw [ho] at this; simp at this
    | some r =>
      obtain ⟨k₀, t⟩ := r
      rw [ho] at this
      simp only [Bool.and_eq_true, decide_eq_true_eq] at this
      obtain ⟨rfl, hn⟩ := this
      exact ⟨t, rfl, narrowerB_sound hn⟩
  · intro n j' vs' hj hv
    have := (h n (typeNamed_mem hj)).2
    rw [hj] at this
    simp only [Option.bind_some, hv] at this
    cases ho : typeNamed old n with
    | none => rw [ho] at this; simp at this
    | some j =>
      rw [ho] at this
      simp only [Option.bind_some] at this
      cases hvs : j.enumValues with
      | none => rw [hvs] at this; simp at this
      | some vs =>
        rw [hvs] at this
        simp only [List.all_eq_true, decide_eq_true_eq] at this
        exact ⟨j, vs, rfl, hvs, this⟩

theorem strict_promises : PromisesMore Demo.strictJson Demo.respJson := promisesMoreB_sound (by decide +kernel)

theorem strict_globals : ∃ text, compileGlobals .reversed 9 Demo.tsCfg Demo.strictSchema ["Role", "Filter"] =
    some (.ok text) := by
  have h : (match compileGlobals .reversed 9 Demo.tsCfg Demo.strictSchema ["Role", "Filter"] with
    | some (.ok _) => true | _ => false) = true := by decide +kernel
  split at h
  · exact ⟨_, by assumption⟩
  · simp at h

/-- An answer under the stricter version. -/
def strictValue : JVal := .obj [
  ("node", .obj [("__typename", .str "User"), ("id", .str "7"), ("name", .str "Ann"), ("role", .str "ADMIN"),
    ("old", .null)]),
  ("me", .obj [("friends", .arr [])])]

/-- The old demo answer, with a null name, is not one under the stricter version. -/
example : answersB Demo.strictJson Demo.ctx.fragments (fun d => d.isEmpty) 9 "Query" [itemsOf Demo.query]
    respValue = false := by decide +kernel

/-- All conditions are met for the demo query under the two versions, and the stricter type has a value. -/
theorem C121_demo : ∃ op ws c text op' ws' c' text' m g m' g',
    Operation.compile .inOrder 9 ⟨Demo.respSchema, true, Demo.ctx.fragments⟩ Demo.query = some (.ok op, ws) ∧
    compileIr .inOrder op Demo.tsCfg Demo.respSchema = .ok c ∧ parseModule c.contents = some m ∧
    compileGlobals .reversed 9 Demo.tsCfg Demo.respSchema ["Role", "Filter"] = some (.ok text) ∧
    parseModule text = some g ∧
    Operation.compile .inOrder 9 ⟨Demo.strictSchema, true, Demo.ctx.fragments⟩ Demo.query = some (.ok op', ws') ∧
    compileIr .inOrder op' Demo.tsCfg Demo.strictSchema = .ok c' ∧ parseModule c'.contents = some m' ∧
    compileGlobals .reversed 9 Demo.tsCfg Demo.strictSchema ["Role", "Filter"] = some (.ok text') ∧
    parseModule text' = some g' ∧
    (∀ n, ModuleAdmits m' (linked g' tightEnv) n "Q" strictValue) ∧
    ∀ v, (∀ n, ModuleAdmits m' (linked g' tightEnv) n "Q" v) → ∀ n, ModuleAdmits m (linked g tightEnv) n "Q" v := by
  obtain ⟨op, ws, c, h, hc, _⟩ := respChecks_sound resp_checks
  obtain ⟨text, hg⟩ := demo_globals
  obtain ⟨op', ws', c', h', hc', _⟩ := respChecks_sound strict_checks
  obtain ⟨text', hg'⟩ := strict_globals
  have hch := module_checks
  unfold moduleChecks at hch
  rw [h] at hch
  simp only [hc, Bool.and_eq_true, decide_eq_true_eq] at hch
  have hused : ∀ n ∈ c.globalTypesUsed, n ∈ ["Role", "Filter"] := by rw [hch.2]; exact fun _ h => h
  have hused' : ∀ n ∈ c'.globalTypesUsed, n ∈ ["Role", "Filter"] := by
    have e : (match Operation.compile .inOrder 9 ⟨Demo.strictSchema, true, Demo.ctx.fragments⟩ Demo.query with
        | some (.ok op, _) => match compileIr .inOrder op Demo.tsCfg Demo.strictSchema with
          | .ok c => c.globalTypesUsed.all (fun n => decide (n ∈ ["Role", "Filter"]))
          | _ => false
        | _ => false) = true := by decide +kernel
    rw [h'] at e
    simp only [hc', List.all_eq_true, decide_eq_true_eq] at e
    exact e
  obtain ⟨m', g', n1, n2, hiff⟩ := C92_admits_exactly .inOrder .reversed 9 9 true Demo.tsCfg strict_loads strict_schema
    strict_frags_valid Demo.query op' ws' "Query" _ h' (strict_document h') stringScalars tightEnv strict_env
    (strict_exact h') c' hc' _ hused' text' hg'
  obtain ⟨m, g, m₂, g₂, k1, k2, k3, k4, k5⟩ := C121_promising_more .inOrder .reversed .inOrder .reversed 9 9 9 9
    true Demo.tsCfg strict_promises stringScalars tightEnv (fun d => d.isEmpty = true) "Query" Demo.query
    _ resp_loads full_schema resp_frags_valid tightEnv_for op ws h (full_document h) c hc _ hused text hg
    _ strict_loads strict_schema strict_frags_valid strict_env op' ws' h' (strict_document h') (strict_exact h')
    c' hc' _ hused' text' hg'
  rw [n1] at k3
  rw [n2] at k4
  cases k3
  cases k4
  exact ⟨op, ws, c, text, op', ws', c', text', m, g, m', g', h, hc, k1, hg, k2, h', hc', n1, hg', n2,
    (hiff _).2 ⟨"Query", by decide +kernel, answersB_sound Demo.strictJson Demo.ctx.fragments (fun d => d.isEmpty) 9
      "Query" _ _ (by decide +kernel)⟩, k5⟩

end Qlc
