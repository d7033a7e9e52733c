import Verif.Spec.Same
import Verif.Props.Alike
import Verif.Props.Determinism
/-
C95: what a generated file depends on.
-/
set_option autoImplicit false

namespace Qlc
open Spec

variable {schema schema' : Schema} {frags frags' : Frags}

/-- A property of the tree, with all that the document says about it. -/
theorem TreeFor.property {P : String} {sets : List (List Selection)} {ps : List Complex}
    (h : TreeFor schema frags P sets ps) {T : String} {fields : List IRField} (hm : Complex.mk T fields ∈ ps)
    {L : List Contribution} (hL : CollMany schema frags T P sets L) {f : IRField} (hf : f ∈ fields) :
    ∃ c rest, L.filter (fun c => decide (c.key = f.propName)) = c :: rest ∧
      f.documentation = c.field.documentation ∧ f.deprecated = c.field.deprecated ∧
      f.last = c.field.type.last ∧ f.rest = c.field.type.rest ∧
      (match f.type with
        | .complex sub => c.field.type.definition.isComplex = true ∧
            TreeFor schema frags c.field.type.name (merged L f.propName) sub
        | .enum n => c.field.type.definition = .enum ∧ n = c.field.type.name
        | .scalar s => c.field.type.definition = .scalar s
        | .typeName => c.field.type.definition = .typeName) := by
  obtain ⟨hd1, _⟩ := mem_distinctPoss h.distinct hm
  obtain ⟨L', hL', hF⟩ := (h.tree 1).2.2 T fields hm
  have eL := collMany_functional _ _ _ _ _ hL hL'
  subst eL
  obtain ⟨c, rest, e, _, k2, k3, _, _, _⟩ := fieldIs_merged hF hd1 hf
  obtain ⟨_, L'', hL'', F⟩ := h.fields hm
  have eL := collMany_functional _ _ _ _ _ hL hL''
  subst eL
  obtain ⟨c', rest', e', h1, h2, h3⟩ := F.fields f hf
  rw [e] at e'
  injection e' with ec _
  subst ec
  exact ⟨c, rest, e, k2, k3, h1, h2, h3⟩

/-- Documents that ask for the same data have the same tree. -/
theorem tree_same (n : Nat) : ∀ (ps ps' : List Complex), sizeOf ps ≤ n → ∀ P P' sets sets',
    TreeFor schema frags P sets ps → TreeFor schema' frags' P' sets' ps' →
    AskSame schema schema' frags frags' P sets P' sets' → ps = ps' := by
  induction n with
  | zero => intro ps ps' hs; exfalso; cases ps <;> simp at hs
  | succ n ih =>
    intro ps ps' hs P P' sets sets' H H' hS
    have hfields : ∀ T fields fields', Complex.mk T fields ∈ ps → Complex.mk T fields' ∈ ps' →
        fields = fields' := by
      intro T fields fields' hm hm'
      obtain ⟨hT, L, hL, F⟩ := H.fields hm
      obtain ⟨_, L', hL', F'⟩ := H'.fields hm'
      have hsame : ∀ m, SameFields (SameTo schema schema' frags frags' m) L L' :=
        fun m => (hS (m + 1)).2 T hT L L' hL hL'
      have hpair : ∀ f ∈ fields, ∀ f' ∈ fields', f.propName = f'.propName → f = f' := by
        intro f hf f' hf' hk
        obtain ⟨c, rest, e, a1, a2, a3, a4, a5⟩ := H.property hm hL hf
        obtain ⟨c', rest', e', b1, b2, b3, b4, b5⟩ := H'.property hm' hL' hf'
        rw [← hk] at e'
        have hs' : ∀ m, _ := fun m => by
          have := hsame m f.propName
          rw [e, e'] at this
          exact this
        have h0 := hs' 0
        refine irField_ext hk (by rw [a1, b1]; exact h0.1) (by rw [a2, b2]; exact h0.2.1)
          (by rw [a3, b3]; exact h0.2.2.1) (by rw [a4, b4]; exact h0.2.2.2.1) ?_
        rcases h0.2.2.2.2 with z | z
        · cases hty : f.type with
          | complex sub =>
            rw [hty] at a5
            cases hty' : f'.type with
            | complex sub' =>
              rw [hty'] at b5
              congr 1
              have hlt := sizeOf_sub hm hf hty
              refine ih sub sub' (by omega) _ _ _ _ a5.2 b5.2 (fun m => ?_)
              rw [← hk]
              rcases (hs' m).2.2.2.2 with y | y
              · exact y.2.2
              · rw [z.1] at y; simp at y
            | enum n =>
              rw [hty'] at b5
              have b5 := b5.1
              rw [b5] at z; simp [FieldTypeDef.isComplex] at z
            | scalar s =>
              rw [hty'] at b5
              have b5 : c'.field.type.definition = .scalar s := b5
              rw [b5] at z; simp [FieldTypeDef.isComplex] at z
            | typeName =>
              rw [hty'] at b5
              have b5 : c'.field.type.definition = .typeName := b5
              rw [b5] at z; simp [FieldTypeDef.isComplex] at z
          | enum n =>
            rw [hty] at a5
            have a5 := a5.1
            rw [a5] at z; simp [FieldTypeDef.isComplex] at z
          | scalar s =>
            rw [hty] at a5
            have a5 : c.field.type.definition = .scalar s := a5
            rw [a5] at z; simp [FieldTypeDef.isComplex] at z
          | typeName =>
            rw [hty] at a5
            have a5 : c.field.type.definition = .typeName := a5
            rw [a5] at z; simp [FieldTypeDef.isComplex] at z
        · obtain ⟨z1, z2, z3⟩ := z
          cases hty : f.type with
          | complex sub =>
            rw [hty] at a5
            rw [a5.1] at z1; simp at z1
          | enum n =>
            rw [hty] at a5
            obtain ⟨a5, an⟩ := a5
            rw [a5] at z2
            cases hty' : f'.type with
            | complex sub' => rw [hty'] at b5; rw [← z2] at b5; simp [FieldTypeDef.isComplex] at b5
            | enum n' => rw [hty'] at b5; rw [an, b5.2, z3 a5]
            | scalar s =>
              rw [hty'] at b5
              have b5 : c'.field.type.definition = .scalar s := b5
              rw [← z2] at b5; simp at b5
            | typeName =>
              rw [hty'] at b5
              have b5 : c'.field.type.definition = .typeName := b5
              rw [← z2] at b5; simp at b5
          | scalar s =>
            rw [hty] at a5
            have a5 : c.field.type.definition = .scalar s := a5
            rw [a5] at z2
            cases hty' : f'.type with
            | complex sub' => rw [hty'] at b5; rw [← z2] at b5; simp [FieldTypeDef.isComplex] at b5
            | enum n' => rw [hty'] at b5; rw [← z2] at b5; simp at b5
            | scalar s' =>
              rw [hty'] at b5
              have b5 : c'.field.type.definition = .scalar s' := b5
              rw [← z2] at b5; injection b5 with b5; rw [b5]
            | typeName =>
              rw [hty'] at b5
              have b5 : c'.field.type.definition = .typeName := b5
              rw [← z2] at b5; simp at b5
          | typeName =>
            rw [hty] at a5
            have a5 : c.field.type.definition = .typeName := a5
            rw [a5] at z2
            cases hty' : f'.type with
            | complex sub' => rw [hty'] at b5; rw [← z2] at b5; simp [FieldTypeDef.isComplex] at b5
            | enum n' => rw [hty'] at b5; rw [← z2] at b5; simp at b5
            | scalar s' =>
              rw [hty'] at b5
              have b5 : c'.field.type.definition = .scalar s' := b5
              rw [← z2] at b5; simp at b5
            | typeName => rfl
      have hkeys : ∀ k, (∃ c ∈ L, c.key = k) ↔ ∃ c ∈ L', c.key = k := by
        intro k
        have := hsame 0 k
        by_cases h1 : ∃ c ∈ L, c.key = k <;> by_cases h2 : ∃ c ∈ L', c.key = k
        · simp [h1, h2]
        · exfalso
          rw [filter_nil_iff.2 h2] at this
          cases hl : L.filter (fun c => decide (c.key = k)) with
          | nil => exact filter_nil_iff.1 hl h1
          | cons a l => rw [hl] at this; exact this
        · exfalso
          rw [filter_nil_iff.2 h1] at this
          cases hl : L'.filter (fun c => decide (c.key = k)) with
          | nil => exact filter_nil_iff.1 hl h2
          | cons a l => rw [hl] at this; exact this
        · simp only [h1, h2]
      refine List.forall₂_eq_eq_eq ▸ forall₂_of_sorted (R := Eq) (k := IRField.propName)
        (k' := IRField.propName) (fun _ _ e => by rw [e]) _ _ F.sorted F'.sorted ?_ ?_
      · intro f hf
        obtain ⟨f', hf', hk⟩ := List.mem_map.1 ((F'.keys _).2 ((hkeys _).1
          ((F.keys f.propName).1 (List.mem_map_of_mem hf))))
        exact ⟨f', hf', hpair f hf f' hf' hk.symm⟩
      · intro f' hf'
        obtain ⟨f, hf, hk⟩ := List.mem_map.1 ((F.keys _).2 ((hkeys _).2
          ((F'.keys f'.propName).1 (List.mem_map_of_mem hf'))))
        exact ⟨f, hf, hpair f hf f' hf' hk⟩
    have hnames : ∀ T, T ∈ ps.map Complex.name ↔ T ∈ ps'.map Complex.name := by
      intro T
      rw [(H.tree 1).2.1, (H'.tree 1).2.1]
      exact (hS 1).1 T
    have hpair : ∀ c ∈ ps, ∀ c' ∈ ps', c.name = c'.name → c = c' := by
      rintro ⟨T, fs⟩ hc ⟨T', fs'⟩ hc' hn
      have hn : T = T' := hn
      subst hn
      rw [hfields T fs fs' hc hc']
    refine List.forall₂_eq_eq_eq ▸ forall₂_of_sorted (R := Eq) (k := Complex.name) (k' := Complex.name)
      (fun _ _ e => by rw [e]) _ _ (H.tree 1).1 (H'.tree 1).1 ?_ ?_
    · intro c hc
      obtain ⟨c', hc', hn⟩ := List.mem_map.1 ((hnames _).1 (List.mem_map.2 ⟨c, hc, rfl⟩))
      exact ⟨c', hc', hpair c hc c' hc' hn.symm⟩
    · intro c' hc'
      obtain ⟨c, hc, hn⟩ := List.mem_map.1 ((hnames _).2 (List.mem_map.2 ⟨c', hc', rfl⟩))
      exact ⟨c, hc, hpair c hc c' hc' hn⟩

/-! ### Variables -/

theorem unwrapVarDef_same {v w : VarDef} (h : v.type = w.type) {m m' : Mod} {n n' : String}
    (hv : unwrapVarDef v = .ok (m, n)) (hw : unwrapVarDef w = .ok (m', n')) : m = m' ∧ n = n' := by
  obtain ⟨_, _, t, _⟩ := v
  obtain ⟨_, _, t', _⟩ := w
  have h : t = t' := h
  subst h
  unfold unwrapVarDef at hv hw
  simp only at hv hw
  repeat' split at hv
  all_goals simp_all

theorem unwrapVarDef_base {v : VarDef} {m : Mod} {n : String} (hv : unwrapVarDef v = .ok (m, n)) :
    n = baseName v.type := by
  unfold unwrapVarDef at hv
  repeat' split at hv
  all_goals simp_all [baseName]

theorem ofName_same {n : String} {pos pos' : Pos} {t t' : VariableType}
    (h : VariableType.ofName schema n pos = .ok t) (h' : VariableType.ofName schema' n pos' = .ok t') : t = t' := by
  unfold VariableType.ofName at h h'
  repeat' split at h
  all_goals (repeat' split at h')
  all_goals simp_all

theorem ofName_custom {n : String} {pos : Pos} {k : String}
    (h : VariableType.ofName schema n pos = .ok (.custom k)) : k = n ∧ n ∉ ["ID", "String", "Float", "Int", "Boolean"] ∧
      ∃ t, schema.getType n = some t := by
  unfold VariableType.ofName at h
  repeat' split at h
  all_goals simp_all

theorem buildVariable_same {v w : VarDef} (h : declared v = declared w) {a b : Variable}
    (hv : buildVariable schema v = .ok a) (hw : buildVariable schema' w = .ok b) : a = b := by
  unfold declared at h
  injection h with h1 h2
  unfold buildVariable at hv hw
  split at hv
  · simp at hv
  rename_i m n hu
  split at hw
  · simp at hw
  rename_i m' n' hu'
  obtain ⟨rfl, rfl⟩ := unwrapVarDef_same h2 hu hu'
  split at hv
  · simp at hv
  rename_i t ht
  split at hw
  · simp at hw
  rename_i t' ht'
  have := ofName_same ht ht'
  subst this
  injection hv with hv
  injection hw with hw
  rw [← hv, ← hw, h1]

theorem buildVariables_same : ∀ {vs ws : List VarDef}, vs.map declared = ws.map declared → ∀ {as bs : List Variable},
    vs.map (buildVariable schema) = as.map .ok → ws.map (buildVariable schema') = bs.map .ok → as = bs
  | [], [], _, as, bs, h, h' => by
    cases as <;> cases bs <;> simp_all
  | [], _ :: _, h, _, _, _, _ => by simp at h
  | _ :: _, [], h, _, _, _, _ => by simp at h
  | v :: vs, w :: ws, h, as, bs, ha, hb => by
    cases as with
    | nil => simp at ha
    | cons a as =>
      cases bs with
      | nil => simp at hb
      | cons b bs =>
        simp only [List.map_cons, List.cons.injEq] at h ha hb
        rw [buildVariable_same h.1 ha.1 hb.1, buildVariables_same h.2 ha.2 hb.2]

theorem finish_same {d d' : Definition} (hh : SameHead d d') {coll : List Complex} {op op' : Operation}
    (h : finish schema d coll = .ok op) (h' : finish schema' d' coll = .ok op') : op = op' := by
  have hname : nameOf d = nameOf d' := by cases hh <;> simp_all [nameOf]
  have hkind : kindOf d = kindOf d' := by cases hh <;> simp_all [kindOf]
  have hvars : (varsOf d).map declared = (varsOf d').map declared := by cases hh <;> simp_all [varsOf]
  unfold finish at h h'
  split at h
  · simp at h
  rename_i vs hvs
  split at h'
  · simp at h'
  rename_i vs' hvs'
  have : vs = vs' := by
    unfold tryBuildVariableIr at hvs hvs'
    have hl : (varsOf d).isEmpty = (varsOf d').isEmpty := by
      have := congrArg List.length hvars
      simp only [List.length_map] at this
      cases h1 : varsOf d <;> cases h2 : varsOf d' <;> simp_all
    rw [← hl] at hvs'
    by_cases he : (varsOf d).isEmpty = true
    · rw [if_pos he] at hvs hvs'
      injection hvs with hvs
      injection hvs' with hvs'
      rw [← hvs, ← hvs']
    · rw [if_neg he] at hvs hvs'
      split at hvs
      · simp at hvs
      rename_i as has
      split at hvs'
      · simp at hvs'
      rename_i bs hbs
      rw [seqE_ok_iff] at has hbs
      have := buildVariables_same hvars has hbs
      simp_all
  injection h with h
  injection h' with h'
  rw [← h, ← h', this, hname, hkind]

/-- A variable of a named type was declared with that type. -/
theorem finish_custom {d : Definition} {coll : List Complex} {op : Operation} (h : finish schema d coll = .ok op)
    {vars : List Variable} (hv : op.variables = some vars) {v : Variable} (hm : v ∈ vars) {n : String}
    (ht : v.type = .custom n) : ∃ w ∈ varsOf d, n = baseName w.type ∧
      n ∉ ["ID", "String", "Float", "Int", "Boolean"] ∧ ∃ t, schema.getType n = some t := by
  unfold finish at h
  split at h
  · simp at h
  rename_i vs hvs
  injection h with h
  subst h
  simp only at hv
  subst hv
  unfold tryBuildVariableIr at hvs
  split at hvs
  · simp at hvs
  split at hvs
  · simp at hvs
  rename_i as has
  simp only [Except.ok.injEq, Option.some.injEq] at hvs
  subst hvs
  rw [seqE_ok_iff] at has
  have : Except.ok v ∈ (varsOf d).map (buildVariable schema) := by
    rw [has]; exact List.mem_map_of_mem hm
  obtain ⟨w, hw, hb⟩ := List.mem_map.1 this
  refine ⟨w, hw, ?_⟩
  unfold buildVariable at hb
  split at hb
  · simp at hb
  rename_i m k hu
  split at hb
  · simp at hb
  rename_i t hn
  injection hb with hb
  subst hb
  simp only at ht
  subst ht
  obtain ⟨rfl, hnb, t, htt⟩ := ofName_custom hn
  exact ⟨unwrapVarDef_base hu, hnb, t, htt⟩

theorem variableTypeName_same (cfg : TsConfig) {v : Variable}
    (h : ∀ n, v.type = .custom n → (∃ t, schema.getType n = some t) ∧ (∃ t, schema'.getType n = some t) ∧
      (IsScalarType schema n ↔ IsScalarType schema' n)) :
    compileVariableTypeName cfg schema v = compileVariableTypeName cfg schema' v := by
  funext g
  unfold compileVariableTypeName
  cases hty : v.type with
  | custom n =>
    obtain ⟨⟨t, ht⟩, ⟨t', ht'⟩, hiff⟩ := h n hty
    simp only [ht, ht']
    have e1 : IsScalarType schema n ↔ ∃ s, t.definition = .scalar s := by
      constructor
      · rintro ⟨x, s, hx, hd⟩
        rw [ht] at hx; injection hx with hx; subst hx
        exact ⟨s, hd⟩
      · rintro ⟨s, hd⟩; exact ⟨t, s, ht, hd⟩
    have e2 : IsScalarType schema' n ↔ ∃ s, t'.definition = .scalar s := by
      constructor
      · rintro ⟨x, s, hx, hd⟩
        rw [ht'] at hx; injection hx with hx; subst hx
        exact ⟨s, hd⟩
      · rintro ⟨s, hd⟩; exact ⟨t', s, ht', hd⟩
    rw [e1, e2] at hiff
    cases hd : t.definition <;> cases hd' : t'.definition <;> simp_all
  | _ => rfl

theorem variableTypes_same (cfg : TsConfig) : ∀ (vars : List Variable),
    (∀ v ∈ vars, ∀ n, v.type = .custom n → (∃ t, schema.getType n = some t) ∧ (∃ t, schema'.getType n = some t) ∧
      (IsScalarType schema n ↔ IsScalarType schema' n)) →
    compileVariableTypes cfg schema vars = compileVariableTypes cfg schema' vars
  | [], _ => rfl
  | v :: rest, h => by
    funext g
    simp only [compileVariableTypes]
    rw [variableTypeName_same cfg (h v (by simp)),
      variableTypes_same cfg rest (fun w hw => h w (by simp [hw]))]

theorem compileIr_same (ω : Hash) (cfg : TsConfig) (op : Operation)
    (h : ∀ vars, op.variables = some vars → compileVariableTypes cfg schema vars = compileVariableTypes cfg schema' vars) :
    compileIr ω op cfg schema = compileIr ω op cfg schema' := by
  have : compileVariablesTypeDefinition ω cfg schema op = compileVariablesTypeDefinition ω cfg schema' op := by
    funext g
    unfold compileVariablesTypeDefinition
    cases ho : op.variables with
    | none => rfl
    | some vars => simp only [h vars ho]
  unfold compileIr
  rw [this]

/-! ### The generated file -/

/-- **C95.** Two definitions of the same name and sort, with the same variables, that ask for the same data
generate the same file: the same text and the same uses of global types.  They may be compiled against different
schemas, with different imported fragments, under different hash orders. -/
theorem C95_same_data_same_text (ω ω' : Hash) (fuel fuel' : Nat) (showDep showDep' : Bool) (cfg : TsConfig)
    (hcon : Consistent schema) (hcon' : Consistent schema') (hfr : FragsValid schema frags)
    (hfr' : FragsValid schema' frags') (d d' : Definition) (op op' : Operation) (ws ws' : List Warning)
    (P P' : String) (hP : rootType d = some P) (hP' : rootType d' = some P')
    (h : Operation.compile ω fuel ⟨schema, showDep, frags⟩ d = some (.ok op, ws))
    (h' : Operation.compile ω' fuel' ⟨schema', showDep', frags'⟩ d' = some (.ok op', ws'))
    (hone : OneTypePerKey schema frags P [itemsOf d]) (hone' : OneTypePerKey schema' frags' P' [itemsOf d'])
    (hhead : SameHead d d') (hv : ((varsOf d).map VarDef.name).Nodup)
    (hkinds : VariableKindsAgree schema schema' d)
    (hsame : AskSame schema schema' frags frags' P [itemsOf d] P' [itemsOf d']) :
    op = op' ∧ compileIr ω op cfg schema = compileIr ω' op' cfg schema' := by
  have hd := C21_properties_listed_once ω fuel showDep hcon hfr d op ws P hP h hone
  have hd' := C21_properties_listed_once ω' fuel' showDep' hcon' hfr' d' op' ws' P' hP' h' hone'
  have ht := C10_generated_tree ω fuel showDep hcon hfr d op ws P hP h
  have ht' := C10_generated_tree ω' fuel' showDep' hcon' hfr' d' op' ws' P' hP' h'
  have hc : op.collection = op'.collection :=
    tree_same _ _ _ le_rfl P P' _ _ ⟨ht, hd⟩ ⟨ht', hd'⟩ hsame
  obtain ⟨_, _, _, hf⟩ := compiled_tree hcon hP h
  obtain ⟨_, _, _, hf'⟩ := compiled_tree hcon' hP' h'
  rw [← hc] at hf'
  have e := finish_same hhead hf hf'
  subst e
  refine ⟨rfl, ?_⟩
  rw [C16_code_generation_deterministic ω ω' op cfg schema (compile_finish_variables hf hv)]
  apply compileIr_same
  intro vars ho
  apply variableTypes_same
  intro v hm n hn
  obtain ⟨w, hw, hb, hnb, ht1⟩ := finish_custom hf ho hm hn
  obtain ⟨_, _, _, _, ht2⟩ := finish_custom hf' ho hm hn
  refine ⟨ht1, ht2, ?_⟩
  rw [hb] at hnb ⊢
  exact hkinds w hw hnb

end Qlc
