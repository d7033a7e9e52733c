import Verif.Lemmas.Loaded
import Verif.Lemmas.EmitDoc
/-
What a server may answer belongs to the tree of alternatives.
-/
set_option autoImplicit false

namespace Qlc
open Spec

variable {doc : JSchema} {schema : Schema} {frags : Frags} {applies : List Directive → Prop}

/-! ### Values -/

theorem admits_sub {base' base : JVal → Prop} : ∀ (a b : VarTy), SubTy doc a b →
    (∀ y, base' y → base y) → ∀ x, Admits base' a x → Admits base b x
  | .named A, .named B, _, hb, x, h => by
    rcases h with h | h
    · exact .inl h
    · exact .inr (hb x h)
  | .list a, .list b, hs, hb, x, h => by
    rcases h with h | ⟨vs, rfl, h⟩
    · exact .inl h
    · exact .inr ⟨vs, rfl, fun y hy => admits_sub a b hs hb y (h y hy)⟩
  | .nonNull a, .nonNull b, hs, hb, x, h => ⟨h.1, admits_sub a b hs hb x h.2⟩
  | .nonNull a, .named B, hs, hb, x, h => admits_sub a _ hs hb x h.2
  | .nonNull a, .list b, hs, hb, x, h => admits_sub a _ hs hb x h.2
  | .named A, .list b, hs, _, _, _ => by simp [SubTy] at hs
  | .named A, .nonNull b, hs, _, _, _ => by simp [SubTy] at hs
  | .list a, .named B, hs, _, _, _ => by simp [SubTy] at hs
  | .list a, .nonNull b, hs, _, _, _ => by simp [SubTy] at hs

theorem subTy_base : ∀ (a b : VarTy), SubTy doc a b →
    baseName a = baseName b ∨ (CompositeNamed doc (baseName a) ∧ CompositeNamed doc (baseName b) ∧
      ∀ T ∈ objectTypes doc (baseName a), T ∈ objectTypes doc (baseName b))
  | .named A, .named B, h => by simpa [SubTy, baseName] using h
  | .list a, .list b, h => subTy_base a b h
  | .nonNull a, .nonNull b, h => subTy_base a b h
  | .nonNull a, .named B, h => subTy_base a _ h
  | .nonNull a, .list b, h => subTy_base a _ h
  | .named A, .list b, hs => by simp [SubTy] at hs
  | .named A, .nonNull b, hs => by simp [SubTy] at hs
  | .list a, .named B, hs => by simp [SubTy] at hs
  | .list a, .nonNull b, hs => by simp [SubTy] at hs

theorem modSem_mono {m : Mod} {P Q : JVal → Prop} (h : ∀ v, P v → Q v) : ∀ v, modSem m P v → modSem m Q v := by
  have : ∀ (t : TsTy) (v : JVal), TsAdmits (fun _ => P) t v → TsAdmits (fun _ => Q) t v := by
    intro t
    induction t with
    | ref n => exact h
    | lit s => exact fun v hv => hv
    | null => exact fun v hv => hv
    | arr t ih => rintro v ⟨vs, e, h'⟩; exact ⟨vs, e, fun x hx => ih x (h' x hx)⟩
    | union a b iha ihb => rintro v (h' | h'); exacts [.inl (iha v h'), .inr (ihb v h')]
  intro v hv
  have e1 : TsAdmits (fun _ => P) (.ref "") = P := rfl
  have e2 : TsAdmits (fun _ => Q) (.ref "") = Q := rfl
  rw [← e1] at hv
  rw [← e2]
  rw [← tsAdmits_wrapMod] at hv ⊢
  exact this _ v hv

theorem modsSem_mono : ∀ (ms : List Mod) {P Q : JVal → Prop}, (∀ v, P v → Q v) →
    ∀ v, modsSem ms P v → modsSem ms Q v
  | [], _, _, h, v, hv => h v hv
  | _ :: ms, _, _, h, v, hv => modsSem_mono ms (modSem_mono h) v hv

/-- The values of a type are admitted by its modifiers around anything that admits the values of its named
type. -/
theorem admits_mods {base base' : JVal → Prop} {t : VarTy} (hw : WellFormed t)
    (hbad : hasNonNullListInNullableList false t = false) (hnn : ¬ base .null)
    (hb : ∀ v, base v → base' v) {x : JVal} (h : Admits base t x) :
    modsSem (builderMods ModBuilder.new t) base' x := by
  refine modsSem_mono _ hb x ?_
  have := builder_sound hnn t .nullable [] ⟨hw, by simp [holeNullable]⟩ (by rw [(badFrom_iff t hw).1]; exact hbad)
  show modsSem (builderMods ⟨.nullable, []⟩ t) base x
  rw [this]
  simpa [modsSem, outer, holeSem, holeNullable] using h

theorem fieldValue_mods (R : List Complex → JVal → Prop) (cfg : TsConfig) (env : String → JVal → Prop)
    (T : String) (fld : IRField) (x : JVal) :
    FieldValue R cfg env T fld x ↔ modsSem (fld.last :: fld.rest) (TypeValue R cfg env T fld.type) x := by
  unfold FieldValue
  rw [tsAdmits_wrapMods]
  rfl

/-! ### Collected fields -/

/-- A collected field as GraphQL's execution sees it. -/
def Spec.Contribution.wanted (c : Contribution) : Wanted := ⟨c.key, c.field.name, c.items⟩

theorem loaded_field_name (hv : ValidDoc doc) (hs : Schema.ofJson doc = .ok schema) {P name : String}
    {f : SField} (hf : fieldOf schema P name = some f) : f.name = name := by
  rcases loaded_field hs hv.reserved hf with ⟨rfl, rfl⟩ | ⟨_, j, hl, hj⟩
  · rfl
  · obtain ⟨_, _, _, _, _, _, h, _⟩ := loaded_declared hv hl hj
    exact h

theorem unconditional_cons {s : Selection} {rest : List Selection}
    (h : Unconditional applies (s :: rest)) :
    (∀ dirs ∈ directivesSel s, applies dirs) ∧ Unconditional applies rest := by
  unfold Unconditional at h ⊢
  rw [directivesOf] at h
  exact ⟨fun d hd => h d (List.mem_append_left _ hd), fun d hd => h d (List.mem_append_right _ hd)⟩

/-- Field collection by static types and by GraphQL's execution agree. -/
theorem coll_collect (hv : ValidDoc doc) (hs : Schema.ofJson doc = .ok schema)
    (hfr : FragsApply applies frags) {T P : String} {items : List Selection} {L : List Contribution}
    (h : Coll schema frags T P items L) : Unconditional applies items → ∀ W,
    Collect doc frags applies T items W → W = L.map Contribution.wanted := by
  induction h with
  | nil => intro _ W hW; cases hW; rfl
  | @field P pos al name args dirs items rest f L hf _ ih =>
    intro hu W hW
    obtain ⟨hd, hu⟩ := unconditional_cons hu
    rw [directivesSel] at hd
    have ha := hd dirs (by simp)
    cases hW with
    | leftOutField hn _ => exact absurd ha hn
    | field _ h2 =>
      rw [ih hu _ h2]
      simp [Contribution.wanted, loaded_field_name hv hs hf]
  | @inlineIn P C pos dirs items rest L₁ L hT _ _ ih1 ih2 =>
    intro hu W hW
    obtain ⟨hd, hu⟩ := unconditional_cons hu
    rw [directivesSel] at hd
    have ha := hd dirs (by simp)
    have hi : Unconditional applies items := fun d hm => hd d (by simp [hm])
    rw [loaded_possible hs] at hT
    cases hW with
    | leftOutInline hn _ => exact absurd ha hn
    | inline _ _ h3 h4 => rw [ih1 hi _ h3, ih2 hu _ h4, List.map_append]
    | otherInline _ hn _ => exact absurd hT hn
  | @inlineOut P C pos dirs items rest L hT _ ih =>
    intro hu W hW
    obtain ⟨hd, hu⟩ := unconditional_cons hu
    rw [directivesSel] at hd
    have ha := hd dirs (by simp)
    rw [loaded_possible hs] at hT
    cases hW with
    | leftOutInline hn _ => exact absurd ha hn
    | inline _ h2 _ _ => exact absurd (h2 C rfl) hT
    | otherInline _ _ h3 => exact ih hu _ h3
  | @spreadIn P pos name dirs fd rest L₁ L hg hT _ _ ih1 ih2 =>
    intro hu W hW
    obtain ⟨hd, hu⟩ := unconditional_cons hu
    rw [directivesSel] at hd
    have ha := hd dirs (by simp)
    rw [loaded_possible hs] at hT
    cases hW with
    | leftOutSpread hn _ => exact absurd ha hn
    | spread _ hg' _ h3 h4 =>
      rw [hg] at hg'; injection hg' with e; subst e
      rw [ih1 (hfr _ _ hg) _ h3, ih2 hu _ h4, List.map_append]
    | otherSpread _ hg' hn _ =>
      rw [hg] at hg'; injection hg' with e; subst e
      exact absurd hT hn
  | @spreadOut P pos name dirs fd rest L hg hT _ ih =>
    intro hu W hW
    obtain ⟨hd, hu⟩ := unconditional_cons hu
    rw [directivesSel] at hd
    have ha := hd dirs (by simp)
    rw [loaded_possible hs] at hT
    cases hW with
    | leftOutSpread hn _ => exact absurd ha hn
    | spread _ hg' hT' _ _ =>
      rw [hg] at hg'; injection hg' with e; subst e
      exact absurd hT' hT
    | otherSpread _ _ _ h3 => exact ih hu _ h3

/-- Where a collected field comes from: a field of a static type for which `T` is possible. -/
theorem coll_origin (hv : ValidDoc doc) (hs : Schema.ofJson doc = .ok schema)
    (hfr : FragsApply applies frags) {T P : String} {items : List Selection} {L : List Contribution}
    (h : Coll schema frags T P items L) : T ∈ objectTypes doc P → Unconditional applies items →
    ∀ c ∈ L, Unconditional applies c.items ∧
      ∃ P₀, T ∈ objectTypes doc P₀ ∧ fieldOf schema P₀ c.field.name = some c.field := by
  induction h with
  | nil => intro _ _ c hc; simp at hc
  | @field P pos al name args dirs items rest f L hf _ ih =>
    intro hT hu c hc
    obtain ⟨hd, hu⟩ := unconditional_cons hu
    rw [directivesSel] at hd
    rcases List.mem_cons.1 hc with rfl | hc
    · refine ⟨fun d hm => hd d (by simp [hm]), P, hT, ?_⟩
      simp only [loaded_field_name hv hs hf]
      exact hf
    · exact ih hT hu c hc
  | @inlineIn P C pos dirs items rest L₁ L hC _ _ ih1 ih2 =>
    intro hT hu c hc
    obtain ⟨hd, hu⟩ := unconditional_cons hu
    rw [directivesSel] at hd
    rw [loaded_possible hs] at hC
    rcases List.mem_append.1 hc with hc | hc
    · exact ih1 hC (fun d hm => hd d (by simp [hm])) c hc
    · exact ih2 hT hu c hc
  | inlineOut _ _ ih => intro hT hu; exact ih hT (unconditional_cons hu).2
  | @spreadIn P pos name dirs fd rest L₁ L hg hC _ _ ih1 ih2 =>
    intro hT hu c hc
    rw [loaded_possible hs] at hC
    rcases List.mem_append.1 hc with hc | hc
    · exact ih1 hC (hfr _ _ hg) c hc
    · exact ih2 hT (unconditional_cons hu).2 c hc
  | spreadOut _ _ _ ih => intro hT hu; exact ih hT (unconditional_cons hu).2

theorem collMany_collect (hv : ValidDoc doc) (hs : Schema.ofJson doc = .ok schema)
    (hfr : FragsApply applies frags) {T P : String} {sets : List (List Selection)}
    {L : List Contribution} (h : CollMany schema frags T P sets L)
    (hu : ∀ s ∈ sets, Unconditional applies s) {W : List Wanted}
    (hW : CollectMany doc frags applies T sets W) : W = L.map Contribution.wanted := by
  obtain ⟨Ls, h1, rfl⟩ := h
  obtain ⟨Ws, h2, rfl⟩ := hW
  have key : ∀ {sets : List (List Selection)} {Ls : List (List Contribution)} {Ws : List (List Wanted)},
      (∀ s ∈ sets, Unconditional applies s) → List.Forall₂ (Coll schema frags T P) sets Ls →
      List.Forall₂ (Collect doc frags applies T) sets Ws → Ws = Ls.map (List.map Contribution.wanted) := by
    intro sets Ls Ws hu h1
    induction h1 generalizing Ws with
    | nil => intro h2; cases h2; rfl
    | cons a _ ih =>
      intro h2
      cases h2 with
      | cons b h2 =>
        rw [coll_collect hv hs hfr a (hu _ (by simp)) _ b, ih (fun s hs => hu s (by simp [hs])) h2]
        rfl
  rw [key hu h1 h2, List.map_flatten]

theorem collMany_origin (hv : ValidDoc doc) (hs : Schema.ofJson doc = .ok schema)
    (hfr : FragsApply applies frags) {T P : String} {sets : List (List Selection)}
    {L : List Contribution} (h : CollMany schema frags T P sets L) (hT : T ∈ objectTypes doc P)
    (hu : ∀ s ∈ sets, Unconditional applies s) :
    ∀ c ∈ L, Unconditional applies c.items ∧
      ∃ P₀, T ∈ objectTypes doc P₀ ∧ fieldOf schema P₀ c.field.name = some c.field := by
  obtain ⟨Ls, h1, rfl⟩ := h
  intro c hc
  obtain ⟨L, hL, hc⟩ := List.mem_flatten.1 hc
  obtain ⟨s, hs', h⟩ := forall₂_mem h1 L hL
  exact coll_origin hv hs hfr h hT (hu s hs') c hc

/-! ### Answers belong to the tree -/

/-- What the code generator prints for a leaf admits its values. -/
theorem leaf_value {cfg : TsConfig} {scalars env : String → JVal → Prop} (he : EnvFor cfg doc scalars env)
    {k n : String} (hk : k = "SCALAR" ∨ k = "ENUM") (hn : kindNamed doc n = some k) {v : JVal}
    (h : LeafValue doc scalars k n v) :
    (k = "SCALAR" ∧ env (scalarFlat cfg (ScalarType.ofName n)).text v) ∨ (k = "ENUM" ∧ env n v) := by
  unfold LeafValue at h
  rcases hk with rfl | rfl
  · left
    refine ⟨rfl, ?_⟩
    rw [if_neg (by decide)] at h
    unfold ScalarType.ofName
    by_cases h1 : n = "Boolean"
    · subst h1
      rw [if_neg (by decide), if_neg (by decide), if_pos rfl] at h
      obtain ⟨b, rfl⟩ := h
      exact he.boolean b
    by_cases h2 : n = "String"
    · subst h2
      rw [if_neg (by decide), if_pos (by decide)] at h
      obtain ⟨b, rfl⟩ := h
      exact he.string b
    by_cases h3 : n = "Float"
    · subst h3
      rw [if_pos (by decide)] at h
      obtain ⟨b, rfl⟩ := h
      exact he.number b
    by_cases h4 : n = "Int"
    · subst h4
      rw [if_pos (by decide)] at h
      obtain ⟨b, rfl⟩ := h
      exact he.number b
    by_cases h5 : n = "ID"
    · subst h5
      rw [if_neg (by decide), if_pos (by decide)] at h
      obtain ⟨b, rfl⟩ := h
      exact he.string b
    rw [if_neg (by simp [h3, h4]), if_neg (by simp [h2, h5]), if_neg h1] at h
    rw [if_neg h1, if_neg h2, if_neg h3, if_neg h4, if_neg h5]
    have hc := he.custom n v hn h.1
    unfold scalarFlat
    cases hb : cfg.bottomTypeConfig with
    | defaultBottomType => exact he.any v
    | realName => rw [hb] at hc; exact hc
    | realNameWithPrefix p => rw [hb] at hc; exact hc
  · right
    refine ⟨rfl, ?_⟩
    rw [if_pos rfl] at h
    obtain ⟨j, vs, s, h1, h2, h3, rfl⟩ := h
    refine he.enum n j vs h1 ?_ h2 s h3
    unfold kindNamed at hn
    rw [h1] at hn
    simpa using hn

theorem leafValue_ne_null {scalars : String → JVal → Prop} {k n : String}
    (h : LeafValue doc scalars k n .null) : False := by
  unfold LeafValue at h
  repeat' split at h
  all_goals simp at h

theorem answer_ne_null {scalars : String → JVal → Prop} {k : Nat} {T : String}
    {sets : List (List Selection)} (h : AnswersTo doc frags applies scalars k T sets .null) : False := by
  cases k with
  | zero => obtain ⟨fs, e⟩ := h; exact JVal.noConfusion e
  | succ k => obtain ⟨L, _, fs, e, _⟩ := h; exact JVal.noConfusion e

theorem typeDef_typeName {f : SField} (hv : ValidDoc doc) (hs : Schema.ofJson doc = .ok schema)
    {P name : String} (hf : fieldOf schema P name = some f) (h : name = "__typename") :
    f = SField.newTypeName := by
  rcases loaded_field hs hv.reserved hf with ⟨_, e⟩ | ⟨hn, _⟩
  · exact e
  · exact absurd h hn

/-- **The server's answers belong to the tree.** -/
theorem answers_tree (hv : ValidDoc doc) (hs : Schema.ofJson doc = .ok schema)
    (hbad : NoNonNullListInNullableList doc) (hfr : FragsApply applies frags) {cfg : TsConfig}
    {scalars env : String → JVal → Prop} (he : EnvFor cfg doc scalars env) (k : Nat) :
    ∀ (P : String) (sets : List (List Selection)) (ps : List Complex),
    TreeIs schema (CollMany schema frags) k P sets ps → DistinctPoss ps →
    (∀ s ∈ sets, Unconditional applies s) → ∀ T ∈ objectTypes doc P, ∀ v,
    AnswersTo doc frags applies scalars k T sets v → TreeAdmits cfg env k ps v := by
  induction k with
  | zero => intro P sets ps _ _ _ T _ v h; exact h
  | succ k ih =>
    intro P sets ps ht hd hu T hT v h
    obtain ⟨_, hcov, hall⟩ := ht
    rw [← loaded_possible hs] at hT
    obtain ⟨⟨T', fields⟩, hm, e⟩ := List.mem_map.1 ((hcov T).2 hT)
    have e : T' = T := e
    subst e
    obtain ⟨L, hL, hF⟩ := hall T' fields hm
    rw [loaded_possible hs] at hT
    obtain ⟨W, hW, fs, rfl, hnd, hkeys, hvals⟩ := h
    have hWL := collMany_collect hv hs hfr hL hu hW
    have horig := collMany_origin hv hs hfr hL hT hu
    refine ⟨T', fields, hm, fs, rfl, hnd, ?_, ?_⟩
    · intro key
      rw [hkeys, keys_iff hF, hWL]
      simp [Contribution.wanted]
    · intro fld hfld
      have hdn := (mem_distinctPoss hd hm)
      obtain ⟨c, rest, e, h1, _, _, h4, h5, h6⟩ := fieldIs_merged hF hdn.1 hfld
      have hcmem : c ∈ L.filter (fun c => decide (c.key = fld.propName)) := by rw [e]; simp
      have hcL := (List.mem_filter.1 hcmem).1
      have hwm : c.wanted ∈ W := by rw [hWL]; exact List.mem_map.2 ⟨c, hcL, rfl⟩
      obtain ⟨x, hx, r, rest', e', hval⟩ := hvals _ hwm
      have hck : c.wanted.key = fld.propName := h1.symm
      refine ⟨x, by rw [← hck]; exact hx, ?_⟩
      have e'' : W.filter (fun w => decide (w.key = c.wanted.key)) = (c :: rest).map Contribution.wanted := by
        rw [hWL, List.filter_map, ← e, hck]
        rfl
      rw [e''] at e'
      injection e' with e1 e2
      subst e1
      rw [fieldValue_mods]
      obtain ⟨_, P₀, hT₀, hf₀⟩ := horig c hcL
      rcases hval with ⟨hn, rfl⟩ | ⟨hn, kind, t, hft, hadm⟩
      · have ef := typeDef_typeName hv hs hf₀ hn
        rw [h4, h5, ef]
        show modSem .none _ _
        have hty : fld.type = .typeName := by
          have hdef : c.field.type.definition = .typeName := by rw [ef]; rfl
          cases hty : fld.type with
          | complex sub => rw [hty] at h6; have := h6.1; rw [hdef] at this; simp [FieldTypeDef.isComplex] at this
          | enum n => rw [hty] at h6; have := h6.1; rw [hdef] at this; simp at this
          | scalar s => rw [hty] at h6; have h6 : _ = _ := h6; rw [hdef] at h6; simp at h6
          | typeName => rfl
        rw [hty]
        rfl
      · rcases loaded_field hs hv.reserved hf₀ with ⟨hn', _⟩ | ⟨_, j, hl, hj⟩
        · exact absurd hn' hn
        · obtain ⟨k₀, t₀, g1, g2, g3, g4, _, g6, g7, g8⟩ := loaded_declared hv hl hj
          obtain ⟨k', t', g9, g10⟩ := hv.covariant P₀ T' hT₀ _ _ _ g1
          have g9' : fieldType doc T' c.wanted.name = some (k', t') := g9
          rw [hft] at g9'
          injection g9' with g9'
          injection g9' with ek et
          subst ek; subst et
          rw [h4, h5, g8]
          -- the kind of the field on the object type
          have hkT : kindNamed doc (baseName t) = some kind := by
            unfold fieldType at hft
            cases hl' : lastNamed JField.name c.wanted.name (declaredFields doc T') with
            | none => rw [hl'] at hft; simp at hft
            | some j' =>
              rw [hl'] at hft
              obtain ⟨k2, t2, q1, _, _, q4⟩ := hv.refs T' j' (lastNamed_name hl').1
              simp only [Option.bind_some] at hft
              rw [q1] at hft
              injection hft with hft
              injection hft with a b
              subst a; subst b
              exact q4
          refine admits_mods g2 (hbad _ _ _ _ g1) (base := fun y => if CompositeKind kind then
            ∃ T'' ∈ objectTypes doc (baseName t), AnswersTo doc frags applies scalars k T''
              ((c.wanted :: rest').map Wanted.items) y
            else LeafValue doc scalars kind (baseName t) y) ?_ ?_ (admits_sub _ _ g10 (fun y hy => hy) x hadm)
          · split
            · rintro ⟨_, _, h⟩; exact answer_ne_null h
            · exact leafValue_ne_null
          · intro y hy
            rcases def_of_kind g3 g7 with ⟨hc1, hc2, hc3⟩ | hleaf
            · -- composite
              have hck' : CompositeKind kind := by
                rcases subTy_base _ _ g10 with eb | ⟨⟨kk, hkk, hkk'⟩, _⟩
                · rw [eb, g4] at hkT; injection hkT with hkT; rw [← hkT]; exact hc1
                · rw [hkT] at hkk; injection hkk with hkk; rw [hkk]; exact hkk'
              rw [if_pos hck'] at hy
              obtain ⟨T'', hT'', hans⟩ := hy
              have hT3 : T'' ∈ objectTypes doc c.field.type.name := by
                rw [g6]
                rcases subTy_base _ _ g10 with eb | ⟨_, _, hsub⟩
                · rw [← eb]; exact hT''
                · exact hsub _ hT''
              cases hty : fld.type with
              | complex sub =>
                rw [hty] at h6
                refine ih c.field.type.name _ sub h6.2 ?_ ?_ T'' hT3 y ?_
                · have := mem_distinctFields hdn.2 hfld
                  rw [hty] at this
                  exact this
                · intro s hs'
                  obtain ⟨c', hc', rfl⟩ := List.mem_map.1 hs'
                  exact (horig c' (List.mem_filter.1 hc').1).1
                · rw [← e2] at hans
                  rw [e]
                  simpa [Contribution.wanted, Function.comp_def] using hans
              | enum n =>
                rw [hty] at h6
                have := h6.1
                rw [this] at hc2; simp [FieldTypeDef.isComplex] at hc2
              | scalar s =>
                rw [hty] at h6
                have h6 : _ = _ := h6
                rw [h6] at hc2; simp [FieldTypeDef.isComplex] at hc2
              | typeName =>
                rw [hty] at h6
                have h6 : _ = _ := h6
                rw [h6] at hc2; simp [FieldTypeDef.isComplex] at hc2
            · -- leaf
              have hk0 : k₀ = "SCALAR" ∨ k₀ = "ENUM" := by
                rcases hleaf with h | h
                · exact .inl h.1
                · exact .inr h.1
              have hnc : ¬ CompositeKind k₀ := by
                rcases hk0 with rfl | rfl <;> simp [CompositeKind]
              have eb : baseName t = baseName t₀ := by
                rcases subTy_base _ _ g10 with eb | ⟨_, ⟨kk, hkk, hkk'⟩, _⟩
                · exact eb
                · rw [g4] at hkk; injection hkk with hkk; rw [← hkk] at hkk'; exact absurd hkk' hnc
              have ekk : kind = k₀ := by
                rw [eb, g4] at hkT; injection hkT with hkT; exact hkT.symm
              subst ekk
              rw [if_neg hnc, eb] at hy
              rcases leaf_value he hk0 g4 hy with ⟨hk1, hval⟩ | ⟨hk1, hval⟩
              · rcases hleaf with ⟨_, hdef⟩ | ⟨hk2, _⟩
                · cases hty : fld.type with
                  | complex sub => rw [hty] at h6; have := h6.1; rw [hdef] at this; simp [FieldTypeDef.isComplex] at this
                  | enum n => rw [hty] at h6; have := h6.1; rw [hdef] at this; simp at this
                  | scalar s =>
                    rw [hty] at h6; have h6 : _ = _ := h6; rw [hdef] at h6
                    injection h6 with h6
                    subst h6
                    exact hval
                  | typeName => rw [hty] at h6; have h6 : _ = _ := h6; rw [hdef] at h6; simp at h6
                · rw [hk1] at hk2; simp at hk2
              · rcases hleaf with ⟨hk2, _⟩ | ⟨_, hdef⟩
                · rw [hk1] at hk2; simp at hk2
                · cases hty : fld.type with
                  | complex sub => rw [hty] at h6; have := h6.1; rw [hdef] at this; simp [FieldTypeDef.isComplex] at this
                  | enum n =>
                    rw [hty] at h6
                    rw [h6.2, g6]
                    exact hval
                  | scalar s => rw [hty] at h6; have h6 : _ = _ := h6; rw [hdef] at h6; simp at h6
                  | typeName => rw [hty] at h6; have h6 : _ = _ := h6; rw [hdef] at h6; simp at h6

end Qlc
