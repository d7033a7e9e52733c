import Verif.Spec.Exact
import Verif.Lemmas.Response
import Verif.Props.Alike
/-
The tree of alternatives admits nothing but what a server may answer.
-/
set_option autoImplicit false

namespace Qlc
open Spec

variable {doc : JSchema} {schema : Schema} {frags : Frags} {applies : List Directive → Prop}

theorem mods_admits {base base' : JVal → Prop} {t : VarTy} (hw : WellFormed t)
    (hbad : hasNonNullListInNullableList false t = false) (hnn : ¬ base .null)
    (hb : ∀ v, base' v → base v) {x : JVal} (h : modsSem (builderMods ModBuilder.new t) base' x) :
    Admits base t x := by
  have h := modsSem_mono _ hb x h
  have hbs := builder_sound hnn t .nullable [] ⟨hw, by simp [holeNullable]⟩ (by rw [(badFrom_iff t hw).1]; exact hbad)
  have h : modsSem (builderMods ⟨.nullable, []⟩ t) base x := h
  rw [hbs] at h
  simpa [modsSem, outer, holeSem, holeNullable] using h

theorem admits_mono {base base' : JVal → Prop} (hb : ∀ v, base v → base' v) : ∀ (t : VarTy) (x : JVal),
    Admits base t x → Admits base' t x
  | .named _, x, h => by
    rcases h with h | h
    · exact .inl h
    · exact .inr (hb x h)
  | .list t, x, h => by
    rcases h with h | ⟨vs, rfl, h⟩
    · exact .inl h
    · exact .inr ⟨vs, rfl, fun y hy => admits_mono hb t y (h y hy)⟩
  | .nonNull t, x, h => ⟨h.1, admits_mono hb t x h.2⟩

/-- What is collected by static types is what GraphQL's execution collects. -/
theorem collect_of_coll (hv : ValidDoc doc) (hs : Schema.ofJson doc = .ok schema)
    (hfr : FragsApply applies frags) {T P : String} {items : List Selection} {L : List Contribution}
    (h : Coll schema frags T P items L) : T ∈ objectTypes doc P → Unconditional applies items →
    Collect doc frags applies T items (L.map Contribution.wanted) := by
  induction h with
  | nil => intro _ _; exact .nil
  | @field P pos al name args dirs items rest f L hf _ ih =>
    intro hT hu
    obtain ⟨hd, hu⟩ := unconditional_cons hu
    rw [directivesSel] at hd
    have := Collect.field (pos := pos) (al := al) (name := name) (args := args) (items := items)
      (hd dirs (by simp)) (ih hT hu)
    simpa [Contribution.wanted, loaded_field_name hv hs hf] using this
  | @inlineIn P C pos dirs items rest L₁ L hC _ _ ih1 ih2 =>
    intro hT hu
    obtain ⟨hd, hu⟩ := unconditional_cons hu
    rw [directivesSel] at hd
    rw [loaded_possible hs] at hC
    rw [List.map_append]
    refine .inline (hd dirs (by simp)) ?_ (ih1 hC (fun d hm => hd d (by simp [hm]))) (ih2 hT hu)
    intro C' e
    cases e
    exact hC
  | @inlineOut P C pos dirs items rest L hC _ ih =>
    intro hT hu
    obtain ⟨hd, hu⟩ := unconditional_cons hu
    rw [directivesSel] at hd
    rw [loaded_possible hs] at hC
    exact .otherInline (hd dirs (by simp)) hC (ih hT hu)
  | @spreadIn P pos name dirs fd rest L₁ L hg hC _ _ ih1 ih2 =>
    intro hT hu
    obtain ⟨hd, hu⟩ := unconditional_cons hu
    rw [directivesSel] at hd
    rw [loaded_possible hs] at hC
    rw [List.map_append]
    exact .spread (hd dirs (by simp)) hg hC (ih1 hC (hfr _ _ hg)) (ih2 hT hu)
  | @spreadOut P pos name dirs fd rest L hg hC _ ih =>
    intro hT hu
    obtain ⟨hd, hu⟩ := unconditional_cons hu
    rw [directivesSel] at hd
    rw [loaded_possible hs] at hC
    exact .otherSpread (hd dirs (by simp)) hg hC (ih hT hu)

theorem collectMany_of_collMany (hv : ValidDoc doc) (hs : Schema.ofJson doc = .ok schema)
    (hfr : FragsApply applies frags) {T P : String} {sets : List (List Selection)}
    {L : List Contribution} (h : CollMany schema frags T P sets L) (hT : T ∈ objectTypes doc P)
    (hu : ∀ s ∈ sets, Unconditional applies s) :
    CollectMany doc frags applies T sets (L.map Contribution.wanted) := by
  obtain ⟨Ls, h1, rfl⟩ := h
  refine ⟨Ls.map (List.map Contribution.wanted), ?_, List.map_flatten⟩
  induction h1 with
  | nil => exact .nil
  | cons a _ ih =>
    exact .cons (collect_of_coll hv hs hfr a hT (hu _ (by simp))) (ih (fun s hs => hu s (by simp [hs])))

/-! ### Depths -/

theorem valueFor_mono {R R' : String → List (List Selection) → JVal → Prop} {scalars : String → JVal → Prop}
    (h : ∀ T sets v, R T sets v → R' T sets v) {T : String} {r : Wanted} {rest : List Wanted} {x : JVal}
    (hx : ValueFor R doc scalars T r rest x) : ValueFor R' doc scalars T r rest x := by
  rcases hx with hx | ⟨hn, kind, t, hf, ha⟩
  · exact .inl hx
  · refine .inr ⟨hn, kind, t, hf, admits_mono ?_ t x ha⟩
    intro v hv
    split at hv
    · obtain ⟨T', hT', hv⟩ := hv
      rw [if_pos (by assumption)]
      exact ⟨T', hT', h _ _ _ hv⟩
    · rw [if_neg (by assumption)]
      exact hv

/-- An answer down to some depth is one down to every smaller depth. -/
theorem answers_pred {scalars : String → JVal → Prop} (k : Nat) : ∀ (T : String) (sets : List (List Selection)) (v : JVal),
    AnswersTo doc frags applies scalars (k + 1) T sets v → AnswersTo doc frags applies scalars k T sets v := by
  induction k with
  | zero =>
    rintro T sets v ⟨L, _, fs, e, _⟩
    exact ⟨fs, e⟩
  | succ k ih =>
    rintro T sets v ⟨L, hL, fs, e, h1, h2, h3⟩
    refine ⟨L, hL, fs, e, h1, h2, ?_⟩
    intro w hw
    obtain ⟨x, hx, r, rest, hr, hval⟩ := h3 w hw
    exact ⟨x, hx, r, rest, hr, valueFor_mono ih hval⟩

theorem answers_le {scalars : String → JVal → Prop} {k n : Nat} (h : k ≤ n) {T : String}
    {sets : List (List Selection)} {v : JVal} (hv : AnswersTo doc frags applies scalars n T sets v) :
    AnswersTo doc frags applies scalars k T sets v := by
  induction h with
  | refl => exact hv
  | step _ ih => exact ih (answers_pred _ _ _ _ hv)

/-- If one of finitely many candidates will do for every depth, one will do for all depths. -/
theorem one_for_all {p : Nat → String → Prop} (hp : ∀ k n T, k ≤ n → p n T → p k T) : ∀ l : List String,
    (∀ k, ∃ T ∈ l, p k T) → ∃ T ∈ l, ∀ k, p k T
  | [], h => by obtain ⟨T, hT, _⟩ := h 0; simp at hT
  | T :: l, h => by
    by_cases hT : ∀ k, p k T
    · exact ⟨T, by simp, hT⟩
    · obtain ⟨k, hk⟩ := not_forall.1 hT
      obtain ⟨T', hT', h'⟩ := one_for_all hp l (by
        intro n
        obtain ⟨U, hU, hpU⟩ := h (max k n)
        rcases List.mem_cons.1 hU with rfl | hU
        · exact absurd (hp _ _ _ (Nat.le_max_left k n) hpU) hk
        · exact ⟨U, hU, hp _ _ _ (Nat.le_max_right k n) hpU⟩)
      exact ⟨T', by simp [hT'], h'⟩

/-! ### The tree admits answers only -/

theorem scalarFlat_spelling (cfg : TsConfig) (n : String) :
    (scalarFlat cfg (ScalarType.ofName n)).text = scalarSpelling cfg n := by
  unfold scalarSpelling ScalarType.ofName
  repeat' split
  all_goals simp_all [scalarFlat, Flat.text]

/-- **What the tree admits is an answer.** -/
theorem tree_answers (hv : ValidDoc doc) (hs : Schema.ofJson doc = .ok schema)
    (hbad : NoNonNullListInNullableList doc) (hnn : NoNarrowing doc) (hfr : FragsApply applies frags)
    {cfg : TsConfig} {scalars env : String → JVal → Prop} (ht : TightScalars cfg doc scalars env)
    (hte : ∀ n v, kindNamed doc n = some "ENUM" → env n v → LeafValue doc scalars "ENUM" n v) (k : Nat) :
    ∀ (P : String) (sets : List (List Selection)) (ps : List Complex),
    TreeIs schema (CollMany schema frags) (k + 1) P sets ps → DistinctPoss ps →
    (∀ s ∈ sets, Unconditional applies s) → ∀ v, TreeAdmits cfg env (k + 1) ps v →
    ∃ T ∈ objectTypes doc P, AnswersTo doc frags applies scalars k T sets v := by
  induction k with
  | zero =>
    rintro P sets ps ⟨_, hcov, _⟩ _ _ v ⟨T, fields, hm, fs, e, _⟩
    refine ⟨T, ?_, fs, e⟩
    rw [← loaded_possible hs]
    exact (hcov T).1 (List.mem_map.2 ⟨_, hm, rfl⟩)
  | succ k ih =>
    rintro P sets ps ⟨_, hcov, hall⟩ hd hu v ⟨T, fields, hm, fs, rfl, hnd, hkeys, hvals⟩
    have hT : T ∈ objectTypes doc P := by
      rw [← loaded_possible hs]
      exact (hcov T).1 (List.mem_map.2 ⟨_, hm, rfl⟩)
    obtain ⟨L, hL, hF⟩ := hall T fields hm
    have hW := collectMany_of_collMany hv hs hfr hL hT hu
    have horig := collMany_origin hv hs hfr hL hT hu
    have hdn := mem_distinctPoss hd hm
    refine ⟨T, hT, _, hW, fs, rfl, hnd, ?_, ?_⟩
    · intro key
      rw [hkeys, keys_iff hF]
      simp [Contribution.wanted]
    · intro w hw
      obtain ⟨c₀, hc₀, rfl⟩ := List.mem_map.1 hw
      obtain ⟨fld, hfld, hk₀⟩ := List.mem_map.1 ((keys_iff hF c₀.key).2 ⟨c₀, hc₀, rfl⟩)
      obtain ⟨x, hx, hval⟩ := hvals fld hfld
      obtain ⟨c, rest, e, h1, _, _, h4, h5, h6⟩ := fieldIs_merged hF hdn.1 hfld
      have hcmem : c ∈ L.filter (fun c => decide (c.key = fld.propName)) := by rw [e]; simp
      have hcL := (List.mem_filter.1 hcmem).1
      have hkey : c₀.wanted.key = fld.propName := hk₀.symm
      refine ⟨x, by rw [hkey]; exact hx, c.wanted, rest.map Contribution.wanted, ?_, ?_⟩
      · rw [List.filter_map, hkey]
        exact congrArg (List.map Contribution.wanted) e
      obtain ⟨_, P₀, hT₀, hf₀⟩ := horig c hcL
      rw [fieldValue_mods, h4, h5] at hval
      rcases loaded_field hs hv.reserved hf₀ with ⟨hn, ef⟩ | ⟨hn, j, hl, hj⟩
      · left
        refine ⟨hn, ?_⟩
        have hdef : c.field.type.definition = .typeName := by rw [ef]; rfl
        have hty : fld.type = .typeName := by
          cases hty : fld.type with
          | complex sub => rw [hty] at h6; have := h6.1; rw [hdef] at this; simp [FieldTypeDef.isComplex] at this
          | enum n => rw [hty] at h6; have := h6.1; rw [hdef] at this; simp at this
          | scalar s => rw [hty] at h6; have h6 : _ = _ := h6; rw [hdef] at h6; simp at h6
          | typeName => rfl
        rw [ef, hty] at hval
        exact hval
      · right
        refine ⟨hn, ?_⟩
        obtain ⟨k₀, t₀, g1, g2, g3, g4, _, g6, g7, g8⟩ := loaded_declared hv hl hj
        refine ⟨k₀, t₀, hnn P₀ T hT₀ _ _ _ g1, ?_⟩
        rw [g8] at hval
        refine mods_admits g2 (hbad _ _ _ _ g1) ?_ ?_ hval
        · split
          · rintro ⟨_, _, h⟩; exact answer_ne_null h
          · exact leafValue_ne_null
        · intro y hy
          rcases def_of_kind g3 g7 with ⟨hc1, hc2, hc3⟩ | hleaf
          · rw [if_pos hc1]
            cases hty : fld.type with
            | complex sub =>
              rw [hty] at h6 hy
              have hds := mem_distinctFields hdn.2 hfld
              rw [hty] at hds
              obtain ⟨T', hT', hans⟩ := ih c.field.type.name _ sub h6.2 hds (by
                intro s hs'
                obtain ⟨c', hc', rfl⟩ := List.mem_map.1 hs'
                exact (horig c' (List.mem_filter.1 hc').1).1) y hy
              rw [g6] at hT'
              refine ⟨T', hT', ?_⟩
              rw [e] at hans
              simpa [Contribution.wanted, Function.comp_def] using hans
            | enum n =>
              rw [hty] at h6
              have := h6.1
              rw [this] at hc2; simp [FieldTypeDef.isComplex] at hc2
            | scalar s =>
              rw [hty] at h6
              have h6 : _ = _ := h6
              rw [h6] at hc2; simp [FieldTypeDef.isComplex] at hc2
            | typeName =>
              rw [hty] at h6
              have h6 : _ = _ := h6
              rw [h6] at hc2; simp [FieldTypeDef.isComplex] at hc2
          · rcases hleaf with ⟨rfl, hdef⟩ | ⟨rfl, hdef⟩
            · rw [if_neg (by simp [CompositeKind])]
              cases hty : fld.type with
              | complex sub => rw [hty] at h6; have := h6.1; rw [hdef] at this; simp [FieldTypeDef.isComplex] at this
              | enum n => rw [hty] at h6; have := h6.1; rw [hdef] at this; simp at this
              | scalar s =>
                rw [hty] at h6 hy; have h6 : _ = _ := h6; rw [hdef] at h6
                injection h6 with h6
                subst h6
                refine ht _ _ g4 ?_
                rw [← scalarFlat_spelling]
                exact hy
              | typeName => rw [hty] at h6; have h6 : _ = _ := h6; rw [hdef] at h6; simp at h6
            · rw [if_neg (by simp [CompositeKind])]
              cases hty : fld.type with
              | complex sub => rw [hty] at h6; have := h6.1; rw [hdef] at this; simp [FieldTypeDef.isComplex] at this
              | enum n =>
                rw [hty] at h6 hy
                obtain ⟨_, rfl⟩ := h6
                rw [← g6] at g4 ⊢
                exact hte _ _ g4 hy
              | scalar s => rw [hty] at h6; have h6 : _ = _ := h6; rw [hdef] at h6; simp at h6
              | typeName => rw [hty] at h6; have h6 : _ = _ := h6; rw [hdef] at h6; simp at h6

/-- A collected field is `__typename` exactly if its type is the one reserved for it. -/
theorem typename_iff (hv : ValidDoc doc) (hs : Schema.ofJson doc = .ok schema) {T P : String}
    {sets : List (List Selection)} {L : List Contribution} (hL : CollMany schema frags T P sets L)
    {c : Contribution} (hc : c ∈ L) : (c.field.name = "__typename" ↔ c.field.type.definition = .typeName) ∧
      (c.field.name = "__typename" ↔ c.field.type.name = "__typename") := by
  obtain ⟨P₀, name, hf₀⟩ := collMany_field hL c hc
  have hname := loaded_field_name hv hs hf₀
  rcases loaded_field hs hv.reserved hf₀ with ⟨hn, ef⟩ | ⟨hn, j, hl, hj⟩
  · rw [ef]; exact ⟨⟨fun _ => rfl, fun _ => rfl⟩, ⟨fun _ => rfl, fun _ => rfl⟩⟩
  · obtain ⟨k₀, t₀, _, _, g3, g4, _, g6, g7, _⟩ := loaded_declared hv hl hj
    refine ⟨⟨fun h => absurd (hname.symm.trans h) hn, fun h => ?_⟩, ⟨fun h => absurd (hname.symm.trans h) hn, fun h => ?_⟩⟩
    · rcases def_of_kind g3 g7 with ⟨_, h', _⟩ | ⟨_, h'⟩ | ⟨_, h'⟩
      · rw [h] at h'; simp [FieldTypeDef.isComplex] at h'
      · rw [h] at h'; simp at h'
      · rw [h] at h'; simp at h'
    · rw [← g6, h, hv.reservedType] at g4
      simp at g4

/-- One key for `__typename` in the document is one property for it in the tree. -/
theorem oneTypename_of_key (hv : ValidDoc doc) (hs : Schema.ofJson doc = .ok schema) {P : String}
    {sets : List (List Selection)} {ps : List Complex} (H : TreeFor schema frags P sets ps)
    (h : OneTypenameKey schema frags P sets) : OneTypename ps := by
  intro qs hu T fields hm f hf g hg htf htg
  obtain ⟨P', sets', hp, Q⟩ := position_of_under H hu
  obtain ⟨hT, L, hL, F⟩ := Q.fields hm
  have key : ∀ f ∈ fields, f.type = .typeName → ∃ c ∈ L, c.key = f.propName ∧ c.field.name = "__typename" := by
    intro f hf htf
    obtain ⟨c, rest, e, _, _, h3⟩ := F.fields f hf
    rw [htf] at h3
    have h3 : c.field.type.definition = .typeName := h3
    obtain ⟨hc, hk⟩ := mem_of_filter e
    refine ⟨c, hc, hk, ?_⟩
    exact (typename_iff hv hs hL hc).1.2 h3
  obtain ⟨c, hc, hk, hn⟩ := key f hf htf
  obtain ⟨c', hc', hk', hn'⟩ := key g hg htg
  rw [← hk, ← hk']
  exact h P' sets' hp T hT L hL c hc c' hc' hn hn'

/-- The converse: the condition on the tree is the condition on the document. -/
theorem key_of_oneTypename (hv : ValidDoc doc) (hs : Schema.ofJson doc = .ok schema) {P : String}
    {sets : List (List Selection)} {ps : List Complex} (H : TreeFor schema frags P sets ps)
    (h : OneTypename ps) : OneTypenameKey schema frags P sets := by
  intro P' sets' hp T hT L hL c hc c' hc' hn hn'
  obtain ⟨qs, hu, Q⟩ := under_of_position (loaded_consistent hv hs) hp ps H T hT
  obtain ⟨⟨T', fields⟩, hm, he⟩ := List.mem_map.1 (((Q.tree 1).2.1 T).2 hT)
  have he : T' = T := he
  subst he
  obtain ⟨_, L', hL', F⟩ := Q.fields hm
  have e := collMany_functional _ _ _ _ _ hL hL'
  subst e
  obtain ⟨L', hL', hF⟩ := (Q.tree 1).2.2 _ fields hm
  have e := collMany_functional _ _ _ _ _ hL hL'
  subst e
  have hone := one_type_of_distinct hF (mem_distinctPoss Q.distinct hm).1
  have key : ∀ c ∈ L, c.field.name = "__typename" → ∃ f ∈ fields, f.propName = c.key ∧ f.type = .typeName := by
    intro c hc hn
    obtain ⟨f, hf, hk⟩ := List.mem_map.1 ((F.keys c.key).2 ⟨c, hc, rfl⟩)
    obtain ⟨c₁, rest, e, _, _, h3⟩ := F.fields f hf
    obtain ⟨hc₁, hk₁⟩ := mem_of_filter e
    have hty : c₁.field.type.name = c.field.type.name := hone c₁ hc₁ c hc (by rw [hk₁, hk])
    rw [(typename_iff hv hs hL hc).2.1 hn, ← (typename_iff hv hs hL hc₁).2, (typename_iff hv hs hL hc₁).1] at hty
    refine ⟨f, hf, hk, ?_⟩
    cases hft : f.type with
    | typeName => rfl
    | complex sub => rw [hft] at h3; have := h3.1; rw [hty] at this; simp [FieldTypeDef.isComplex] at this
    | enum n => rw [hft] at h3; have := h3.1; rw [hty] at this; simp at this
    | scalar s => rw [hft] at h3; have h3 : _ = _ := h3; rw [hty] at h3; simp at h3
  obtain ⟨f, hf, hk, htf⟩ := key c hc hn
  obtain ⟨f', hf', hk', htf'⟩ := key c' hc' hn'
  rw [← hk, ← hk']
  exact h qs hu _ fields hm f hf f' hf' htf htf'

end Qlc
