import Verif.Lemmas.IRTerm
/-
Trees at every depth, unambiguous selections, and replacing an imported fragment.
-/
set_option autoImplicit false

namespace Qlc
open Spec

variable {schema : Schema} {frags : Frags}

theorem coll_functional {T P : String} {items : List Selection} {L : List Contribution}
    (h : Coll schema frags T P items L) : ∀ L', Coll schema frags T P items L' → L = L' := by
  induction h with
  | nil => intro L' h; cases h; rfl
  | field h2 _ ih =>
    intro L' h
    cases h with
    | field h2' h3 => rw [h2] at h2'; injection h2' with e; rw [ih _ h3, e]
  | inlineIn h1 _ _ ih1 ih2 =>
    intro L' h
    cases h with
    | inlineIn _ h3 h4 => rw [ih1 _ h3, ih2 _ h4]
    | inlineOut h3 _ => exact absurd h1 h3
  | inlineOut h1 _ ih =>
    intro L' h
    cases h with
    | inlineIn h2 _ _ => exact absurd h2 h1
    | inlineOut _ h3 => exact ih _ h3
  | spreadIn h1 h2 _ _ ih1 ih2 =>
    intro L' h
    cases h with
    | spreadIn h1' _ h4 h5 =>
      rw [h1] at h1'; injection h1' with e; subst e
      rw [ih1 _ h4, ih2 _ h5]
    | spreadOut h1' h4 _ =>
      rw [h1] at h1'; injection h1' with e; subst e
      exact absurd h2 h4
  | spreadOut h1 h2 _ ih =>
    intro L' h
    cases h with
    | spreadIn h1' h3 _ _ =>
      rw [h1] at h1'; injection h1' with e; subst e
      exact absurd h3 h2
    | spreadOut _ _ h3 => exact ih _ h3

theorem collMany_functional : Functional (CollMany schema frags) := by
  rintro T P sets L L' ⟨Ls, h, rfl⟩ ⟨Ls', h', rfl⟩
  have e : Ls = Ls' := forall₂_functional (R := Coll schema frags T P)
    (fun _ _ _ h1 h2 => coll_functional h1 _ h2) h h'
  rw [e]

/-- With a single named type for the key, the slot is everything collected under the key. -/
theorem sameSlot_eq_merged {L : List Contribution} {c : Contribution}
    (h : ∀ c' ∈ L, c'.key = c.key → c'.field.type.name = c.field.type.name) :
    (sameSlot L c.key c.field.type.name).map Contribution.items = merged L c.key := by
  unfold sameSlot merged
  congr 1
  apply List.filter_congr
  intro c' hc'
  by_cases hk : c'.key = c.key
  · simp [hk, h c' hc' hk]
  · simp [hk]

/-- If no property is listed twice, a response key has one slot. -/
theorem one_type_of_distinct {D : String → List (List Selection) → List Complex → Prop}
    {L : List Contribution} {fields : List IRField} (h : FieldsAre D L fields)
    (hd : (fields.map IRField.propName).Nodup) :
    ∀ c ∈ L, ∀ c' ∈ L, c.key = c'.key → c.field.type.name = c'.field.type.name := by
  obtain ⟨_, slots, hn, hsl, hF⟩ := h
  rw [← keys_of_fields hF] at hd
  intro c hc c' hc' he
  have := List.inj_on_of_nodup_map hd ((hsl _).2 ⟨c, hc, rfl⟩) ((hsl _).2 ⟨c', hc', rfl⟩) he
  injection this

/-- The property names are the collected response keys. -/
theorem keys_iff {D : String → List (List Selection) → List Complex → Prop}
    {L : List Contribution} {fields : List IRField} (h : FieldsAre D L fields) (k : String) :
    k ∈ fields.map IRField.propName ↔ ∃ c ∈ L, c.key = k := by
  obtain ⟨_, slots, hn, hsl, hF⟩ := h
  rw [← keys_of_fields hF]
  simp only [List.mem_map]
  constructor
  · rintro ⟨s, hs, rfl⟩
    obtain ⟨c, hc, e⟩ := (hsl s).1 hs
    exact ⟨c, hc, by rw [← e]⟩
  · rintro ⟨c, hc, rfl⟩
    exact ⟨_, (hsl _).2 ⟨c, hc, rfl⟩, rfl⟩

/-- One generated property and what is collected under its key, when no property is listed twice. -/
theorem fieldIs_merged {D : String → List (List Selection) → List Complex → Prop}
    {L : List Contribution} {fields : List IRField} (h : FieldsAre D L fields)
    (hd : (fields.map IRField.propName).Nodup) {fld : IRField} (hf : fld ∈ fields) :
    FieldIs D (L.filter (fun c => decide (c.key = fld.propName))) fld := by
  have hone := one_type_of_distinct h hd
  obtain ⟨_, slots, hn, hsl, hF⟩ := h
  obtain ⟨s, hs, hR⟩ := forall₂_mem hF fld hf
  have hk := fieldIs_key hR
  obtain ⟨c, hc, e⟩ := (hsl s).1 hs
  have : sameSlot L s.1 s.2 = L.filter (fun c => decide (c.key = fld.propName)) := by
    unfold sameSlot
    apply List.filter_congr
    intro c' hc'
    rw [hk]
    by_cases hk' : c'.key = s.1
    · have : c'.field.type.name = s.2 := by
        rw [hone c' hc' c hc (by rw [hk', ← e]), ← e]
      simp [hk', this]
    · simp [hk']
  rwa [this] at hR

/-- The tree description holds at every nested position. -/
theorem tree_below {P : String} {sets : List (List Selection)} {ps : List Complex} {P' : String}
    {sets' : List (List Selection)} {ps' : List Complex}
    (hb : Below schema frags P sets ps P' sets' ps') :
    DistinctPoss ps → (∀ n, TreeIs schema (CollMany schema frags) n P sets ps) →
    DistinctPoss ps' ∧ ∀ n, TreeIs schema (CollMany schema frags) n P' sets' ps' := by
  induction hb with
  | refl => intro h1 h2; exact ⟨h1, h2⟩
  | @step P sets ps P' sets' ps' T fields L fld sub c h1 h2 h3 h4 h5 h6 _ ih =>
    intro hd ht
    obtain ⟨hd1, hd2⟩ := mem_distinctPoss hd h1
    have hds := mem_distinctFields hd2 h3
    rw [h4] at hds
    unfold DistinctType at hds
    refine ih hds ?_
    intro n
    obtain ⟨L', hL', hF⟩ := (ht (n + 1)).2.2 T fields h1
    have e := collMany_functional _ _ _ _ _ h2 hL'
    subst e
    have hone := one_type_of_distinct hF hd1
    obtain ⟨c₀, rest, e, _, _, _, _, _, k⟩ := fieldIs_merged hF hd1 h3
    rw [h4] at k
    have hc₀ : c₀ ∈ L ∧ c₀.key = fld.propName := by
      have hin : c₀ ∈ L.filter (fun c => decide (c.key = fld.propName)) := by
        rw [e]; exact List.mem_cons_self ..
      have := List.mem_filter.1 hin
      exact ⟨this.1, of_decide_eq_true this.2⟩
    have hty : c₀.field.type.name = c.field.type.name :=
      hone c₀ hc₀.1 c h5 (by rw [hc₀.2, h6])
    have := k.2
    rw [hty] at this
    unfold merged
    rw [h6]
    exact this

/-- Unambiguous selections generate no property twice. -/
theorem distinct_of_oneType (n : Nat) : ∀ (P : String) (sets : List (List Selection)) (ps : List Complex),
    sizeOf ps ≤ n → OneTypePerKey schema frags P sets →
    (∀ n, TreeIs schema (CollMany schema frags) n P sets ps) → DistinctPoss ps := by
  induction n with
  | zero => intro P sets ps hs; exfalso; cases ps <;> simp at hs
  | succ n ih =>
    intro P sets ps hs hone ht
    have hall : ∀ T fields, Complex.mk T fields ∈ ps →
        (fields.map IRField.propName).Nodup ∧ ∀ f ∈ fields, DistinctType f.type := by
      intro T fields hm
      have hT : T ∈ possibleTypes schema P := ((ht 1).2.1 T).1 (List.mem_map.2 ⟨_, hm, rfl⟩)
      obtain ⟨L, hL, hF⟩ := (ht 1).2.2 T fields hm
      have h1 := hone P sets .refl T hT L hL
      have hnd : (fields.map IRField.propName).Nodup := by
        obtain ⟨_, slots, hn, hsl, hF'⟩ := hF
        rw [← keys_of_fields hF']
        refine (List.nodup_map_iff_inj_on hn).2 ?_
        intro s hs s' hs' he
        obtain ⟨c, hc, rfl⟩ := (hsl s).1 hs
        obtain ⟨c', hc', rfl⟩ := (hsl s').1 hs'
        simp only at he
        rw [he, h1 c hc c' hc' he]
      refine ⟨hnd, ?_⟩
      intro f hf
      cases hty : f.type with
      | typeName => unfold DistinctType; trivial
      | enum n => unfold DistinctType; trivial
      | scalar s => unfold DistinctType; trivial
      | complex sub =>
        unfold DistinctType
        have hlt := sizeOf_sub hm hf hty
        obtain ⟨c, rest, e, k1, _, _, _, _, _⟩ := fieldIs_merged hF hnd hf
        have hc : c ∈ L := by
          have hin : c ∈ L.filter (fun c => decide (c.key = f.propName)) := by
            rw [e]; exact List.mem_cons_self ..
          exact (List.mem_filter.1 hin).1
        refine ih c.field.type.name (merged L c.key) sub (by omega) ?_ ?_
        · intro P' sets' hp
          exact hone P' sets' (.step hT hL hc hp)
        · intro m
          obtain ⟨L', hL', hF'⟩ := (ht (m + 1)).2.2 T fields hm
          have e' := collMany_functional _ _ _ _ _ hL hL'
          subst e'
          obtain ⟨c', rest', e', k1', _, _, _, _, k'⟩ := fieldIs_merged hF' hnd hf
          rw [e] at e'
          injection e' with ec _
          subst ec
          rw [hty] at k'
          have := k'.2
          unfold merged
          rw [← k1]
          exact this
    clear hs hone ht ih
    induction ps with
    | nil => unfold DistinctPoss; trivial
    | cons a as iha =>
      obtain ⟨T, fs⟩ := a
      unfold DistinctPoss
      refine ⟨?_, iha (fun T f hm => hall T f (List.mem_cons_of_mem _ hm))⟩
      obtain ⟨h1, h2⟩ := hall T fs (List.mem_cons_self ..)
      unfold DistinctComplex
      refine ⟨h1, ?_⟩
      clear h1 hall iha
      induction fs with
      | nil => unfold DistinctFields; trivial
      | cons f fs ihf =>
        unfold DistinctFields
        refine ⟨?_, ihf (fun g hg => h2 g (List.mem_cons_of_mem _ hg))⟩
        obtain ⟨a, b, c, d, e, t⟩ := f
        unfold DistinctField
        exact h2 _ (List.mem_cons_self ..)

theorem composite_of_possible {T P : String} (h : T ∈ possibleTypes schema P) : IsComposite schema P := by
  unfold possibleTypes at h
  unfold IsComposite fieldsOf
  cases ht : schema.getType P with
  | none => rw [ht] at h; simp at h
  | some t =>
    rw [ht] at h
    simp only at h ⊢
    cases hd : t.definition <;> rw [hd] at h <;> simp at h ⊢

/-- If no property is generated twice, the selections are unambiguous. -/
theorem oneType_of_distinct (hcon : Consistent schema) {P : String} {sets : List (List Selection)}
    {P' : String} {sets' : List (List Selection)} (hp : Position schema frags P sets P' sets') :
    ∀ ps : List Complex, (∀ n, TreeIs schema (CollMany schema frags) n P sets ps) → DistinctPoss ps →
    ∀ T ∈ possibleTypes schema P', ∀ L, CollMany schema frags T P' sets' L → ∀ c ∈ L, ∀ c' ∈ L,
      c.key = c'.key → c.field.type.name = c'.field.type.name := by
  induction hp with
  | refl =>
    intro ps ht hd T hT L hL
    obtain ⟨⟨T', fields⟩, hm, rfl⟩ := List.mem_map.1 (((ht 1).2.1 T).2 hT)
    obtain ⟨L', hL', hF⟩ := (ht 1).2.2 _ fields hm
    have e := collMany_functional _ _ _ _ _ hL hL'
    subst e
    exact one_type_of_distinct hF (mem_distinctPoss hd hm).1
  | @step P sets P' sets' T₀ L₀ c₀ h1 h2 h3 hrest ih =>
    intro ps ht hd
    obtain ⟨⟨T', fields⟩, hm, he⟩ := List.mem_map.1 (((ht 1).2.1 T₀).2 h1)
    have he : T' = T₀ := he
    subst he
    obtain ⟨hd1, hd2⟩ := mem_distinctPoss hd hm
    obtain ⟨L', hL', hF⟩ := (ht 1).2.2 _ fields hm
    have e := collMany_functional _ _ _ _ _ h2 hL'
    subst e
    obtain ⟨fld, hf, hk⟩ := List.mem_map.1 ((keys_iff hF c₀.key).2 ⟨c₀, h3, rfl⟩)
    have hone := one_type_of_distinct hF hd1
    obtain ⟨c₁, rest, e, k1, _, _, _, _, k⟩ := fieldIs_merged hF hd1 hf
    have hc₁ : c₁ ∈ L₀ ∧ c₁.key = fld.propName := by
      have hin : c₁ ∈ L₀.filter (fun c => decide (c.key = fld.propName)) := by
        rw [e]; exact List.mem_cons_self ..
      have := List.mem_filter.1 hin
      exact ⟨this.1, of_decide_eq_true this.2⟩
    have hty : c₁.field.type.name = c₀.field.type.name :=
      hone c₁ hc₁.1 c₀ h3 (by rw [hc₁.2, hk])
    have leaf : c₁.field.type.definition.isComplex = false →
        ∀ T ∈ possibleTypes schema P', ∀ L, CollMany schema frags T P' sets' L → ∀ c ∈ L, ∀ c' ∈ L,
          c.key = c'.key → c.field.type.name = c'.field.type.name := by
      intro hl
      have hnc : ¬ IsComposite schema c₀.field.type.name := by
        obtain ⟨P₁, name, hf₁⟩ := collMany_field h2 c₁ hc₁.1
        rw [← hty]
        intro hc
        have := ((hcon P₁ name _ hf₁).2).2 hc
        rw [hl] at this; simp at this
      cases hrest with
      | refl =>
        intro T hT
        exact absurd (composite_of_possible hT) hnc
      | step a _ _ _ => exact absurd (composite_of_possible a) hnc
    cases hty' : fld.type with
    | complex sub =>
      refine ih sub ?_ ?_
      · intro n
        obtain ⟨L', hL', hF'⟩ := (ht (n + 1)).2.2 _ fields hm
        have e' := collMany_functional _ _ _ _ _ h2 hL'
        subst e'
        obtain ⟨c₂, rest', e', _, _, _, _, _, k'⟩ := fieldIs_merged hF' hd1 hf
        rw [e] at e'
        injection e' with ec _
        subst ec
        rw [hty'] at k'
        have := k'.2
        rw [hty] at this
        unfold merged
        rw [← hk]
        exact this
      · have hds := mem_distinctFields hd2 hf
        rw [hty'] at hds
        unfold DistinctType at hds
        exact hds
    | typeName =>
      rw [hty'] at k
      have k : c₁.field.type.definition = .typeName := k
      exact leaf (by rw [k]; rfl)
    | enum n => rw [hty'] at k; exact leaf (by rw [k.1]; rfl)
    | scalar s =>
      rw [hty'] at k
      have k : c₁.field.type.definition = .scalar s := k
      exact leaf (by rw [k]; rfl)

/-! ### Fragments that are dropped -/

theorem check_false_nil_of_exposed (hcon : Consistent schema) {P : String} {items : List Selection}
    {P' : String} {sel : Selection} (h : Exposed schema P items P' sel) :
    ¬ SelOk schema frags P' sel → ¬ HasCondition sel → checkSels schema frags false P items ≠ [] := by
  induction h with
  | @here P items sel hs =>
    intro hbad hinl hnil
    rw [checkSels_flatMap, List.flatMap_eq_nil_iff] at hnil
    have := hnil _ hs
    cases sel with
    | field pos al name args dirs sub =>
      unfold checkSel at this
      cases hf : fieldOf schema P name with
      | none => rw [hf] at this; simp at this
      | some f =>
        rw [hf] at this
        simp only at this
        obtain ⟨_, hcc⟩ := hcon P name f hf
        by_cases hc : IsComposite schema f.type.name
        · rw [if_pos (hcc.2 hc)] at this
          by_cases he : sub.isEmpty = true
          · rw [if_pos he] at this; simp at this
          · exact hbad ⟨f, hf, fun _ => hc, fun _ hn => he (List.isEmpty_iff.2 hn)⟩
        · rw [if_neg (fun h => hc (hcc.1 h))] at this
          by_cases he : sub.isEmpty = true
          · exact hbad ⟨f, hf, fun hn => absurd (List.isEmpty_iff.1 he) hn, fun h => absurd h hc⟩
          · rw [if_neg he] at this; simp at this
    | «inline» pos cond dirs sub =>
      cases cond with
      | none => unfold checkSel at this; simp at this
      | some C => exact hinl trivial
    | spread pos name dirs =>
      unfold checkSel at this
      cases hg : AMap.get? frags name with
      | none => rw [hg] at this; simp at this
      | some fd => exact hbad ⟨fd, hg⟩
  | @field P items P' sel pos al name args dirs sub f h1 h2 h3 h4 ih =>
    intro hbad hinl hnil
    rw [checkSels_flatMap, List.flatMap_eq_nil_iff] at hnil
    have := hnil _ h1
    unfold checkSel at this
    rw [h2] at this
    simp only at this
    rw [if_pos (((hcon P name f h2).2).2 h3)] at this
    split at this
    · simp at this
    · exact ih hbad hinl this

/-- Two fragment tables that differ only in the body of fragments that are dropped anyway. -/
def SameUse (schema : Schema) (frags frags' : Frags) : Prop :=
  ∀ name, (AMap.get? frags name = AMap.get? frags' name) ∨
    ∃ fd fd', AMap.get? frags name = some fd ∧ AMap.get? frags' name = some fd' ∧
      fd.typeCond = fd'.typeCond ∧ fd'.items = [] ∧ checkSels schema frags false fd.typeCond fd.items ≠ []

theorem SameUse.isSome {frags' : Frags} (h : SameUse schema frags frags') (name : String) :
    (AMap.get? frags name).isSome = (AMap.get? frags' name).isSome := by
  rcases h name with h | ⟨fd, fd', h1, h2, _⟩
  · rw [h]
  · rw [h1, h2]; rfl

mutual
theorem checkSel_sameUse {frags' : Frags} (h : SameUse schema frags frags') (loc : Bool) :
    ∀ (s : Selection) (P : String), checkSel schema frags loc P s = checkSel schema frags' loc P s
  | .field pos al name args dirs sub, P => by
    unfold checkSel
    cases fieldOf schema P name with
    | none => rfl
    | some f => simp only; rw [checkSels_sameUse h loc sub]
  | .inline pos none dirs sub, P => by unfold checkSel; rfl
  | .inline pos (some C) dirs sub, P => by unfold checkSel; rw [checkSels_sameUse h loc sub]
  | .spread pos name dirs, P => by unfold checkSel; rw [h.isSome]
theorem checkSels_sameUse {frags' : Frags} (h : SameUse schema frags frags') (loc : Bool) :
    ∀ (ss : List Selection) (P : String), checkSels schema frags loc P ss = checkSels schema frags' loc P ss
  | [], P => by unfold checkSels; rfl
  | s :: rest, P => by
    unfold checkSels; rw [checkSel_sameUse h loc s, checkSels_sameUse h loc rest]
end

theorem collX_sameUse {frags' : Frags} (h : SameUse schema frags frags') {T : String} {loc : Bool}
    {P : String} {items : List Selection} {L : List Contribution}
    (hx : CollX schema frags T loc P items L) : CollX schema frags' T loc P items L := by
  induction hx with
  | nil => exact .nil
  | field h1 h2 _ ih => exact .field (by rw [← checkSel_sameUse h]; exact h1) h2 ih
  | fieldBad h1 _ ih => exact .fieldBad (by rw [← checkSel_sameUse h]; exact h1) ih
  | inlineIn h1 h2 _ _ ih1 ih2 =>
    exact .inlineIn h1 (by rw [← checkSels_sameUse h]; exact h2) ih1 ih2
  | inlineOut h1 _ ih =>
    exact .inlineOut (fun C hC hT => by rw [← checkSels_sameUse h]; exact h1 C hC hT) ih
  | @spreadIn loc P pos name dirs fd rest L₁ L h1 h2 h3 _ _ ih1 ih2 =>
    rcases h name with he | ⟨fd₁, fd', g1, g2, g3, g4, g5⟩
    · exact .spreadIn (by rw [← he]; exact h1) h2 (by rw [← checkSels_sameUse h]; exact h3) ih1 ih2
    · rw [h1] at g1; injection g1 with e; subst e
      exact absurd h3 g5
  | @spreadOut loc P pos name dirs rest L h1 _ ih =>
    rcases h name with he | ⟨fd₁, fd', g1, g2, g3, g4, g5⟩
    · exact .spreadOut (fun fd hfd hT => by
        rw [← checkSels_sameUse h]; exact h1 fd (by rw [he]; exact hfd) hT) ih
    · by_cases hT : T ∈ possibleTypes schema fd'.typeCond
      · have : CollX schema frags' T loc P (.spread pos name dirs :: rest) ([] ++ L) :=
          .spreadIn g2 hT (by rw [g4]; unfold checkSels; rfl) (by rw [g4]; exact .nil) ih
        exact this
      · exact .spreadOut (fun fd hfd hT' => by
          rw [g2] at hfd; injection hfd with e; subst e; exact absurd hT' hT) ih

theorem treeX_sameUse {frags' : Frags} (h : SameUse schema frags frags') (n : Nat) :
    ∀ (P : String) (sets : List (List Selection)) (ps : List Complex),
    TreeIs schema (collectorX schema frags) n P sets ps →
    TreeIs schema (collectorX schema frags') n P sets ps := by
  induction n with
  | zero => intro P sets ps _; trivial
  | succ n ih =>
    intro P sets ps ht
    refine ⟨ht.1, ht.2.1, ?_⟩
    intro T fields hm
    obtain ⟨L, ⟨Ls, hL, e⟩, hF⟩ := ht.2.2 T fields hm
    refine ⟨L, ⟨Ls, hL.imp (fun _ _ hx => collX_sameUse h hx), e⟩, fieldsAre_mono ?_ hF⟩
    intro tn cs ps _ _ _ hD
    exact ih _ _ _ hD

end Qlc
