import Verif.Spec.Alike
import Verif.Props.Response
/-
C23: `SameBodies`, a condition on the generated tree, said of the document.
-/
set_option autoImplicit false

namespace Qlc
open Spec

variable {schema : Schema} {frags : Frags}

theorem str_lt_irrefl (a : String) : ¬ a < a := by
  intro h
  exact absurd h (by simp)

/-- Lists strictly sorted by a key are related element by element if each element has a related one. -/
theorem forall₂_of_sorted {α β : Type} {R : α → β → Prop} {k : α → String} {k' : β → String}
    (hk : ∀ a b, R a b → k a = k' b) : ∀ (l : List α) (m : List β),
    (l.map k).Pairwise (· < ·) → (m.map k').Pairwise (· < ·) →
    (∀ a ∈ l, ∃ b ∈ m, R a b) → (∀ b ∈ m, ∃ a ∈ l, R a b) → List.Forall₂ R l m
  | [], [], _, _, _, _ => .nil
  | [], b :: m, _, _, _, h => by obtain ⟨a, ha, _⟩ := h b (by simp); simp at ha
  | a :: l, [], _, _, h, _ => by obtain ⟨b, hb, _⟩ := h a (by simp); simp at hb
  | a :: l, b :: m, hl, hm, h1, h2 => by
    simp only [List.map_cons, List.pairwise_cons] at hl hm
    have hab : R a b := by
      obtain ⟨b', hb', hR⟩ := h1 a (by simp)
      rcases List.mem_cons.1 hb' with rfl | hb'
      · exact hR
      exfalso
      obtain ⟨a', ha', hR'⟩ := h2 b (by simp)
      have e1 := hk _ _ hR
      have e2 := hk _ _ hR'
      have lt1 : k' b < k' b' := hm.1 _ (List.mem_map_of_mem hb')
      rcases List.mem_cons.1 ha' with rfl | ha'
      · rw [← e1, ← e2] at lt1
        exact str_lt_irrefl _ lt1
      · have lt2 : k a < k a' := hl.1 _ (List.mem_map_of_mem ha')
        rw [e1, e2] at lt2
        exact str_lt_irrefl _ (String.lt_trans lt1 lt2)
    refine .cons hab (forall₂_of_sorted hk l m hl.2 hm.2 ?_ ?_)
    · intro x hx
      obtain ⟨y, hy, hR⟩ := h1 x (by simp [hx])
      rcases List.mem_cons.1 hy with rfl | hy
      · exfalso
        have lt : k a < k x := hl.1 _ (List.mem_map_of_mem hx)
        rw [hk _ _ hab, hk _ _ hR] at lt
        exact str_lt_irrefl _ lt
      · exact ⟨y, hy, hR⟩
    · intro y hy
      obtain ⟨x, hx, hR⟩ := h2 y (by simp [hy])
      rcases List.mem_cons.1 hx with rfl | hx
      · exfalso
        have lt : k' b < k' y := hm.1 _ (List.mem_map_of_mem hy)
        rw [← hk _ _ hab, ← hk _ _ hR] at lt
        exact str_lt_irrefl _ lt
      · exact ⟨x, hx, hR⟩

theorem sameFields_iff : ∀ {fs gs : List IRField}, sameFields fs gs = true ↔
    List.Forall₂ (fun f g => sameField f g = true) fs gs
  | [], [] => by simp [sameFields]
  | [], _ :: _ => by simp [sameFields]
  | _ :: _, [] => by simp [sameFields]
  | f :: fs, g :: gs => by
    rw [sameFields, Bool.and_eq_true, sameFields_iff, List.forall₂_cons]

theorem samePoss_iff : ∀ {ps qs : List Complex}, samePoss ps qs = true ↔
    List.Forall₂ (fun c d => sameComplex c d = true) ps qs
  | [], [] => by simp [samePoss]
  | [], _ :: _ => by simp [samePoss]
  | _ :: _, [] => by simp [samePoss]
  | f :: fs, g :: gs => by
    rw [samePoss, Bool.and_eq_true, samePoss_iff, List.forall₂_cons]

theorem sameField_iff {f g : IRField} : sameField f g = true ↔
    f.propName = g.propName ∧ f.last = g.last ∧ f.rest = g.rest ∧ sameType f.type g.type = true := by
  obtain ⟨_, _, _, _, _, _⟩ := f
  obtain ⟨_, _, _, _, _, _⟩ := g
  rw [sameField]
  simp only [Bool.and_eq_true, decide_eq_true_eq, and_assoc]
  exact Iff.rfl

/-- The tree of the selection sets, at every depth, without properties listed twice. -/
structure TreeFor (schema : Schema) (frags : Frags) (P : String) (sets : List (List Selection))
    (ps : List Complex) : Prop where
  tree : ∀ n, TreeIs schema (CollMany schema frags) n P sets ps
  distinct : DistinctPoss ps

/-- What is generated for one object type. -/
structure FieldsFor (schema : Schema) (frags : Frags) (L : List Contribution) (fields : List IRField) : Prop where
  sorted : (fields.map IRField.propName).Pairwise (· < ·)
  keys : ∀ k, k ∈ fields.map IRField.propName ↔ ∃ c ∈ L, c.key = k
  fields : ∀ fld ∈ fields, ∃ c rest, L.filter (fun c => decide (c.key = fld.propName)) = c :: rest ∧
    fld.last = c.field.type.last ∧ fld.rest = c.field.type.rest ∧
    (match fld.type with
      | .complex sub => c.field.type.definition.isComplex = true ∧
          TreeFor schema frags c.field.type.name (merged L fld.propName) sub
      | .enum n => c.field.type.definition = .enum ∧ n = c.field.type.name
      | .scalar s => c.field.type.definition = .scalar s
      | .typeName => c.field.type.definition = .typeName)

theorem TreeFor.fields {P : String} {sets : List (List Selection)} {ps : List Complex}
    (h : TreeFor schema frags P sets ps) {T : String} {fields : List IRField} (hm : Complex.mk T fields ∈ ps) :
    T ∈ possibleTypes schema P ∧ ∃ L, CollMany schema frags T P sets L ∧ FieldsFor schema frags L fields := by
  refine ⟨((h.tree 1).2.1 T).1 (List.mem_map.2 ⟨_, hm, rfl⟩), ?_⟩
  obtain ⟨hd1, hd2⟩ := mem_distinctPoss h.distinct hm
  obtain ⟨L, hL, hF⟩ := (h.tree 1).2.2 T fields hm
  refine ⟨L, hL, pairwise_lt_of_sorted_nodup ?_ hd1, keys_iff hF, ?_⟩
  · have := hF.1
    rw [List.pairwise_map]
    exact this
  intro fld hf
  obtain ⟨c, rest, e, k1, _, _, k4, k5, k6⟩ := fieldIs_merged hF hd1 hf
  refine ⟨c, rest, e, k4, k5, ?_⟩
  cases hty : fld.type with
  | complex sub =>
    rw [hty] at k6
    refine ⟨k6.1, ⟨?_, ?_⟩⟩
    · intro n
      obtain ⟨L', hL', hF'⟩ := (h.tree (n + 1)).2.2 T fields hm
      have eL := collMany_functional _ _ _ _ _ hL hL'
      subst eL
      obtain ⟨c', rest', e', _, _, _, _, _, k6'⟩ := fieldIs_merged hF' hd1 hf
      rw [e] at e'
      injection e' with ec _
      subst ec
      rw [hty] at k6'
      exact k6'.2
    · have hds := mem_distinctFields hd2 hf
      rw [hty] at hds
      unfold DistinctType at hds
      exact hds
  | enum n => rw [hty] at k6; exact k6
  | scalar s => rw [hty] at k6; exact k6
  | typeName => rw [hty] at k6; exact k6

theorem filter_nil_iff {L : List Contribution} {key : String} :
    L.filter (fun c => decide (c.key = key)) = [] ↔ ¬ ∃ c ∈ L, c.key = key := by
  simp [List.filter_eq_nil_iff]

/-- One property, compared in the tree and in the document. -/
theorem sameField_alike {L L' : List Contribution} {fields fields' : List IRField} (F : FieldsFor schema frags L fields)
    (F' : FieldsFor schema frags L' fields')
    (ih : ∀ f ∈ fields, ∀ f' ∈ fields', ∀ sub sub', f.type = .complex sub → f'.type = .complex sub' →
      ∀ P P' sets sets', TreeFor schema frags P sets sub → TreeFor schema frags P' sets' sub' →
      (samePoss sub sub' = true ↔ ∀ n, AlikeTo schema frags n P sets P' sets'))
    {f f' : IRField} (hf : f ∈ fields) (hf' : f' ∈ fields') (hk : f.propName = f'.propName) :
    ∃ c rest c' rest', L.filter (fun c => decide (c.key = f.propName)) = c :: rest ∧
      L'.filter (fun c => decide (c.key = f.propName)) = c' :: rest' ∧
      (sameField f f' = true ↔ ∀ n, SameValues (AlikeTo schema frags n c.field.type.name (merged L f.propName)
        c'.field.type.name (merged L' f.propName)) c.field.type c'.field.type) := by
  obtain ⟨c, rest, e, h1, h2, h3⟩ := F.fields f hf
  obtain ⟨c', rest', e', h1', h2', h3'⟩ := F'.fields f' hf'
  refine ⟨c, rest, c', rest', e, by rw [hk]; exact e', ?_⟩
  rw [sameField_iff]
  unfold SameValues
  cases hty : f.type with
  | complex sub =>
    rw [hty] at h3
    cases hty' : f'.type with
    | complex sub' =>
      rw [hty'] at h3'
      have := ih f hf f' hf' sub sub' hty hty' _ _ _ _ h3.2 h3'.2
      rw [sameType, this, h1, h1', h2, h2']
      have a := h3.1
      have b := h3'.1
      constructor
      · rintro ⟨_, x, y, z⟩ n
        rw [← hk] at z
        exact ⟨x, y, .inl ⟨a, b, z n⟩⟩
      · intro h
        refine ⟨hk, (h 0).1, (h 0).2.1, ?_⟩
        intro n
        rw [← hk]
        rcases (h n).2.2 with z | z
        · exact z.2.2
        · rw [a] at z; simp at z
    | _ =>
      rw [hty'] at h3'
      constructor
      · rintro ⟨_, _, _, z⟩; simp [sameType] at z
      · intro h
        exfalso
        rcases (h 0).2.2 with z | z
        · first
            | (rw [h3'] at z; simp [FieldTypeDef.isComplex] at z)
            | (rw [h3'.1] at z; simp [FieldTypeDef.isComplex] at z)
        · rw [h3.1] at z; simp at z
  | enum n =>
    rw [hty] at h3
    cases hty' : f'.type with
    | enum n' =>
      rw [hty'] at h3'
      obtain ⟨a, rfl⟩ := h3
      obtain ⟨b, rfl⟩ := h3'
      rw [sameType, decide_eq_true_eq, h1, h1', h2, h2', a, b]
      simp [FieldTypeDef.isComplex, hk]
    | _ =>
      rw [hty'] at h3'
      constructor
      · rintro ⟨_, _, _, z⟩; simp [sameType] at z
      · intro h
        exfalso
        rcases (h 0).2.2 with z | z
        · rw [h3.1] at z; simp [FieldTypeDef.isComplex] at z
        · rw [h3.1] at z
          first
            | (rw [h3'] at z; simp [FieldTypeDef.isComplex] at z)
            | (have z := z.2.1; rw [← z] at h3'; simp [FieldTypeDef.isComplex] at h3')
  | scalar s =>
    rw [hty] at h3
    have h3 : c.field.type.definition = .scalar s := h3
    cases hty' : f'.type with
    | scalar s' =>
      rw [hty'] at h3'
      have h3' : c'.field.type.definition = .scalar s' := h3'
      rw [sameType, decide_eq_true_eq, h1, h1', h2, h2', h3, h3']
      simp [FieldTypeDef.isComplex, hk]
    | _ =>
      rw [hty'] at h3'
      constructor
      · rintro ⟨_, _, _, z⟩; simp [sameType] at z
      · intro h
        exfalso
        rcases (h 0).2.2 with z | z
        · rw [h3] at z; simp [FieldTypeDef.isComplex] at z
        · rw [h3] at z
          have z := z.2.1
          rw [← z] at h3'
          simp [FieldTypeDef.isComplex] at h3'
  | typeName =>
    rw [hty] at h3
    have h3 : c.field.type.definition = .typeName := h3
    cases hty' : f'.type with
    | typeName =>
      rw [hty'] at h3'
      have h3' : c'.field.type.definition = .typeName := h3'
      rw [sameType, h1, h1', h2, h2', h3, h3']
      simp [FieldTypeDef.isComplex, hk]
    | _ =>
      rw [hty'] at h3'
      constructor
      · rintro ⟨_, _, _, z⟩; simp [sameType] at z
      · intro h
        exfalso
        rcases (h 0).2.2 with z | z
        · rw [h3] at z; simp [FieldTypeDef.isComplex] at z
        · rw [h3] at z
          have z := z.2.1
          rw [← z] at h3'
          simp [FieldTypeDef.isComplex] at h3'

/-- The properties of two object types, compared in the tree and in the document. -/
theorem sameFields_alike {L L' : List Contribution} {fields fields' : List IRField} (F : FieldsFor schema frags L fields)
    (F' : FieldsFor schema frags L' fields')
    (ih : ∀ f ∈ fields, ∀ f' ∈ fields', ∀ sub sub', f.type = .complex sub → f'.type = .complex sub' →
      ∀ P P' sets sets', TreeFor schema frags P sets sub → TreeFor schema frags P' sets' sub' →
      (samePoss sub sub' = true ↔ ∀ n, AlikeTo schema frags n P sets P' sets')) :
    sameFields fields fields' = true ↔ ∀ n, AlikeFields (AlikeTo schema frags n) L L' := by
  rw [sameFields_iff]
  constructor
  · intro h n key
    by_cases hx : ∃ c ∈ L, c.key = key
    · obtain ⟨f, hf, rfl⟩ := List.mem_map.1 ((F.keys key).2 hx)
      obtain ⟨f', hf', hs⟩ := forall₂_mem_left h f hf
      obtain ⟨c, rest, c', rest', e, e', hiff⟩ := sameField_alike F F' ih hf hf' (sameField_iff.1 hs).1
      rw [e, e']
      exact hiff.1 hs n
    · have hx' : ¬ ∃ c ∈ L', c.key = key := by
        intro hx'
        obtain ⟨f', hf', rfl⟩ := List.mem_map.1 ((F'.keys key).2 hx')
        obtain ⟨f, hf, hs⟩ := forall₂_mem h f' hf'
        exact hx ((F.keys _).1 (List.mem_map.2 ⟨f, hf, (sameField_iff.1 hs).1⟩))
      rw [filter_nil_iff.2 hx, filter_nil_iff.2 hx']
      trivial
  · intro h
    have hpair : ∀ f ∈ fields, ∀ f' ∈ fields', f.propName = f'.propName → sameField f f' = true := by
      intro f hf f' hf' hk
      obtain ⟨c, rest, c', rest', e, e', hiff⟩ := sameField_alike F F' ih hf hf' hk
      refine hiff.2 (fun n => ?_)
      have := h n f.propName
      rw [e, e'] at this
      exact this
    refine forall₂_of_sorted (k := IRField.propName) (k' := IRField.propName)
      (fun a b hab => (sameField_iff.1 hab).1) _ _ F.sorted F'.sorted ?_ ?_
    · intro f hf
      have hx := (F.keys _).1 (List.mem_map.2 ⟨f, hf, rfl⟩)
      have hx' : ∃ c ∈ L', c.key = f.propName := by
        by_contra hx'
        have := h 0 f.propName
        rw [filter_nil_iff.2 hx'] at this
        cases hL : L.filter (fun c => decide (c.key = f.propName)) with
        | nil => exact (filter_nil_iff.1 hL) hx
        | cons a l => rw [hL] at this; exact this
      obtain ⟨f', hf', hk⟩ := List.mem_map.1 ((F'.keys _).2 hx')
      exact ⟨f', hf', hpair f hf f' hf' hk.symm⟩
    · intro f' hf'
      have hx' := (F'.keys _).1 (List.mem_map.2 ⟨f', hf', rfl⟩)
      have hx : ∃ c ∈ L, c.key = f'.propName := by
        by_contra hx
        have := h 0 f'.propName
        rw [filter_nil_iff.2 hx] at this
        cases hL : L'.filter (fun c => decide (c.key = f'.propName)) with
        | nil => exact (filter_nil_iff.1 hL) hx'
        | cons a l => rw [hL] at this; exact this
      obtain ⟨f, hf, hk⟩ := List.mem_map.1 ((F.keys _).2 hx)
      exact ⟨f, hf, hpair f hf f' hf' hk⟩

/-- Two positions, compared in the tree and in the document. -/
theorem samePoss_alike (n : Nat) : ∀ (ps ps' : List Complex), sizeOf ps ≤ n →
    ∀ P P' sets sets', TreeFor schema frags P sets ps → TreeFor schema frags P' sets' ps' →
      (samePoss ps ps' = true ↔ ∀ n, AlikeTo schema frags n P sets P' sets') := by
  induction n with
  | zero => intro ps ps' hs; exfalso; cases ps <;> simp at hs
  | succ n ih =>
    intro ps ps' hs P P' sets sets' H H'
    have hfields : ∀ T fields fields', Complex.mk T fields ∈ ps → Complex.mk T fields' ∈ ps' →
        ∀ L L', CollMany schema frags T P sets L → CollMany schema frags T P' sets' L' →
        (sameFields fields fields' = true ↔ ∀ n, AlikeFields (AlikeTo schema frags n) L L') := by
      intro T fields fields' hm hm' L L' hL hL'
      obtain ⟨_, L₀, hL₀, F⟩ := H.fields hm
      obtain ⟨_, L₀', hL₀', F'⟩ := H'.fields hm'
      have e := collMany_functional _ _ _ _ _ hL hL₀
      have e' := collMany_functional _ _ _ _ _ hL' hL₀'
      subst e e'
      refine sameFields_alike F F' ?_
      intro f hf f' hf' sub sub' ht ht' Q Q' s s' X X'
      have := sizeOf_sub hm hf ht
      exact ih sub sub' (by omega) Q Q' s s' X X'
    rw [samePoss_iff]
    constructor
    · intro h m
      cases m with
      | zero => trivial
      | succ m =>
        have hnames : ∀ T, T ∈ ps.map Complex.name ↔ T ∈ ps'.map Complex.name := by
          intro T
          simp only [List.mem_map]
          constructor
          · rintro ⟨⟨T, fs⟩, hc, rfl⟩
            obtain ⟨⟨T', fs'⟩, hc', hs⟩ := forall₂_mem_left h _ hc
            rw [sameComplex, Bool.and_eq_true, decide_eq_true_eq] at hs
            exact ⟨_, hc', hs.1.symm⟩
          · rintro ⟨⟨T', fs'⟩, hc', rfl⟩
            obtain ⟨⟨T, fs⟩, hc, hs⟩ := forall₂_mem h _ hc'
            rw [sameComplex, Bool.and_eq_true, decide_eq_true_eq] at hs
            exact ⟨_, hc, hs.1⟩
        refine ⟨fun T => by rw [← (H.tree 1).2.1, ← (H'.tree 1).2.1, hnames], ?_⟩
        intro T hT L L' hL hL'
        obtain ⟨⟨T₀, fs⟩, hc, he⟩ := List.mem_map.1 (((H.tree 1).2.1 T).2 hT)
        have he : T₀ = T := he
        subst he
        obtain ⟨⟨T', fs'⟩, hc', hs⟩ := forall₂_mem_left h _ hc
        rw [sameComplex, Bool.and_eq_true, decide_eq_true_eq] at hs
        obtain ⟨rfl, hs⟩ := hs
        exact (hfields _ _ _ hc hc' L L' hL hL').1 hs m
    · intro h
      have hpair : ∀ c ∈ ps, ∀ c' ∈ ps', c.name = c'.name → sameComplex c c' = true := by
        rintro ⟨T, fs⟩ hc ⟨T', fs'⟩ hc' hn
        have hn : T = T' := hn
        subst hn
        obtain ⟨hT, L, hL, _⟩ := H.fields hc
        obtain ⟨_, L', hL', _⟩ := H'.fields hc'
        rw [sameComplex, Bool.and_eq_true, decide_eq_true_eq]
        refine ⟨rfl, (hfields _ _ _ hc hc' L L' hL hL').2 (fun m => ?_)⟩
        exact (h (m + 1)).2 T hT L L' hL hL'
      have hnames : ∀ T, T ∈ ps.map Complex.name ↔ T ∈ ps'.map Complex.name := by
        intro T
        rw [(H.tree 1).2.1, (H'.tree 1).2.1]
        exact (h 1).1 T
      refine forall₂_of_sorted (k := Complex.name) (k' := Complex.name) ?_ _ _ (H.tree 1).1 (H'.tree 1).1 ?_ ?_
      · rintro ⟨T, fs⟩ ⟨T', fs'⟩ hs
        rw [sameComplex, Bool.and_eq_true, decide_eq_true_eq] at hs
        exact hs.1
      · intro c hc
        obtain ⟨c', hc', hn⟩ := List.mem_map.1 ((hnames _).1 (List.mem_map.2 ⟨c, hc, rfl⟩))
        exact ⟨c', hc', hpair c hc c' hc' hn.symm⟩
      · intro c' hc'
        obtain ⟨c, hc, hn⟩ := List.mem_map.1 ((hnames _).2 (List.mem_map.2 ⟨c', hc', rfl⟩))
        exact ⟨c, hc, hpair c hc c' hc' hn⟩

theorem position_trans {P P' P'' : String} {sets sets' sets'' : List (List Selection)}
    (h : Position schema frags P sets P' sets') (h' : Position schema frags P' sets' P'' sets'') :
    Position schema frags P sets P'' sets'' := by
  induction h with
  | refl => exact h'
  | step a b c _ ih => exact .step a b c (ih h')

theorem mem_of_filter {L : List Contribution} {key : String} {c : Contribution} {rest : List Contribution}
    (e : L.filter (fun c => decide (c.key = key)) = c :: rest) : c ∈ L ∧ c.key = key := by
  have hin : c ∈ L.filter (fun c => decide (c.key = key)) := by rw [e]; exact List.mem_cons_self ..
  have := List.mem_filter.1 hin
  exact ⟨this.1, of_decide_eq_true this.2⟩

/-- Every nested list of alternatives belongs to a position of the document. -/
theorem position_of_under {P : String} {sets : List (List Selection)} {ps qs : List Complex}
    (H : TreeFor schema frags P sets ps) (h : Under ps qs) :
    ∃ P' sets', Position schema frags P sets P' sets' ∧ TreeFor schema frags P' sets' qs := by
  induction h with
  | refl => exact ⟨P, sets, .refl, H⟩
  | @step qs T fields fld sub _ hm hf hty ih =>
    obtain ⟨P', sets', hp, H'⟩ := ih
    obtain ⟨hT, L, hL, F⟩ := H'.fields hm
    obtain ⟨c, rest, e, _, _, h3⟩ := F.fields fld hf
    rw [hty] at h3
    obtain ⟨hc, hk⟩ := mem_of_filter e
    refine ⟨c.field.type.name, merged L fld.propName, position_trans hp ?_, h3.2⟩
    rw [← hk]
    exact .step hT hL hc .refl

/-- Every position of the document that has object types belongs to a nested list of alternatives. -/
theorem under_of_position (hcon : Consistent schema) {P P' : String} {sets sets' : List (List Selection)}
    (h : Position schema frags P sets P' sets') : ∀ ps : List Complex, TreeFor schema frags P sets ps →
    ∀ T ∈ possibleTypes schema P', ∃ qs, Under ps qs ∧ TreeFor schema frags P' sets' qs := by
  induction h with
  | refl => intro ps H _ _; exact ⟨ps, .refl, H⟩
  | @step P sets P' sets' T₀ L c hT hL hc hrest ih =>
    intro ps H T hT'
    obtain ⟨⟨T', fields⟩, hm, he⟩ := List.mem_map.1 (((H.tree 1).2.1 T₀).2 hT)
    have he : T' = T₀ := he
    subst he
    obtain ⟨_, L', hL', F⟩ := H.fields hm
    have e := collMany_functional _ _ _ _ _ hL hL'
    subst e
    obtain ⟨L', hL', hF⟩ := (H.tree 1).2.2 _ fields hm
    have e := collMany_functional _ _ _ _ _ hL hL'
    subst e
    have hone := one_type_of_distinct hF (mem_distinctPoss H.distinct hm).1
    obtain ⟨fld, hf, hk⟩ := List.mem_map.1 ((F.keys c.key).2 ⟨c, hc, rfl⟩)
    obtain ⟨c₁, rest, e, _, _, h3⟩ := F.fields fld hf
    obtain ⟨hc₁, hk₁⟩ := mem_of_filter e
    have hty : c₁.field.type.name = c.field.type.name := hone c₁ hc₁ c hc (by rw [hk₁, hk])
    have hcomp : IsComposite schema c.field.type.name := by
      cases hrest with
      | refl => exact composite_of_possible hT'
      | step a _ _ _ => exact composite_of_possible a
    have hcx : c₁.field.type.definition.isComplex = true := by
      obtain ⟨P₁, name, hf₁⟩ := collMany_field hL c₁ hc₁
      exact ((hcon P₁ name _ hf₁).2).2 (by rw [hty]; exact hcomp)
    cases hty' : fld.type with
    | complex sub =>
      rw [hty'] at h3
      obtain ⟨qs, hu, hq⟩ := ih sub (by rw [← hty, ← hk]; exact h3.2) T hT'
      exact ⟨qs, Under.trans (.step .refl hm hf hty') hu, hq⟩
    | typeName =>
      rw [hty'] at h3
      have h3 : c₁.field.type.definition = .typeName := h3
      rw [h3] at hcx; simp [FieldTypeDef.isComplex] at hcx
    | enum n =>
      rw [hty'] at h3
      rw [h3.1] at hcx; simp [FieldTypeDef.isComplex] at hcx
    | scalar s =>
      rw [hty'] at h3
      have h3 : c₁.field.type.definition = .scalar s := h3
      rw [h3] at hcx; simp [FieldTypeDef.isComplex] at hcx

/-- The condition on the tree is the condition on the document. -/
theorem sameBodies_iff_agree (hcon : Consistent schema) {P : String} {sets : List (List Selection)}
    {ps : List Complex} (H : TreeFor schema frags P sets ps) :
    SameBodies ps ↔ LookAlikesAgree schema frags P sets := by
  have hfields : ∀ {qs P' sets' T T' fields fields' L L'}, TreeFor schema frags P' sets' qs →
      Complex.mk T fields ∈ qs → Complex.mk T' fields' ∈ qs → CollMany schema frags T P' sets' L →
      CollMany schema frags T' P' sets' L' →
      ((SameProps (.mk T fields) (.mk T' fields') ↔
          ∀ key, (∃ c ∈ L, c.key = key) ↔ ∃ c ∈ L', c.key = key) ∧
        (sameFields fields fields' = true ↔ ∀ n, AlikeFields (AlikeTo schema frags n) L L')) := by
    intro qs P' sets' T T' fields fields' L L' Q hm hm' hL hL'
    obtain ⟨_, L₀, hL₀, F⟩ := Q.fields hm
    obtain ⟨_, L₀', hL₀', F'⟩ := Q.fields hm'
    have e := collMany_functional _ _ _ _ _ hL hL₀
    have e' := collMany_functional _ _ _ _ _ hL' hL₀'
    subst e e'
    refine ⟨?_, sameFields_alike F F' (fun f _ f' _ sub sub' _ _ => ?_)⟩
    · unfold SameProps
      refine forall_congr' fun k => ?_
      rw [← F.keys k, ← F'.keys k]
      exact Iff.rfl
    · intro Q Q' s s' X X'
      exact samePoss_alike _ sub sub' le_rfl Q Q' s s' X X'
  constructor
  · intro h P' sets' hp T hT T' hT' L L' hL hL' hkeys
    obtain ⟨qs, hu, Q⟩ := under_of_position hcon hp ps H T hT
    obtain ⟨⟨T₁, fields⟩, hm, he⟩ := List.mem_map.1 (((Q.tree 1).2.1 T).2 hT)
    have he : T₁ = T := he
    subst he
    obtain ⟨⟨T₂, fields'⟩, hm', he⟩ := List.mem_map.1 (((Q.tree 1).2.1 T').2 hT')
    have he : T₂ = T' := he
    subst he
    obtain ⟨a, b⟩ := hfields Q hm hm' hL hL'
    exact b.1 (h qs hu _ _ _ _ hm hm' (a.2 hkeys))
  · intro h qs hu T fields T' fields' hm hm' hsp
    obtain ⟨P', sets', hp, Q⟩ := position_of_under H hu
    obtain ⟨hT, L, hL, _⟩ := Q.fields hm
    obtain ⟨hT', L', hL', _⟩ := Q.fields hm'
    obtain ⟨a, b⟩ := hfields Q hm hm' hL hL'
    exact b.2 (h P' sets' hp T hT T' hT' L L' hL hL' (a.1 hsp))

/-- **C23.** The condition under which merging is safe, said of the document: the generated alternatives with
the same property names have the same bodies exactly if, wherever GraphQL collects the same response keys for
two object types, it collects fields with the same values for them. -/
theorem C23_same_bodies_iff (ω : Hash) (fuel : Nat) (showDep : Bool) (hcon : Consistent schema)
    (hfr : FragsValid schema frags) (d : Definition) (op : Operation) (ws : List Warning) (P : String)
    (hP : rootType d = some P)
    (h : Operation.compile ω fuel ⟨schema, showDep, frags⟩ d = some (.ok op, ws))
    (hone : OneTypePerKey schema frags P [itemsOf d]) :
    SameBodies op.collection ↔ LookAlikesAgree schema frags P [itemsOf d] :=
  sameBodies_iff_agree hcon ⟨C10_generated_tree ω fuel showDep hcon hfr d op ws P hP h,
    C21_properties_listed_once ω fuel showDep hcon hfr d op ws P hP h hone⟩

theorem sameValues_refl {S : Prop} (h : S) (t : FieldType) : SameValues S t t := by
  refine ⟨rfl, rfl, ?_⟩
  cases hc : t.definition.isComplex with
  | true => exact .inl ⟨rfl, rfl, h⟩
  | false => exact .inr ⟨rfl, rfl, fun _ => rfl⟩

theorem alikeFields_refl {S : String → List (List Selection) → String → List (List Selection) → Prop}
    (h : ∀ P sets, S P sets P sets) (L : List Contribution) : AlikeFields S L L := by
  intro key
  cases L.filter (fun c => decide (c.key = key)) with
  | nil => trivial
  | cons c rest => exact sameValues_refl (h _ _) _

theorem alikeTo_refl (n : Nat) : ∀ (P : String) (sets : List (List Selection)),
    AlikeTo schema frags n P sets P sets := by
  induction n with
  | zero => intro P sets; trivial
  | succ n ih =>
    intro P sets
    refine ⟨fun _ => Iff.rfl, ?_⟩
    intro T _ L L' hL hL'
    have e := collMany_functional _ _ _ _ _ hL hL'
    subst e
    exact alikeFields_refl ih L

theorem coll_onlyFields {items : List Selection} (h : OnlyFields items) : ∀ {T P : String} {L : List Contribution},
    Coll schema frags T P items L → (∀ T', Coll schema frags T' P items L) ∧ ∀ c ∈ L, OnlyFields c.items := by
  induction h with
  | nil => intro T P L hc; cases hc; exact ⟨fun _ => .nil, by simp⟩
  | cons hi _ _ ih =>
    intro T P L hc
    cases hc with
    | field hf hrest =>
      obtain ⟨a, b⟩ := ih hrest
      refine ⟨fun T' => .field hf (a T'), ?_⟩
      intro c hc
      rcases List.mem_cons.1 hc with rfl | hc
      · exact hi
      · exact b c hc

theorem collMany_onlyFields {sets : List (List Selection)} (h : ∀ s ∈ sets, OnlyFields s) {T P : String}
    {L : List Contribution} (hc : CollMany schema frags T P sets L) :
    (∀ T', CollMany schema frags T' P sets L) ∧ ∀ c ∈ L, OnlyFields c.items := by
  obtain ⟨Ls, hF, rfl⟩ := hc
  constructor
  · intro T'
    refine ⟨Ls, ?_, rfl⟩
    induction hF with
    | nil => exact .nil
    | cons a _ ih =>
      exact .cons ((coll_onlyFields (h _ (by simp)) a).1 _) (ih (fun s hs => h s (by simp [hs])))
  · intro c hc
    obtain ⟨l, hl, hcl⟩ := List.mem_flatten.1 hc
    obtain ⟨s, hs, hsl⟩ := forall₂_mem hF l hl
    exact (coll_onlyFields (h s hs) hsl).2 c hcl

/-- **C23.** Without fragments there is nothing to fear: object types then differ in nothing. -/
theorem C23_only_fields_agree (P : String) (sets : List (List Selection)) (h : ∀ s ∈ sets, OnlyFields s) :
    LookAlikesAgree schema frags P sets := by
  intro P' sets' hp
  have hall : ∀ s ∈ sets', OnlyFields s := by
    induction hp with
    | refl => exact h
    | @step P sets P' sets' T L c _ hL _ _ ih =>
      refine ih ?_
      intro s hs
      unfold merged at hs
      obtain ⟨c', hc', rfl⟩ := List.mem_map.1 hs
      exact (collMany_onlyFields h hL).2 c' (List.mem_filter.1 hc').1
  intro T _ T' _ L L' hL hL' _ n
  have e := collMany_functional _ _ _ _ _ hL' ((collMany_onlyFields hall hL).1 T')
  subst e
  exact alikeFields_refl (alikeTo_refl n) _

/-- **C22, with conditions on the document only.** Whatever a server may answer to the definition inhabits the
generated type, if wherever object types have the same response keys they have the same fields. -/
theorem C22_responses_inhabit_document {doc : JSchema} (ω : Hash) (fuel : Nat) (showDep : Bool) (cfg : TsConfig)
    (hv : ValidDoc doc) (hs : Schema.ofJson doc = .ok schema) (hbad : NoNonNullListInNullableList doc)
    (hfr : FragsValid schema frags) (d : Definition) (op : Operation) (ws : List Warning) (P : String)
    (hns : isSubscription d = false) (hP : serverRoot d = some P)
    (h : Operation.compile ω fuel ⟨schema, showDep, frags⟩ d = some (.ok op, ws))
    (hone : OneTypePerKey schema frags P [itemsOf d]) (hagree : LookAlikesAgree schema frags P [itemsOf d])
    (applies : List Directive → Prop) (hu : Unconditional applies (itemsOf d))
    (huf : FragsApply applies frags)
    (hmain : IsTypeName op.name)
    (hT : ∀ P, ∀ T ∈ objectTypes doc P, IsName T)
    (hk : ∀ k ∈ compositeKeys (itemsOf d), IsName k)
    (hkf : ∀ name fd, AMap.get? frags name = some fd → ∀ k ∈ compositeKeys fd.items, IsName k)
    (hout : ∀ n, Outside cfg doc n → IsTypeName n ∧ ¬ Generated op.name n)
    (scalars env : String → JVal → Prop) (he : EnvFor cfg doc scalars env)
    (c : Compile) (hc : compileIr ω op cfg schema = .ok c) :
    ∃ f : TsFile, c.contents = f.text cfg.useReadonlyTypes ∧ FileFor cfg schema op f ∧
      ∀ T ∈ objectTypes doc P, ∀ v, (∀ n, AnswersTo doc frags applies scalars n T [itemsOf d] v) →
        ∀ n, Inhabits f.decls env n f.name v :=
  C22_responses_inhabit ω fuel showDep cfg hv hs hbad hfr d op ws P hns hP h hone
    ((C23_same_bodies_iff ω fuel showDep (loaded_consistent hv hs) hfr d op ws P (root_of_server hns hP h) h
      hone).2 hagree) applies hu huf hmain hT hk hkf hout scalars env he c hc

/-- The demo query, with its inline fragments and its spread, meets the condition. -/
theorem demo_agree : LookAlikesAgree Demo.respSchema Demo.ctx.fragments "Query" [itemsOf Demo.query] := by
  obtain ⟨op, ws, c, h, _, hd, hsame, _⟩ := respChecks_sound resp_checks
  have hcon := loaded_consistent resp_valid resp_loads
  have hone := (C21_listed_once_iff .inOrder 9 true hcon resp_frags_valid Demo.query op ws "Query" rfl h).1 hd
  exact (C23_same_bodies_iff .inOrder 9 true hcon resp_frags_valid Demo.query op ws "Query" rfl h hone).1 hsame

/-- The query of `C23_merging_unsound` does not: `User` and `Bot` have the key `link` with different fields
below. -/
theorem merge_disagree : ¬ LookAlikesAgree Demo.mergeSchema [] "Query" [itemsOf Demo.mergeQuery] := by
  intro h
  have named : ∀ {P name tn : String}, (fieldOf Demo.mergeSchema P name).map (fun f => f.type.name) = some tn →
      ∃ f, fieldOf Demo.mergeSchema P name = some f ∧ f.type.name = tn := by
    intro P name tn h
    cases hf : fieldOf Demo.mergeSchema P name with
    | none => rw [hf] at h; simp at h
    | some f => rw [hf] at h; simp at h; exact ⟨f, rfl, h⟩
  have many : ∀ {T P : String} {items : List Selection} {L : List Contribution},
      Coll Demo.mergeSchema [] T P items L → CollMany Demo.mergeSchema [] T P [items] L :=
    fun h => ⟨[_], .cons h .nil, by simp⟩
  obtain ⟨fn, n1, n2⟩ := named (P := "Query") (name := "node") (tn := "Node") (by decide +kernel)
  obtain ⟨fb, b1, b2⟩ := named (P := "Bot") (name := "link") (tn := "User") (by decide +kernel)
  obtain ⟨fu, u1, u2⟩ := named (P := "User") (name := "link") (tn := "User") (by decide +kernel)
  obtain ⟨fi, i1, _⟩ := named (P := "User") (name := "id") (tn := "ID") (by decide +kernel)
  obtain ⟨fm, m1, _⟩ := named (P := "User") (name := "name") (tn := "String") (by decide +kernel)
  have hp : Position Demo.mergeSchema [] "Query" [itemsOf Demo.mergeQuery] "Node"
      [[.inline ⟨3, 1⟩ (some "Bot") [] [.field ⟨3, 9⟩ none "link" [] [] [Demo.leaf 3 16 "id"]],
        .inline ⟨4, 1⟩ (some "User") [] [.field ⟨4, 9⟩ none "link" [] [] [Demo.leaf 4 16 "name"]]]] := by
    refine .step (T := "Query") (by decide +kernel) (many (.field n1 .nil)) List.mem_cons_self ?_
    rw [n2]
    exact .refl
  have hb := many (Coll.inlineIn (frags := []) (pos := ⟨3, 1⟩) (dirs := []) (P := "Node") (T := "Bot") (C := "Bot")
    (by decide +kernel) (.field (pos := ⟨3, 9⟩) (al := none) (args := []) (dirs := [])
      (items := [Demo.leaf 3 16 "id"]) b1 .nil)
    (.inlineOut (C := "User") (pos := ⟨4, 1⟩) (dirs := [])
      (items := [.field ⟨4, 9⟩ none "link" [] [] [Demo.leaf 4 16 "name"]]) (by decide +kernel) .nil))
  have hu := many (Coll.inlineOut (frags := []) (pos := ⟨3, 1⟩) (dirs := []) (P := "Node") (T := "User") (C := "Bot")
    (items := [.field ⟨3, 9⟩ none "link" [] [] [Demo.leaf 3 16 "id"]])
    (by decide +kernel) (.inlineIn (C := "User") (pos := ⟨4, 1⟩) (dirs := [])
      (by decide +kernel) (.field (pos := ⟨4, 9⟩) (al := none) (args := []) (dirs := [])
      (items := [Demo.leaf 4 16 "name"]) u1 .nil) .nil))
  have := h _ _ hp "Bot" (by decide +kernel) "User" (by decide +kernel) _ _ hb hu
    (by intro key; simp) 1 "link"
  simp [merged, SameValues, b2, u2] at this
  rcases this.2.2 with ⟨_, _, _, h3⟩ | ⟨h1, _⟩
  · have h4 := h3 "User" (by decide +kernel) _ _ (many (.field i1 .nil)) (many (.field m1 .nil)) "id"
    simp at h4
  · have : (fieldOf Demo.mergeSchema "Bot" "link").map (fun f => f.type.definition.isComplex) = some true := by
      decide +kernel
    rw [b1] at this
    simp [h1] at this

/-- A selection without fragments. -/
example : LookAlikesAgree Demo.schema [] "Query"
    [[.field ⟨1, 1⟩ none "node" [] [] [.field ⟨1, 2⟩ none "id" [] [] []]]] :=
  C23_only_fields_agree _ _ (by
    intro s hs
    rw [List.mem_singleton.1 hs]
    exact .cons (.cons .nil .nil) .nil)

end Qlc
