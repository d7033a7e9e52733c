import Verif.Spec.Reorder
import Verif.Props.Regenerate
/-
C113: the order of the introspection document does not matter.
-/
set_option autoImplicit false

namespace Qlc
open Spec

section
variable {doc doc' : JSchema}

theorem sameUpToOrder_symm {α : Type} {a b : Option (List α)} (h : SameUpToOrder a b) : SameUpToOrder b a := by
  cases a <;> cases b <;> simp_all [SameUpToOrder]
  exact h.symm

theorem Spec.SameType.symm {j j' : JType} (h : SameType j j') : SameType j' j :=
  ⟨h.kind.symm, h.name.symm, h.description.symm, sameUpToOrder_symm h.possibleTypes, sameUpToOrder_symm h.inputFields,
    sameUpToOrder_symm h.fields, sameUpToOrder_symm h.enumValues⟩

theorem reordered_symm (h : Reordered doc doc') : Reordered doc' doc := by
  obtain ⟨ts, hp, hf⟩ := h
  obtain ⟨us, h1, h2⟩ := List.perm_comp_forall₂ hp hf
  exact ⟨us, h2.symm, (h1.imp (fun _ _ h => h.symm)).flip⟩

theorem forall₂_left {α β : Type} {R : α → β → Prop} {l : List α} {l' : List β} (h : List.Forall₂ R l l') :
    ∀ a ∈ l, ∃ b ∈ l', R a b := by
  induction h with
  | nil => simp
  | cons h _ ih =>
    intro a ha
    rcases List.mem_cons.1 ha with rfl | ha
    · exact ⟨_, List.mem_cons_self, h⟩
    · obtain ⟨b, hb, hr⟩ := ih a ha
      exact ⟨b, List.mem_cons_of_mem _ hb, hr⟩

theorem reordered_listed (h : Reordered doc doc') : ∀ j ∈ doc.types, ∃ j' ∈ doc'.types, SameType j j' := by
  obtain ⟨ts, hp, hf⟩ := h
  exact fun j hj => forall₂_left hf j (hp.mem_iff.1 hj)

theorem forall₂_names {l l' : List JType} (h : List.Forall₂ SameType l l') : l'.map JType.name = l.map JType.name := by
  induction h with
  | nil => rfl
  | cons h _ ih => rw [List.map_cons, List.map_cons, ih, h.name]

theorem Spec.UniqueNames.reordered (hu : UniqueNames doc) (h : Reordered doc doc') : UniqueNames doc' := by
  refine ⟨?_, ?_, ?_⟩
  · obtain ⟨ts, hp, hf⟩ := h
    rw [forall₂_names hf]
    exact (hp.map _).nodup_iff.1 hu.types
  · intro j' hj' fs' hfs'
    obtain ⟨j, hj, hs⟩ := reordered_listed (reordered_symm h) j' hj'
    have := hs.fields
    rw [hfs'] at this
    cases hfs : j.fields with
    | none => rw [hfs] at this; exact absurd this id
    | some fs =>
      rw [hfs] at this
      exact ((this : fs'.Perm fs).map _).nodup_iff.2 (hu.fields j hj fs hfs)
  · intro j' hj' fs' hfs'
    obtain ⟨j, hj, hs⟩ := reordered_listed (reordered_symm h) j' hj'
    have := hs.inputFields
    rw [hfs'] at this
    cases hfs : j.inputFields with
    | none => rw [hfs] at this; exact absurd this id
    | some fs =>
      rw [hfs] at this
      exact ((this : fs'.Perm fs).map _).nodup_iff.2 (hu.inputFields j hj fs hfs)

/-- With different names there is one entry of a name. -/
theorem lastNamed_unique {α : Type} {name : α → String} {n : String} {l : List α} (hn : (l.map name).Nodup) {a : α}
    (ha : a ∈ l) (hna : name a = n) : lastNamed name n l = some a := by
  cases h : lastNamed name n l with
  | none =>
    unfold lastNamed at h
    rw [List.getLast?_eq_none_iff, List.filter_eq_nil_iff] at h
    exact absurd hna (by simpa using h a ha)
  | some b =>
    obtain ⟨hb, hnb⟩ := lastNamed_name h
    rw [List.inj_on_of_nodup_map hn hb ha (hnb.trans hna.symm)]

theorem lastNamed_perm {α : Type} {name : α → String} {l l' : List α} (hp : l.Perm l') (hn : (l.map name).Nodup)
    (n : String) : lastNamed name n l = lastNamed name n l' := by
  cases h : lastNamed name n l with
  | some a =>
    obtain ⟨ha, hna⟩ := lastNamed_name h
    exact (lastNamed_unique ((hp.map name).nodup_iff.1 hn) (hp.mem_iff.1 ha) hna).symm
  | none =>
    cases h' : lastNamed name n l' with
    | none => rfl
    | some a =>
      obtain ⟨ha, hna⟩ := lastNamed_name h'
      rw [lastNamed_unique hn (hp.mem_iff.2 ha) hna] at h
      cases h

/-- Each type of one document is the same type in the other one. -/
theorem reordered_some (hu : UniqueNames doc) (h : Reordered doc doc') {n : String} {j : JType}
    (hj : typeNamed doc n = some j) : ∃ j', typeNamed doc' n = some j' ∧ SameType j j' := by
  obtain ⟨hm, hn⟩ := lastNamed_name hj
  obtain ⟨j', hj', hs⟩ := reordered_listed h j hm
  exact ⟨j', lastNamed_unique (hu.reordered h).types hj' (by rw [hs.name, hn]), hs⟩

theorem reordered_none (hu : UniqueNames doc) (h : Reordered doc doc') {n : String}
    (hj : typeNamed doc n = none) : typeNamed doc' n = none := by
  cases hj' : typeNamed doc' n with
  | none => rfl
  | some j' =>
    obtain ⟨j, h1, _⟩ := reordered_some (hu.reordered h) (reordered_symm h) hj'
    rw [hj] at h1
    cases h1

theorem reordered_kind (hu : UniqueNames doc) (h : Reordered doc doc') (n : String) :
    kindNamed doc' n = kindNamed doc n := by
  unfold kindNamed
  cases hj : typeNamed doc n with
  | none => rw [reordered_none hu h hj]
  | some j =>
    obtain ⟨j', h1, h2⟩ := reordered_some hu h hj
    rw [h1, Option.map_some, Option.map_some, h2.kind]

theorem getD_perm {α : Type} {a b : Option (List α)} (h : SameUpToOrder a b) : (a.getD []).Perm (b.getD []) := by
  cases a <;> cases b <;> simp_all [SameUpToOrder]

theorem reordered_fields (hu : UniqueNames doc) (h : Reordered doc doc') (P : String) :
    (declaredFields doc P).Perm (declaredFields doc' P) ∧ ((declaredFields doc P).map JField.name).Nodup := by
  unfold declaredFields
  cases hj : typeNamed doc P with
  | none => rw [reordered_none hu h hj]; simp
  | some j =>
    obtain ⟨j', h1, h2⟩ := reordered_some hu h hj
    rw [h1]
    simp only [h2.kind]
    split
    · refine ⟨getD_perm h2.fields, ?_⟩
      cases hfs : j.fields with
      | none => simp
      | some fs => exact hu.fields j (lastNamed_name hj).1 fs hfs
    · simp

theorem reordered_inputs (hu : UniqueNames doc) (h : Reordered doc doc') (P : String) :
    (inputFields doc P).Perm (inputFields doc' P) ∧ ((inputFields doc P).map JField.name).Nodup := by
  unfold inputFields
  cases hj : typeNamed doc P with
  | none => rw [reordered_none hu h hj]; simp
  | some j =>
    obtain ⟨j', h1, h2⟩ := reordered_some hu h hj
    rw [h1]
    simp only [h2.kind]
    split
    · refine ⟨getD_perm h2.inputFields, ?_⟩
      cases hfs : j.inputFields with
      | none => simp
      | some fs => exact hu.inputFields j (lastNamed_name hj).1 fs hfs
    · simp

theorem reordered_objects (hu : UniqueNames doc) (h : Reordered doc doc') (P T : String) :
    T ∈ objectTypes doc P ↔ T ∈ objectTypes doc' P := by
  unfold objectTypes
  cases hj : typeNamed doc P with
  | none => rw [reordered_none hu h hj]
  | some j =>
    obtain ⟨j', h1, h2⟩ := reordered_some hu h hj
    rw [h1]
    simp only [h2.kind]
    split
    · rfl
    · split
      · exact (getD_perm h2.possibleTypes).mem_iff
      · rfl

theorem reordered_grows (hu : UniqueNames doc) (h : Reordered doc doc') : Grows doc doc' := by
  refine ⟨fun n k hk => by rw [reordered_kind hu h, hk], ?_, fun P _ T => reordered_objects hu h P T⟩
  intro P name f hf
  obtain ⟨h1, h2⟩ := reordered_fields hu h P
  rw [← lastNamed_perm h1 h2, hf]

theorem reordered_fieldType (hu : UniqueNames doc) (h : Reordered doc doc') (P name : String) :
    fieldType doc' P name = fieldType doc P name := by
  obtain ⟨h1, h2⟩ := reordered_fields hu h P
  unfold fieldType
  rw [lastNamed_perm h1 h2]

theorem reordered_composite (hu : UniqueNames doc) (h : Reordered doc doc') (n : String) :
    CompositeNamed doc n ↔ CompositeNamed doc' n := by
  unfold CompositeNamed
  rw [reordered_kind hu h]

theorem reordered_subTy (hu : UniqueNames doc) (h : Reordered doc doc') : ∀ a b, SubTy doc a b → SubTy doc' a b := by
  intro a
  induction a with
  | named A =>
    intro b hb
    cases b with
    | named B =>
      unfold SubTy at hb ⊢
      rcases hb with hb | ⟨h1, h2, h3⟩
      · exact .inl hb
      · exact .inr ⟨(reordered_composite hu h A).1 h1, (reordered_composite hu h B).1 h2,
          fun T hT => (reordered_objects hu h B T).1 (h3 T ((reordered_objects hu h A T).2 hT))⟩
    | list b => unfold SubTy at hb; exact absurd hb id
    | nonNull b => unfold SubTy at hb; exact absurd hb id
  | list a ih =>
    intro b hb
    cases b with
    | list b => unfold SubTy at hb ⊢; exact ih b hb
    | named B => unfold SubTy at hb; exact absurd hb id
    | nonNull b => unfold SubTy at hb; exact absurd hb id
  | nonNull a ih =>
    intro b hb
    cases b with
    | list b => unfold SubTy at hb ⊢; exact ih _ hb
    | named B => unfold SubTy at hb ⊢; exact ih _ hb
    | nonNull b => unfold SubTy at hb ⊢; exact ih _ hb

/-- A reordered valid document is valid. -/
theorem reordered_valid (hu : UniqueNames doc) (h : Reordered doc doc') (hv : ValidDoc doc) : ValidDoc doc' := by
  refine ⟨?_, ?_, ?_, ?_, ?_⟩
  · intro P f hf
    obtain ⟨k, t, h1, h2, h3, h4⟩ := hv.refs P f ((reordered_fields hu h P).1.mem_iff.2 hf)
    exact ⟨k, t, h1, h2, h3, by rw [reordered_kind hu h, h4]⟩
  · intro P f hf
    exact hv.reserved P f ((reordered_fields hu h P).1.mem_iff.2 hf)
  · rw [reordered_kind hu h]; exact hv.reservedType
  · intro P T hT
    rw [reordered_kind hu h]
    exact hv.objects P T ((reordered_objects hu h P T).2 hT)
  · intro P T hT name k t hf
    rw [reordered_fieldType hu h] at hf
    obtain ⟨k', t', h1, h2⟩ := hv.covariant P T ((reordered_objects hu h P T).2 hT) name k t hf
    exact ⟨k', t', by rw [reordered_fieldType hu h, h1], reordered_subTy hu h _ _ h2⟩

theorem typeOk_same {j j' : JType} (h : SameType j j') (hj : TypeOk j) : TypeOk j' := by
  have ex : ∀ {a b : Option (List JField)}, SameUpToOrder a b → (∃ fs, a = some fs ∧ FieldsOk fs) →
      ∃ fs, b = some fs ∧ FieldsOk fs := by
    rintro _ b hs ⟨fs, rfl, hf⟩
    cases b with
    | none => exact absurd hs id
    | some fs' => exact ⟨fs', rfl, fun f hm => hf f ((hs : fs.Perm fs').mem_iff.2 hm)⟩
  have isome : ∀ {a b : Option (List String)}, SameUpToOrder a b → a.isSome → b.isSome := by
    intro a b hs ha
    cases a <;> cases b <;> simp_all [SameUpToOrder]
  unfold TypeOk at hj ⊢
  rw [h.kind]
  rcases hj with ⟨hk, hf⟩ | ⟨hk, hf, hp⟩ | ⟨hk, hf⟩ | ⟨hk, hp⟩ | ⟨hk, hp⟩ | hk
  · exact .inl ⟨hk, ex h.fields hf⟩
  · exact .inr (.inl ⟨hk, ex h.fields hf, isome h.possibleTypes hp⟩)
  · exact .inr (.inr (.inl ⟨hk, ex h.inputFields hf⟩))
  · exact .inr (.inr (.inr (.inl ⟨hk, isome h.possibleTypes hp⟩)))
  · exact .inr (.inr (.inr (.inr (.inl ⟨hk, isome h.enumValues hp⟩))))
  · exact .inr (.inr (.inr (.inr (.inr hk))))

/-- **C113.** Whether an introspection document is valid does not depend on its order. -/
theorem C113_valid (hu : UniqueNames doc) (h : Reordered doc doc') : ValidDoc doc ↔ ValidDoc doc' :=
  ⟨reordered_valid hu h, reordered_valid (hu.reordered h) (reordered_symm h)⟩

/-- **C113.** Whether a schema is loaded does not depend on its order, with or without names that occur twice. -/
theorem C113_loads (h : Reordered doc doc') :
    (∃ s, Schema.ofJson doc = .ok s) ↔ ∃ s, Schema.ofJson doc' = .ok s := by
  have half : ∀ {doc doc' : JSchema}, Reordered doc doc' → (∃ s, Schema.ofJson doc = .ok s) →
      ∃ s, Schema.ofJson doc' = .ok s := by
    intro doc doc' h hs
    rw [C04_schema_loads_iff_well_described] at hs ⊢
    intro j' hj'
    obtain ⟨j, hj, hsame⟩ := reordered_listed (reordered_symm h) j' hj'
    exact typeOk_same hsame.symm (hs j hj)
  exact ⟨half h, half (reordered_symm h)⟩

end

section
variable {doc doc' : JSchema} {schema schema' : Schema}

/-- The loaded forms of a type that differ only in order. -/
def LoadedAlike (t t' : SType) : Prop :=
  t'.documentation = t.documentation ∧
  ((∃ vs vs', t.definition = .enum vs ∧ t'.definition = .enum vs' ∧ vs.Perm vs') ∨
   (∃ n m m', t.definition = .inputObject n m ∧ t'.definition = .inputObject n m' ∧ m.Perm m') ∨
   ((∀ vs, t.definition ≠ .enum vs) ∧ (∀ vs, t'.definition ≠ .enum vs) ∧
     (∀ n m, t.definition ≠ .inputObject n m) ∧ ∀ n m, t'.definition ≠ .inputObject n m))

theorem LoadedAlike.symm {t t' : SType} (h : LoadedAlike t t') : LoadedAlike t' t := by
  refine ⟨h.1.symm, ?_⟩
  rcases h.2 with ⟨vs, vs', h1, h2, h3⟩ | ⟨n, m, m', h1, h2, h3⟩ | ⟨h1, h2, h3, h4⟩
  · exact .inl ⟨vs', vs, h2, h1, h3.symm⟩
  · exact .inr (.inl ⟨n, m', m, h2, h1, h3.symm⟩)
  · exact .inr (.inr ⟨h2, h1, h4, h3⟩)

/-- Every type of one schema is alike in the other one. -/
def AlikeSchemas (schema schema' : Schema) : Prop :=
  ∀ n t, schema.getType n = some t → ∃ t', schema'.getType n = some t' ∧ LoadedAlike t t'

theorem reordered_alike (hu : UniqueNames doc) (h : Reordered doc doc') (hs : Schema.ofJson doc = .ok schema)
    (hs' : Schema.ofJson doc' = .ok schema') : AlikeSchemas schema schema' := by
  intro n t ht
  obtain ⟨j, hj, hdoc, hdef⟩ := loaded_full hs ht
  obtain ⟨j', hj', hsame⟩ := reordered_some hu h hj
  have ht' := loaded_type hs' n
  rw [hj'] at ht'
  obtain ⟨t', ht', hdef₀⟩ := ht'
  obtain ⟨j₁, e1, hdoc', hdef'⟩ := loaded_full hs' ht'
  rw [hj'] at e1
  injection e1 with e1
  subst e1
  refine ⟨t', ht', by rw [← hdoc, ← hdoc', hsame.description], ?_⟩
  rcases typeDef_cases hdef with ⟨hk, _, _, _, _, e⟩ | ⟨hk, _, _, _, _, _, _, e⟩ | ⟨hk, _, _, e⟩ | ⟨hk, m, e⟩ |
    ⟨hk, vs, hvs, e⟩ | ⟨hk, e⟩ <;>
  rcases typeDef_cases hdef' with ⟨hk', _, _, _, _, e'⟩ | ⟨hk', _, _, _, _, _, _, e'⟩ | ⟨hk', _, _, e'⟩ | ⟨hk', m', e'⟩ |
    ⟨hk', vs', hvs', e'⟩ | ⟨hk', e'⟩ <;>
  first
    | (exfalso; rw [hsame.kind, hk] at hk'; revert hk'; decide)
    | (refine .inr (.inr ?_); rw [e, e']; refine ⟨?_, ?_, ?_, ?_⟩ <;> intros <;> simp; done)
    | skip
  · refine .inr (.inl ⟨j.name, m, m', e, by rw [e', hsame.name], ?_⟩)
    obtain ⟨_, n1, k1, g1⟩ := loaded_input hs ht e
    obtain ⟨_, n2, k2, g2⟩ := loaded_input hs' ht' e'
    obtain ⟨hp, hnd⟩ := reordered_inputs hu h n
    rw [List.perm_ext_iff_of_nodup (List.Nodup.of_map Prod.fst n1) (List.Nodup.of_map Prod.fst n2)]
    have key : ∀ k, k ∈ m.keys ↔ k ∈ m'.keys := fun k => by
      rw [k1, k2]; exact (hp.map JField.name).mem_iff
    have val : ∀ k f f', (k, f) ∈ m → (k, f') ∈ m' → f = f' := by
      intro k f f' hf hf'
      obtain ⟨a, a1, a2⟩ := g1 k f hf
      obtain ⟨b, b1, b2⟩ := g2 k f' hf'
      rw [lastNamed_perm hp hnd, b1] at a1
      injection a1 with a1
      subst a1
      rw [a2] at b2
      exact Except.ok.inj b2
    rintro ⟨k, f⟩
    constructor
    · intro hf
      obtain ⟨⟨k', f'⟩, hf', rfl⟩ := List.mem_map.1 ((key k).1 (List.mem_map.2 ⟨_, hf, rfl⟩))
      rw [val _ f f' hf hf']
      exact hf'
    · intro hf
      obtain ⟨⟨k', f'⟩, hf', rfl⟩ := List.mem_map.1 ((key k).2 (List.mem_map.2 ⟨_, hf, rfl⟩))
      rw [← val _ f' f hf' hf]
      exact hf'
  · refine .inl ⟨vs, vs', e, e', ?_⟩
    have := hsame.enumValues
    rw [hvs, hvs'] at this
    exact this

theorem alike_inputFieldOf {t t' : SType} (h : LoadedAlike t t') {f : SField} (hf : InputFieldOf t f) : InputFieldOf t' f := by
  obtain ⟨n, m, k, h1, h2⟩ := hf
  rcases h.2 with ⟨vs, vs', e, _, _⟩ | ⟨n', m₁, m', e, e', hp⟩ | ⟨_, _, e, _⟩
  · rw [h1] at e; cases e
  · rw [h1] at e
    injection e with e1 e2
    subst e1 e2
    exact ⟨n, m', k, e', hp.mem_iff.1 h2⟩
  · exact absurd h1 (e n m)

theorem alike_expanded (h : AlikeSchemas schema schema') {used : List String} {t : SType}
    (ht : Expanded schema used t) : ∃ t', Expanded schema' used t' ∧ LoadedAlike t t' := by
  induction ht with
  | used hu hg =>
    obtain ⟨t', h1, h2⟩ := h _ _ hg
    exact ⟨t', .used hu h1, h2⟩
  | sub he hsub ih =>
    obtain ⟨f, hf, hd, hg⟩ := hsub
    obtain ⟨t', h1, h2⟩ := ih
    obtain ⟨u, h3, h4⟩ := h _ _ hg
    exact ⟨u, .sub h1 ⟨f, alike_inputFieldOf h2 hf, hd, h3⟩, h4⟩

theorem alike_globalName (h : AlikeSchemas schema schema') {used : List String} {n : String}
    (hn : GlobalName schema used n) : GlobalName schema' used n := by
  cases hn with
  | used hu => exact .used hu
  | field he hf hd =>
    obtain ⟨t', h1, h2⟩ := alike_expanded h he
    exact .field h1 (alike_inputFieldOf h2 hf) hd

theorem alike_validGlobal (h : AlikeSchemas schema schema') {n : String} (hv : ValidGlobal schema n) :
    ValidGlobal schema' n := by
  obtain ⟨t, ht, hd, hf⟩ := hv
  obtain ⟨t', h1, h2⟩ := h n t ht
  refine ⟨t', h1, ?_, fun f hf' => hf f (alike_inputFieldOf h2.symm hf')⟩
  rcases h2.2 with ⟨vs, vs', _, e, _⟩ | ⟨n', m₁, m', _, e, _⟩ | ⟨e1, _, e2, _⟩
  · exact .inl ⟨vs', e⟩
  · exact .inr ⟨n', m', e⟩
  · rcases hd with ⟨vs, hd⟩ | ⟨a, b, hd⟩
    · exact absurd hd (e1 vs)
    · exact absurd hd (e2 a b)

theorem sortStr_of_perm {l l' : List String} (h : l.Perm l') : sortStr l = sortStr l' := by
  refine List.Perm.eq_of_pairwise (le := fun a b => id a ≤ id b) (fun a b _ _ => str_le_antisymm)
    (sortBy_sorted id l) (sortBy_sorted id l') ?_
  exact ((sortBy_perm id l).trans h).trans (sortBy_perm id l').symm

theorem alike_globalDef (hk : InputFieldsOnce schema) (ω ω' : Hash) (cfg : TsConfig) (n : String) {t t' : SType}
    (ht : schema.getType n = some t) (h : LoadedAlike t t') : globalDef ω cfg n t = globalDef ω' cfg n t' := by
  unfold globalDef
  rcases h.2 with ⟨vs, vs', e, e', hp⟩ | ⟨nm, m, m', e, e', hp⟩ | ⟨e1, e2, e3, e4⟩
  · rw [e, e']
    simp only [enumDefFromType, h.1, sortStr_of_perm (hp.map _)]
  · rw [e, e']
    simp only [inputDefFromType]
    have : sortBy Prod.fst (ω.perm ["typescript.rs:100"] m) = sortBy Prod.fst (ω'.perm ["typescript.rs:100"] m') := by
      refine sortBy_eq_of_perm _ (((ω.isPerm _ _).trans hp).trans (ω'.isPerm _ _).symm) ?_
      exact ((ω.isPerm ["typescript.rs:100"] m).map Prod.fst).nodup_iff.2 (hk n t nm m ht e)
    rw [this]
  · cases hd : t.definition with
    | enum vs => exact absurd hd (e1 vs)
    | inputObject a b => exact absurd hd (e3 a b)
    | _ =>
      cases hd' : t'.definition with
      | enum vs => exact absurd hd' (e2 vs)
      | inputObject a b => exact absurd hd' (e4 a b)
      | _ => rfl

/-- **C113.** The text of the globals file, and whether there is one, does not depend on the order of the
introspection document. -/
theorem C113_globals (hu : UniqueNames doc) (hre : Reordered doc doc') (hs : Schema.ofJson doc = .ok schema)
    (hs' : Schema.ofJson doc' = .ok schema') (ω ω' : Hash) (fuel fuel' : Nat) (cfg : TsConfig)
    {used used' : List String} (hused : ∀ n, n ∈ used ↔ n ∈ used') {r r' : Except TsError String}
    (h : compileGlobals ω fuel cfg schema used = some r)
    (h' : compileGlobals ω' fuel' cfg schema' used' = some r') (t : String) : r = .ok t ↔ r' = .ok t := by
  have half : ∀ {doc doc' : JSchema} {schema schema' : Schema} {ω ω' : Hash} {fuel fuel' : Nat} {used used' : List String}
      {r r' : Except TsError String}, UniqueNames doc → Reordered doc doc' → Schema.ofJson doc = .ok schema →
      Schema.ofJson doc' = .ok schema' → (∀ n, n ∈ used ↔ n ∈ used') →
      compileGlobals ω fuel cfg schema used = some r → compileGlobals ω' fuel' cfg schema' used' = some r' →
      r = .ok t → r' = .ok t := by
    intro doc doc' schema schema' ω ω' fuel fuel' used used' r r' hu hre hs hs' hused h h' hr
    subst hr
    have ha := reordered_alike hu hre hs hs'
    have ha' := reordered_alike (hu.reordered hre) (reordered_symm hre) hs' hs
    have hname : ∀ n, GlobalName schema' used' n ↔ GlobalName schema used n := fun n => by
      rw [← globalName_congr hused]
      exact ⟨alike_globalName ha', alike_globalName ha⟩
    have hall := (C32_globals_ok_iff ω fuel cfg schema used _ h).1 ⟨t, rfl⟩
    obtain ⟨t', rfl⟩ := (C32_globals_ok_iff ω' fuel' cfg schema' used' _ h').2
      (fun n hn => alike_validGlobal ha (hall n ((hname n).1 hn)))
    congr 1
    have hk := ofJson_inputFieldsOnce hs
    unfold compileGlobals globalTypesFromNames at h h'
    cases hl : globalNameLoop ω fuel schema (ω.perm ["typescript.rs:201"] used) [] with
    | none => simp [hl] at h
    | some r =>
      cases r with
      | error e => simp [hl] at h
      | ok m =>
        cases hl' : globalNameLoop ω' fuel' schema' (ω'.perm ["typescript.rs:201"] used') [] with
        | none => simp [hl'] at h'
        | some r =>
          cases r with
          | error e => simp [hl'] at h'
          | ok m' =>
            obtain ⟨g, k⟩ := collected ω fuel schema used hl
            obtain ⟨g', k'⟩ := collected ω' fuel' schema' used' hl'
            have hdefs : ∀ {ω₀ : Hash} {s₀ : Schema} {m₀ : NameToType}, GoodMap s₀ m₀ →
                (sortBy Prod.fst (ω₀.perm ["typescript.rs:209"] m₀)).map (fun e => globalDef ω₀ cfg e.1 e.2) =
                (sortStr m₀.keys).map (fun n => match s₀.getType n with
                  | some t => globalDef ω₀ cfg n t
                  | none => .error (.missingType n)) := by
              intro ω₀ s₀ m₀ g₀
              have e : (sortBy Prod.fst (ω₀.perm ["typescript.rs:209"] m₀)).map Prod.fst = sortStr m₀.keys := by
                rw [sortBy_map_key]
                exact sortStr_of_perm ((ω₀.isPerm _ _).map _)
              rw [← e, List.map_map]
              apply List.map_congr_left
              rintro ⟨n, v⟩ he
              have hm : (n, v) ∈ m₀ := ((sortBy_perm _ _).trans (ω₀.isPerm _ _)).mem_iff.1 he
              simp only [Function.comp, g₀.agrees _ _ (AMap.get?_of_mem g₀.nodup hm)]
            have hkeys : sortStr m.keys = sortStr m'.keys :=
              sortStr_of_perm ((List.perm_ext_iff_of_nodup g.nodup g'.nodup).2 (fun n => by rw [k, k', hname]))
            have heq : (sortBy Prod.fst (ω.perm ["typescript.rs:209"] m)).map (fun e => globalDef ω cfg e.1 e.2) =
                (sortBy Prod.fst (ω'.perm ["typescript.rs:209"] m')).map (fun e => globalDef ω' cfg e.1 e.2) := by
              rw [hdefs g, hdefs g', hkeys]
              apply List.map_congr_left
              intro n hn
              have hn' : n ∈ m'.keys := (sortBy_perm id _).mem_iff.1 hn
              have hgn : GlobalName schema used n := (hname n).1 ((k' n).1 hn')
              obtain ⟨t₁, ht₁, _⟩ := hall n hgn
              obtain ⟨t₂, ht₂, hal⟩ := ha n t₁ ht₁
              simp only [ht₁, ht₂]
              exact alike_globalDef hk ω ω' cfg n ht₁ hal
            simp only [hl] at h
            simp only [hl', ← heq] at h'
            revert h h'
            cases seqE ((sortBy Prod.fst (ω.perm ["typescript.rs:209"] m)).map
              (fun e => globalDef ω cfg e.1 e.2)) with
            | error e => simp
            | ok ds =>
              simp only [Option.some.injEq, Except.ok.injEq]
              intro a b
              rw [← a, ← b]
  exact ⟨half hu hre hs hs' hused h h',
    half (hu.reordered hre) (reordered_symm hre) hs' hs (fun n => (hused n).symm) h' h⟩

end

section
variable {schema schema' : Schema} {frags : Frags}

/-- The schemas answer the same questions about selections. -/
structure SameAnswers (schema schema' : Schema) : Prop where
  field : ∀ P name, fieldOf schema' P name = fieldOf schema P name
  possible : ∀ P T, T ∈ possibleTypes schema P ↔ T ∈ possibleTypes schema' P

theorem SameAnswers.symm (h : SameAnswers schema schema') : SameAnswers schema' schema :=
  ⟨fun P n => (h.field P n).symm, fun P T => (h.possible P T).symm⟩

theorem coll_same (h : SameAnswers schema schema') {T P : String} {items : List Selection} {L : List Contribution}
    (hc : Coll schema frags T P items L) : Coll schema' frags T P items L := by
  induction hc with
  | nil => exact .nil
  | field hf _ ih => exact .field (by rw [h.field]; exact hf) ih
  | inlineIn hT _ _ ih1 ih2 => exact .inlineIn ((h.possible _ _).1 hT) ih1 ih2
  | inlineOut hT _ ih => exact .inlineOut (fun x => hT ((h.possible _ _).2 x)) ih
  | spreadIn hg hT _ _ ih1 ih2 => exact .spreadIn hg ((h.possible _ _).1 hT) ih1 ih2
  | spreadOut hg hT _ ih => exact .spreadOut hg (fun x => hT ((h.possible _ _).2 x)) ih

theorem collMany_same (h : SameAnswers schema schema') {T P : String} {sets : List (List Selection)}
    {L : List Contribution} (hc : CollMany schema frags T P sets L) : CollMany schema' frags T P sets L := by
  obtain ⟨Ls, h1, h2⟩ := hc
  exact ⟨Ls, h1.imp (fun _ _ => coll_same h), h2⟩

theorem position_same (h : SameAnswers schema schema') {P P' : String} {sets sets' : List (List Selection)}
    (hp : Position schema frags P sets P' sets') : Position schema' frags P sets P' sets' := by
  induction hp with
  | refl => exact .refl
  | step hT hL hc _ ih => exact .step ((h.possible _ _).1 hT) (collMany_same h hL) hc ih

theorem oneTypePerKey_same (h : SameAnswers schema schema') {P : String} {sets : List (List Selection)}
    (ho : OneTypePerKey schema frags P sets) : OneTypePerKey schema' frags P sets := by
  intro P' sets' hp T hT L hL
  exact ho P' sets' (position_same h.symm hp) T ((h.possible _ _).2 hT) L (collMany_same h.symm hL)

end

section
variable {ext : Ext} {cfg : CompileConfig} {schema schema' : Schema} {w : World} {root : Entry} {rootPath : Path}
  {doc doc' : JSchema}

theorem reordered_answers (hu : UniqueNames doc) (h : Reordered doc doc') (hv : ValidDoc doc)
    (hs : Schema.ofJson doc = .ok schema) (hs' : Schema.ofJson doc' = .ok schema') : SameAnswers schema schema' := by
  have hv' := reordered_valid hu h hv
  have g := grows_loaded hv hv' hs hs' (reordered_grows hu h)
  have g' := grows_loaded hv' hv hs' hs (reordered_grows (hu.reordered h) (reordered_symm h))
  refine ⟨?_, fun P T => by rw [loaded_possible hs, loaded_possible hs']; exact reordered_objects hu h P T⟩
  intro P name
  cases hf : fieldOf schema P name with
  | some f => exact g.field P name f hf
  | none =>
    cases hf' : fieldOf schema' P name with
    | none => rfl
    | some f => rw [g'.field P name f hf'] at hf; cases hf

theorem hashProof_reordered (hu : UniqueNames doc) (h : Reordered doc doc') (hv : ValidDoc doc)
    (hs : Schema.ofJson doc = .ok schema) (hs' : Schema.ofJson doc' = .ok schema') {p : Path}
    (hh : HashProof ext schema w cfg p) : HashProof ext schema' w cfg p := by
  have g := grows_loaded hv (reordered_valid hu h hv) hs hs' (reordered_grows hu h)
  have sa := reordered_answers hu h hv hs hs'
  intro contents d hr hd
  obtain ⟨h1, h2, h3⟩ := hh contents d hr hd
  refine ⟨h1, ?_, h3⟩
  intro frags hsc
  obtain ⟨h4, h5⟩ := h2 frags hsc
  exact ⟨g.fragsValid h4, fun P hP => oneTypePerKey_same sa (h5 P hP)⟩

/-- What a file gives under the two schemas. -/
theorem file_reordered (hu : UniqueNames doc) (h : Reordered doc doc') (hv : ValidDoc doc)
    (hs : Schema.ofJson doc = .ok schema) (hs' : Schema.ofJson doc' = .ok schema') {p : Path}
    (hh : HashProof ext schema w cfg p) {ω ω' : Path → Hash} {fuel fuel' : Nat} {gs gs' : List String}
    {ms ms' : List Msg} (e : (poolCompile ω fuel ext cfg schema w p).1 = .done gs ms)
    (e' : (poolCompile ω' fuel' ext cfg schema' w p).1 = .done gs' ms') :
    (poolCompile ω' fuel' ext cfg schema' w p).2 = (poolCompile ω fuel ext cfg schema w p).2 ∧ gs' = gs ∧
    ((∀ m ∈ ms, m.level = .compileWarning) → ∀ m ∈ ms', m.level = .compileWarning) := by
  have hv' := reordered_valid hu h hv
  have hh' := hashProof_reordered hu h hv hs hs' hh
  have hg := reordered_grows hu h
  have hg' := reordered_grows (hu.reordered h) (reordered_symm h)
  unfold poolCompile compileFile at e e' ⊢
  cases g : generateFile (ω p) fuel ext cfg schema w p with
  | none => simp [g] at e
  | some x =>
    cases x with
    | panic => simp [g] at e
    | done y =>
      cases g' : generateFile (ω' p) fuel' ext cfg schema' w p with
      | none => simp [g'] at e'
      | some x' =>
        cases x' with
        | panic => simp [g'] at e'
        | done y' =>
          cases y with
          | ok a =>
            obtain ⟨m, c⟩ := a
            obtain ⟨m', rfl, hl⟩ := generate_grown hv hv' hs hs' hg hh g g'
            simp only [g] at e
            simp only [g'] at e'
            cases hw : w.write (outputPath p) c.contents with
            | mk er w₁ =>
              cases er with
              | some er =>
                simp only [hw, FileOutcome.done.injEq] at e e' ⊢
                obtain ⟨rfl, rfl⟩ := e
                obtain ⟨rfl, rfl⟩ := e'
                exact ⟨trivial, rfl, fun h => h⟩
              | none =>
                simp only [hw, FileOutcome.done.injEq] at e e' ⊢
                obtain ⟨rfl, rfl⟩ := e
                obtain ⟨rfl, rfl⟩ := e'
                exact ⟨trivial, rfl, hl⟩
          | error es =>
            cases y' with
            | ok a =>
              obtain ⟨m, c⟩ := a
              obtain ⟨m', e1, _⟩ := generate_grown hv' hv hs' hs hg' hh' g' g
              cases e1
            | error es' =>
              obtain ⟨r, hr1, hr2⟩ : ∃ r, compileFile (ω p) fuel ext cfg schema w p = some (.done r) ∧
                  r.result = .error es := ⟨⟨.error es, w⟩, by unfold compileFile; rw [g], rfl⟩
              obtain ⟨m, hm, hl⟩ := failed_has_error hr1 hr2
              simp only [g, FileOutcome.done.injEq] at e
              simp only [g', FileOutcome.done.injEq] at e'
              obtain ⟨rfl, rfl⟩ := e
              obtain ⟨rfl, rfl⟩ := e'
              exact ⟨rfl, rfl, fun h => absurd (h m hm) hl⟩

/-- **C113.** Run the program with two introspection documents that list the same in different orders, over the same
files, under any hash orders and schedules: both runs end with the same status and leave the same files, whether or
not there are errors. -/
theorem C113_same_run {ω₁ ω₂ : Path → Hash} {ω₁' ω₂' : Hash} {fuel₁ fuel₂ threads₁ threads₂ : Nat}
    {s₁ s₂ : PoolSt World} {ms₁ ms₂ : List Msg} {w₁ w₂ : World} (paint : Paint)
    (hr : NoOutputRead w cfg root) (hd : OutputsDistinct w root) (hg : GlobalsApart w cfg rootPath root)
    (hu : UniqueNames doc) (hre : Reordered doc doc') (hv : ValidDoc doc)
    (hs : Schema.ofJson doc = .ok schema) (hs' : Schema.ofJson doc' = .ok schema')
    (hh : ∀ p, FoundIn root p → HashProof ext schema w cfg p)
    (R₁ : RunsTo ω₁ ω₁' fuel₁ ext cfg schema rootPath root threads₁ w s₁ ms₁ w₁)
    (R₂ : RunsTo ω₂ ω₂' fuel₂ ext cfg schema' rootPath root threads₂ w s₂ ms₂ w₂) :
    ((printExitInfo paint ms₁).code = 0 ↔ (printExitInfo paint ms₂).code = 0) ∧ SameFiles w₁ w₂ := by
  have hv' := reordered_valid hu hre hv
  have hu' := hu.reordered hre
  have hre' := reordered_symm hre
  have hh' : ∀ p, FoundIn root p → HashProof ext schema' w cfg p := fun p hp =>
    hashProof_reordered hu hre hv hs hs' (hh p hp)
  have A := after_run hr hd hg R₁
  have B := after_run hr hd hg R₂
  have hglob : ∀ p, FoundIn root p →
      globalsOfFile ω₂ fuel₂ ext cfg schema' w p = globalsOfFile ω₁ fuel₁ ext cfg schema w p := by
    intro p hp
    obtain ⟨gs, ms, e⟩ := A.returned p hp
    obtain ⟨gs', ms', e'⟩ := B.returned p hp
    unfold globalsOfFile
    rw [e, e']
    exact (file_reordered hu hre hv hs hs' (hh p hp) e e').2.1
  have hused : ∀ n, n ∈ s₁.aggregate.2 ↔ n ∈ s₂.aggregate.2 := fun n => by
    rw [A.used, B.used]
    exact exists_congr (fun p => and_congr_right (fun hp => by rw [hglob p hp]))
  have hnil : s₁.aggregate.2 = [] ↔ s₂.aggregate.2 = [] := by
    rw [List.eq_nil_iff_forall_not_mem, List.eq_nil_iff_forall_not_mem]
    exact forall_congr' (fun n => not_congr (hused n))
  have half : ∀ {doc doc' : JSchema} {schema schema' : Schema} {ω₁ ω₂ : Path → Hash} {ω₁' ω₂' : Hash}
      {fuel₁ fuel₂ threads₁ threads₂ : Nat} {s₁ s₂ : PoolSt World} {ms₁ ms₂ : List Msg} {w₁ w₂ : World},
      UniqueNames doc → Reordered doc doc' → ValidDoc doc → Schema.ofJson doc = .ok schema →
      Schema.ofJson doc' = .ok schema' → (∀ p, FoundIn root p → HashProof ext schema w cfg p) →
      RunsTo ω₁ ω₁' fuel₁ ext cfg schema rootPath root threads₁ w s₁ ms₁ w₁ →
      RunsTo ω₂ ω₂' fuel₂ ext cfg schema' rootPath root threads₂ w s₂ ms₂ w₂ →
      (∀ n, n ∈ s₁.aggregate.2 ↔ n ∈ s₂.aggregate.2) →
      (printExitInfo paint ms₁).code = 0 → (printExitInfo paint ms₂).code = 0 := by
    intro doc doc' schema schema' ω₁ ω₂ ω₁' ω₂' fuel₁ fuel₂ threads₁ threads₂ s₁ s₂ ms₁ ms₂ w₁ w₂ hu hre hv hs hs' hh
      R₁ R₂ hused h0
    have A := after_run hr hd hg R₁
    have B := after_run hr hd hg R₂
    have F := (C74_exit_status hr hd hg R₁ paint).1 h0
    have ha := reordered_alike hu hre hs hs'
    have ha' := reordered_alike (hu.reordered hre) (reordered_symm hre) hs' hs
    have hug : ∀ g, UsedGlobal ω₂ fuel₂ ext cfg schema' w root g ↔ UsedGlobal ω₁ fuel₁ ext cfg schema w root g :=
      fun g => by rw [← usedGlobal_iff A, ← usedGlobal_iff B, hused]
    refine (C74_exit_status hr hd hg R₂ paint).2 ⟨F.directories, ?_, ?_, ?_⟩
    · intro p hp
      obtain ⟨gs, ms, e⟩ := A.returned p hp
      obtain ⟨gs', ms', e'⟩ := B.returned p hp
      refine ⟨ms', gs', compilesWith_of_done e', (file_reordered hu hre hv hs hs' (hh p hp) e e').2.2 ?_⟩
      obtain ⟨ms₀, gs₀, ⟨r, hc, hres⟩, hlev⟩ := F.files p hp
      have : ms = ms₀ := by
        unfold poolCompile at e
        rw [hc] at e
        rcases hres with ⟨rep, hrr, rfl, _⟩ | ⟨hrr, _⟩
        · simp only [hrr, FileOutcome.done.injEq] at e; exact e.2.symm
        · simp only [hrr, FileOutcome.done.injEq] at e; exact e.2.symm
      rw [this]
      exact hlev
    · intro used hu' n hn
      exact alike_validGlobal ha (F.globals used (fun g => by rw [hu', hug]) n (alike_globalName ha' hn))
    · rintro ⟨g, hg'⟩
      exact F.written ⟨g, (hug g).1 hg'⟩
  refine ⟨⟨half hu hre hv hs hs' hh R₁ R₂ hused, half hu' hre' hv' hs' hs hh' R₂ R₁ (fun n => (hused n).symm)⟩,
    by rw [A.resolve, B.resolve], by rw [A.writeErr, B.writeErr], ?_⟩
  intro id
  by_cases hid : id = globalsId w cfg rootPath
  · subst hid
    rcases A.globals with ⟨hn, _, ha⟩ | ⟨hn, r, hc, ha⟩
    · rcases B.globals with ⟨_, _, hb⟩ | ⟨hn', _⟩
      · rw [ha, hb]
      · exact absurd (hnil.1 hn) hn'
    · rcases B.globals with ⟨hn', _⟩ | ⟨_, r', hc', hb⟩
      · exact absurd (hnil.2 hn') hn
      · have key := C113_globals hu hre hs hs' _ _ _ _ _ hused hc hc'
        rcases ha with ⟨er, rfl, _, ha⟩ | ⟨text, rfl, ha, _⟩
        · rcases hb with ⟨er', rfl, _, hb⟩ | ⟨text', rfl, hb, _⟩
          · rw [ha, hb]
          · cases (key text').2 rfl
        · have := (key text).1 rfl
          rcases hb with ⟨er', rfl, _, hb⟩ | ⟨text', rfl, hb, _⟩
          · cases this
          · have := Except.ok.inj this
            subst this
            rw [ha, hb]
  · by_cases ho : IsOutput w root id
    · obtain ⟨p, hp, rfl⟩ := ho
      obtain ⟨gs, ms, e⟩ := A.returned p hp
      obtain ⟨gs', ms', e'⟩ := B.returned p hp
      rw [A.outputs p hp, B.outputs p hp, (file_reordered hu hre hv hs hs' (hh p hp) e e').1]
    · rw [A.others id ho hid, B.others id ho hid]

end

/-! ### An example: the whole document backwards -/

/-- A type with all its lists backwards. -/
def backwardsType (j : JType) : JType :=
  ⟨j.kind, j.name, j.description, j.possibleTypes.map List.reverse, j.inputFields.map List.reverse,
    j.fields.map List.reverse, j.enumValues.map List.reverse⟩

/-- A document backwards. -/
def backwards (doc : JSchema) : JSchema := ⟨(doc.types.map backwardsType).reverse⟩

theorem backwards_reordered (doc : JSchema) : Reordered doc (backwards doc) := by
  have rev : ∀ {α : Type} (a : Option (List α)), SameUpToOrder a (a.map List.reverse) := by
    intro α a
    cases a with
    | none => trivial
    | some l => exact (List.reverse_perm l).symm
  refine ⟨doc.types.reverse, (List.reverse_perm _).symm, ?_⟩
  unfold backwards
  rw [← List.map_reverse]
  induction doc.types.reverse with
  | nil => exact .nil
  | cons j l ih => exact .cons ⟨rfl, rfl, rfl, rev _, rev _, rev _, rev _⟩ ih

/-- The demo document is the one a server sends that lists everything backwards. -/
def Demo.backwardsSchema : Schema :=
  match Schema.ofJson (backwards Demo.respJson) with
  | .ok s => s
  | .error _ => []

theorem backwards_loads : Schema.ofJson (backwards Demo.respJson) = .ok Demo.backwardsSchema := by
  obtain ⟨s, h⟩ := (C113_loads (backwards_reordered _)).1 ⟨_, resp_loads⟩
  unfold Demo.backwardsSchema
  rw [h]

theorem resp_unique : UniqueNames Demo.respJson := by
  refine ⟨by decide +kernel, ?_, ?_⟩
  · have : ∀ j ∈ Demo.respJson.types, ((j.fields.getD []).map JField.name).Nodup := by decide +kernel
    intro j hj fs hfs
    have := this j hj
    rwa [hfs] at this
  · have : ∀ j ∈ Demo.respJson.types, ((j.inputFields.getD []).map JField.name).Nodup := by decide +kernel
    intro j hj fs hfs
    have := this j hj
    rwa [hfs] at this

/-- The pool at the end of a run over that schema. -/
def backwardsRun : PoolSt World :=
  (PoolSt.init Demo.runWorld 1 Demo.fileTree).run
    (poolCompile (fun _ => .reversed) 9 Demo.runExt Demo.cfg Demo.backwardsSchema) 1 Demo.fileSched

/-- The end of that run. -/
def backwardsEnd : Option (List Msg × World) :=
  finishWork .inOrder 9 Demo.cfg Demo.backwardsSchema backwardsRun.world ⟨true, ["r"]⟩ backwardsRun.aggregate

/-- The demo project, with the document as it is and backwards: all hypotheses hold, both runs end with status 0,
and they leave the same files, among them a globals file. -/
theorem C113_demo : ∃ s₁ s₂ ms₁ ms₂ w₁ w₂ t,
    RunsTo (fun _ => .inOrder) .reversed 9 Demo.runExt Demo.cfg Demo.respSchema ⟨true, ["r"]⟩ Demo.fileTree 1
      Demo.runWorld s₁ ms₁ w₁ ∧
    RunsTo (fun _ => .reversed) .inOrder 9 Demo.runExt Demo.cfg Demo.backwardsSchema ⟨true, ["r"]⟩ Demo.fileTree 1
      Demo.runWorld s₂ ms₂ w₂ ∧
    (printExitInfo .plain ms₁).code = 0 ∧ (printExitInfo .plain ms₂).code = 0 ∧ SameFiles w₁ w₂ ∧
    w₂.disk "/r/globals.ts" = .ok t := by
  obtain ⟨_, _, _, _, _, hno, hd, hga, _⟩ := C89_demo
  have a1 : (endsWith fullRun fullEnd).isSome = true := by decide +kernel
  have a2 : (endsWith backwardsRun backwardsEnd).isSome = true := by decide +kernel
  obtain ⟨t₁, b1⟩ := Option.isSome_iff_exists.1 a1
  obtain ⟨t₂, b2⟩ := Option.isSome_iff_exists.1 a2
  obtain ⟨ms₁, w₁, e₁, h1, h2, h5, d1⟩ := endsWith_some b1
  obtain ⟨ms₂, w₂, e₂, h3, h4, h6, d2⟩ := endsWith_some b2
  have R₁ : RunsTo (fun _ => .inOrder) .reversed 9 Demo.runExt Demo.cfg Demo.respSchema ⟨true, ["r"]⟩
      Demo.fileTree 1 Demo.runWorld fullRun ms₁ w₁ := ⟨⟨_, rfl⟩, h1, h2, e₁⟩
  have R₂ : RunsTo (fun _ => .reversed) .inOrder 9 Demo.runExt Demo.cfg Demo.backwardsSchema ⟨true, ["r"]⟩
      Demo.fileTree 1 Demo.runWorld backwardsRun ms₂ w₂ := ⟨⟨_, rfl⟩, h3, h4, e₂⟩
  exact ⟨_, _, ms₁, ms₂, w₁, w₂, t₂, R₁, R₂, h5, h6, (C113_same_run .plain hno hd hga resp_unique
    (backwards_reordered _) resp_valid resp_loads backwards_loads (fun p hp => run_hashProof hp) R₁ R₂).2, d2⟩

end Qlc
