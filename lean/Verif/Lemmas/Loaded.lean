import Verif.Spec.Response
import Verif.Props.Schema
import Verif.Props.Types
/-
What a loaded schema says, in terms of the introspection document.
-/
set_option autoImplicit false

namespace Qlc
open Spec

/-! ### Lookups -/

theorem insertJsonFields_get (fs : List JField) : ∀ (m m' : FieldsLookup),
    insertJsonFields m fs = .ok m' → ∀ n, match lastNamed JField.name n fs with
      | some j => ∃ f, AMap.get? m' n = some f ∧ SField.ofJson j = .ok f
      | none => AMap.get? m' n = AMap.get? m n := by
  induction fs with
  | nil =>
    intro m m' h n
    simp only [insertJsonFields] at h
    injection h with h; subst h
    simp [lastNamed]
  | cons j rest ih =>
    intro m m' h n
    simp only [insertJsonFields] at h
    cases hf : SField.ofJson j with
    | error e => simp [hf] at h
    | ok f =>
      simp only [hf] at h
      have := ih _ _ h n
      rw [lastNamed_cons]
      cases hl : lastNamed JField.name n rest with
      | some j' => simp only [hl] at this; simpa using this
      | none =>
        simp only [hl] at this
        by_cases hn : j.name = n
        · simp only [hn, if_true, Option.none_or]
          refine ⟨f, ?_, hf⟩
          rw [this, AMap.get?_insert]; simp [hn]
        · simp only [hn, if_false, Option.none_or]
          rw [this, AMap.get?_insert]; simp [hn]

theorem getFields_get {fs : List JField} {m : FieldsLookup} (h : getFieldsForComplex fs true = .ok m)
    (n : String) : match lastNamed JField.name n fs with
      | some j => ∃ f, AMap.get? m n = some f ∧ SField.ofJson j = .ok f
      | none => AMap.get? m n = if n = "__typename" then some SField.newTypeName else none := by
  have := insertJsonFields_get _ _ _ h n
  cases hl : lastNamed JField.name n fs with
  | some j => simpa [hl] using this
  | none =>
    simp only [hl] at this ⊢
    rw [this]
    simp only [AMap.get?, if_true]
    by_cases hn : "__typename" = n
    · subst hn; rfl
    · have : ¬ n = "__typename" := fun e => hn e.symm
      simp [hn, this]

theorem insertJsonTypes_get (ts : List JType) : ∀ (m s : Schema), insertJsonTypes m ts = .ok s →
    ∀ n, match lastNamed JType.name n ts with
      | some j => ∃ t, AMap.get? s n = some t ∧ TypeDef.ofJson j = .ok t.definition
      | none => AMap.get? s n = AMap.get? m n := by
  induction ts with
  | nil =>
    intro m s h n
    simp only [insertJsonTypes] at h
    injection h with h; subst h
    simp [lastNamed]
  | cons j rest ih =>
    intro m s h n
    simp only [insertJsonTypes] at h
    unfold SType.ofJson at h
    cases hd : TypeDef.ofJson j with
    | error e => simp [hd] at h
    | ok d =>
      simp only [hd] at h
      have := ih _ _ h n
      rw [lastNamed_cons]
      cases hl : lastNamed JType.name n rest with
      | some j' => simp only [hl] at this; simpa using this
      | none =>
        simp only [hl] at this
        by_cases hn : j.name = n
        · simp only [hn, if_true, Option.none_or]
          refine ⟨⟨j.description, d⟩, ?_, hd⟩
          rw [this, AMap.get?_insert]; simp [hn]
        · simp only [hn, if_false, Option.none_or]
          rw [this, AMap.get?_insert]; simp [hn]

variable {doc : JSchema} {schema : Schema}

theorem loaded_type (h : Schema.ofJson doc = .ok schema) (n : String) :
    match typeNamed doc n with
    | some j => ∃ t, schema.getType n = some t ∧ TypeDef.ofJson j = .ok t.definition
    | none => schema.getType n = none := by
  have := insertJsonTypes_get doc.types [] schema h n
  unfold typeNamed
  cases hl : lastNamed JType.name n doc.types with
  | some j => rw [hl] at this; exact this
  | none => rw [hl] at this; simpa [Schema.getType, AMap.get?] using this

theorem lastNamed_name {α : Type} {name : α → String} {n : String} {l : List α} {a : α}
    (h : lastNamed name n l = some a) : a ∈ l ∧ name a = n := by
  unfold lastNamed at h
  have := List.mem_filter.1 (List.mem_of_getLast? h)
  exact ⟨this.1, by simpa using this.2⟩

/-- The six shapes of a loaded type. -/
theorem typeDef_cases {j : JType} {d : TypeDef} (h : TypeDef.ofJson j = .ok d) :
    (j.kind = "OBJECT" ∧ ∃ fs m, j.fields = some fs ∧ getFieldsForComplex fs true = .ok m ∧
      d = .object m) ∨
    (j.kind = "INTERFACE" ∧ ∃ fs ps m, j.fields = some fs ∧ j.possibleTypes = some ps ∧
      getFieldsForComplex fs true = .ok m ∧ d = .interface j.name m ps) ∨
    (j.kind = "UNION" ∧ ∃ ps, j.possibleTypes = some ps ∧
      d = .union j.name ps [("__typename", SField.newTypeName)]) ∨
    (j.kind = "INPUT_OBJECT" ∧ ∃ m, d = .inputObject j.name m) ∨
    (j.kind = "ENUM" ∧ ∃ vs, j.enumValues = some vs ∧ d = .enum vs) ∨
    (j.kind = "SCALAR" ∧ d = .scalar j.name) := by
  unfold TypeDef.ofJson at h
  split at h
  · rename_i hk
    cases hf : j.fields with
    | none => simp [hf] at h
    | some fs =>
      simp only [hf] at h
      cases hm : getFieldsForComplex fs true with
      | error e => simp [hm] at h
      | ok m =>
        simp only [hm] at h; injection h with h
        exact .inl ⟨hk, fs, m, rfl, hm, h.symm⟩
  split at h
  · rename_i hk
    cases hf : j.enumValues with
    | none => simp [hf] at h
    | some vs =>
      simp only [hf] at h; injection h with h
      exact .inr (.inr (.inr (.inr (.inl ⟨hk, vs, rfl, h.symm⟩))))
  split at h
  · rename_i hk
    injection h with h
    exact .inr (.inr (.inr (.inr (.inr ⟨hk, h.symm⟩))))
  split at h
  · rename_i hk
    cases hf : j.fields with
    | none => simp [hf] at h
    | some fs => cases hp : j.possibleTypes with
      | none => simp [hf, hp] at h
      | some ps =>
        simp only [hf, hp] at h
        cases hm : getFieldsForComplex fs true with
        | error e => simp [hm] at h
        | ok m =>
          simp only [hm] at h; injection h with h
          exact .inr (.inl ⟨hk, fs, ps, m, rfl, rfl, hm, h.symm⟩)
  split at h
  · rename_i hk
    cases hf : j.inputFields with
    | none => simp [hf] at h
    | some fs =>
      simp only [hf] at h
      cases hm : getFieldsForComplex fs false with
      | error e => simp [hm] at h
      | ok m =>
        simp only [hm] at h; injection h with h
        exact .inr (.inr (.inr (.inl ⟨hk, m, h.symm⟩)))
  split at h
  · rename_i hk
    cases hp : j.possibleTypes with
    | none => simp [hp] at h
    | some ps =>
      simp only [hp] at h; injection h with h
      exact .inr (.inr (.inl ⟨hk, ps, rfl, h.symm⟩))
  · simp at h

/-- The loaded possible types are those of the document. -/
theorem loaded_possible (h : Schema.ofJson doc = .ok schema) (P : String) :
    possibleTypes schema P = objectTypes doc P := by
  have ht := loaded_type h P
  unfold possibleTypes objectTypes
  cases hj : typeNamed doc P with
  | none => rw [hj] at ht; simp only at ht; rw [ht]
  | some j =>
    rw [hj] at ht
    simp only at ht
    obtain ⟨t, ht, hd⟩ := ht
    rw [ht]
    simp only
    rcases typeDef_cases hd with ⟨hk, _, _, _, _, e⟩ | ⟨hk, fs, ps, m, _, hp, _, e⟩ | ⟨hk, ps, hp, e⟩ |
      ⟨hk, m, e⟩ | ⟨hk, vs, _, e⟩ | ⟨hk, e⟩ <;> rw [e, hk] <;> simp_all

/-- A type with sub-selections is one the document lists as such. -/
theorem loaded_composite (h : Schema.ofJson doc = .ok schema) (P : String) :
    IsComposite schema P ↔ CompositeNamed doc P := by
  have ht := loaded_type h P
  unfold IsComposite fieldsOf CompositeNamed kindNamed CompositeKind
  cases hj : typeNamed doc P with
  | none => rw [hj] at ht; simp only at ht; rw [ht]; simp
  | some j =>
    rw [hj] at ht
    simp only at ht
    obtain ⟨t, ht, hd⟩ := ht
    rw [ht]
    simp only
    rcases typeDef_cases hd with ⟨hk, _, _, _, _, e⟩ | ⟨hk, fs, ps, m, _, hp, _, e⟩ | ⟨hk, ps, hp, e⟩ |
      ⟨hk, m, e⟩ | ⟨hk, vs, _, e⟩ | ⟨hk, e⟩ <;> rw [e] <;> simp [hk]

/-- A loaded field is `__typename`, or the declared field of that name. -/
theorem loaded_field (h : Schema.ofJson doc = .ok schema) (hres : ∀ P, ∀ f ∈ declaredFields doc P,
    f.name ≠ "__typename") {P name : String} {f : SField} (hf : fieldOf schema P name = some f) :
    (name = "__typename" ∧ f = SField.newTypeName) ∨
    (name ≠ "__typename" ∧ ∃ j, lastNamed JField.name name (declaredFields doc P) = some j ∧
      SField.ofJson j = .ok f) := by
  have ht := loaded_type h P
  have key : ∀ fs m, declaredFields doc P = fs → getFieldsForComplex fs true = .ok m →
      AMap.get? m name = some f →
      (name = "__typename" ∧ f = SField.newTypeName) ∨
      (name ≠ "__typename" ∧ ∃ j, lastNamed JField.name name (declaredFields doc P) = some j ∧
        SField.ofJson j = .ok f) := by
    intro fs m hfs hm hg
    have := getFields_get hm name
    cases hl : lastNamed JField.name name fs with
    | some j =>
      rw [hl] at this
      simp only at this
      obtain ⟨f', h1, h2⟩ := this
      rw [h1] at hg
      injection hg with hg
      subst hg
      obtain ⟨hmem, hn⟩ := lastNamed_name hl
      refine .inr ⟨?_, j, by rw [hfs]; exact hl, h2⟩
      rw [← hn]
      exact hres P j (by rw [hfs]; exact hmem)
    | none =>
      rw [hl] at this
      simp only at this
      rw [this] at hg
      split at hg
      · rename_i e
        injection hg with hg
        exact .inl ⟨e, hg.symm⟩
      · simp at hg
  unfold fieldOf fieldsOf at hf
  cases hj : typeNamed doc P with
  | none => rw [hj] at ht; simp only at ht; rw [ht] at hf; simp at hf
  | some j =>
    rw [hj] at ht
    simp only at ht
    obtain ⟨t, ht, hd⟩ := ht
    rw [ht] at hf
    simp only at hf
    rcases typeDef_cases hd with ⟨hk, fs, m, h1, h2, e⟩ | ⟨hk, fs, ps, m, h1, _, h2, e⟩ | ⟨hk, ps, hp, e⟩ |
      ⟨hk, m, e⟩ | ⟨hk, vs, _, e⟩ | ⟨hk, e⟩
    · rw [e] at hf
      refine key fs m ?_ h2 hf
      unfold declaredFields
      rw [hj]
      simp [hk, h1]
    · rw [e] at hf
      refine key fs m ?_ h2 hf
      unfold declaredFields
      rw [hj]
      simp [hk, h1]
    · rw [e] at hf
      simp only [Option.bind_some, AMap.get?] at hf
      split at hf
      · rename_i hn
        injection hf with hf
        exact .inl ⟨by simpa using hn.symm, hf.symm⟩
      · simp at hf
    · rw [e] at hf; simp at hf
    · rw [e] at hf; simp at hf
    · rw [e] at hf; simp at hf

theorem refType_describes : ∀ {j : JFieldType} {k : String} {t : VarTy}, refType j = some (k, t) →
    Describes k j t
  | .mk kind name ofType, k, t, h => by
    unfold refType at h
    split at h
    · rename_i hk
      subst hk
      cases ofType with
      | none => simp at h
      | some j =>
        simp only at h
        cases hr : refType j with
        | none => rw [hr] at h; simp at h
        | some r =>
          rw [hr] at h
          simp only [Option.map_some, Option.some.injEq, Prod.mk.injEq] at h
          obtain ⟨rfl, rfl⟩ := h
          exact .nonNull _ _ _ (refType_describes hr)
    · split at h
      · rename_i hk
        subst hk
        cases ofType with
        | none => simp at h
        | some j =>
          simp only at h
          cases hr : refType j with
          | none => rw [hr] at h; simp at h
          | some r =>
            rw [hr] at h
            simp only [Option.map_some, Option.some.injEq, Prod.mk.injEq] at h
            obtain ⟨rfl, rfl⟩ := h
            exact .list _ _ _ (refType_describes hr)
      · cases name with
        | none => simp at h
        | some n =>
          simp only [Option.map_some, Option.some.injEq, Prod.mk.injEq] at h
          obtain ⟨rfl, rfl⟩ := h
          exact .named _ _

theorem selectable_output {k : String} (h : SelectableKind k) : OutputKind k := by
  unfold SelectableKind CompositeKind at h
  unfold OutputKind
  tauto

theorem sfield_ofJson_parts {j : JField} {f : SField} (h : SField.ofJson j = .ok f) :
    f.name = j.name ∧ FieldType.ofJson j.typeInformation = .ok f.type := by
  unfold SField.ofJson at h
  cases ht : FieldType.ofJson j.typeInformation with
  | error e => simp [ht] at h
  | ok ft => simp only [ht] at h; injection h with h; subst h; exact ⟨rfl, rfl⟩

/-- A declared field of a valid document, loaded. -/
theorem loaded_declared (hv : ValidDoc doc) {P name : String} {j : JField} {f : SField}
    (hl : lastNamed JField.name name (declaredFields doc P) = some j) (hj : SField.ofJson j = .ok f) :
    ∃ k t, fieldType doc P name = some (k, t) ∧ WellFormed t ∧ SelectableKind k ∧
      kindNamed doc (baseName t) = some k ∧ f.name = name ∧ f.type.name = baseName t ∧
      fieldTypeDefOfKind k (baseName t) = .ok f.type.definition ∧
      f.type.last :: f.type.rest = builderMods ModBuilder.new t := by
  obtain ⟨hm, hn⟩ := lastNamed_name hl
  obtain ⟨k, t, h1, h2, h3, h4⟩ := hv.refs P j hm
  obtain ⟨e1, e2⟩ := sfield_ofJson_parts hj
  obtain ⟨ft, h5, h6, h7, h8⟩ := ofJson_describes (refType_describes h1) (.inl (selectable_output h3))
  rw [e2] at h5
  injection h5 with h5
  subst h5
  refine ⟨k, t, ?_, h2, h3, h4, by rw [e1, hn], h6, h7, h8⟩
  unfold fieldType
  rw [hl]
  exact h1

theorem def_of_kind {k n : String} {d : FieldTypeDef} (hk : SelectableKind k)
    (h : fieldTypeDefOfKind k n = .ok d) :
    (CompositeKind k ∧ d.isComplex = true ∧ d ≠ .inputObject) ∨
    (k = "SCALAR" ∧ d = .scalar (ScalarType.ofName n)) ∨ (k = "ENUM" ∧ d = .enum) := by
  unfold SelectableKind CompositeKind at hk
  rcases hk with (rfl | rfl | rfl) | rfl | rfl <;> injection h with h <;> subst h <;>
    simp [CompositeKind, FieldTypeDef.isComplex]

/-- The schema loaded from a valid document is consistent. -/
theorem loaded_consistent (hv : ValidDoc doc) (h : Schema.ofJson doc = .ok schema) : Consistent schema := by
  intro P name f hf
  rcases loaded_field h hv.reserved hf with ⟨_, rfl⟩ | ⟨_, j, hl, hj⟩
  · refine ⟨by simp [SField.newTypeName, FieldType.newTypeName], ?_⟩
    rw [loaded_composite h]
    simp only [SField.newTypeName, FieldType.newTypeName, FieldTypeDef.isComplex, Bool.false_eq_true,
      false_iff]
    rintro ⟨k, hk, _⟩
    rw [hv.reservedType] at hk
    simp at hk
  · obtain ⟨k, t, _, _, hk, hkn, _, hn, hd, _⟩ := loaded_declared hv hl hj
    rw [loaded_composite h, hn]
    unfold CompositeNamed
    rw [hkn]
    rcases def_of_kind hk hd with ⟨h1, h2, h3⟩ | ⟨rfl, e⟩ | ⟨rfl, e⟩
    · exact ⟨h3, by simp [h1, h2]⟩
    · rw [e]; exact ⟨by simp, by simp [FieldTypeDef.isComplex, CompositeKind]⟩
    · rw [e]; exact ⟨by simp, by simp [FieldTypeDef.isComplex, CompositeKind]⟩

end Qlc
