import Verif.Spec.Schema
import Verif.Lemmas.Types
import Verif.Lemmas.Basic
import Verif.Lemmas.Text
/-
Properties C04, C05: loading the schema.
-/
set_option autoImplicit false

namespace Qlc
open Spec

theorem fieldTypeDefOfKind_iff (k n : String) (d : FieldTypeDef) :
    fieldTypeDefOfKind k n = .ok d ↔ DefOfKind k n d := by
  constructor
  · intro h
    unfold fieldTypeDefOfKind at h
    repeat' split at h
    all_goals first
      | (injection h with h; subst h; subst_vars; constructor)
      | simp at h
  · intro h; cases h <;> rfl

theorem defOfKind_exists {k : String} (h : NamedKind k) (n : String) : ∃ d, DefOfKind k n d := by
  simp only [NamedKind, List.mem_cons, List.not_mem_nil, or_false] at h
  rcases h with rfl | rfl | rfl | rfl | rfl | rfl <;> exact ⟨_, by constructor⟩

theorem namedKind_of_def {k n : String} {d : FieldTypeDef} (h : DefOfKind k n d) : NamedKind k := by
  cases h <;> simp [NamedKind]

theorem namedKind_ne {k : String} (h : NamedKind k) : k ≠ "NON_NULL" ∧ k ≠ "LIST" := by
  simp only [NamedKind, List.mem_cons, List.not_mem_nil, or_false] at h
  rcases h with rfl | rfl | rfl | rfl | rfl | rfl <;> decide

/-- The loader's loop on a type reference: it succeeds exactly on good references, and then returns
the named type. -/
theorem ofJsonAux_spec : ∀ (j : JFieldType) (b : ModBuilder),
    (RefOk j → ∃ ft, FieldType.ofJsonAux b j = .ok ft) ∧
    (∀ ft, FieldType.ofJsonAux b j = .ok ft → RefOk j ∧
      ∃ kind t, Describes kind j t ∧ ft.name = baseName t ∧
        DefOfKind kind (baseName t) ft.definition)
  | .mk kind name ofType, b => by
    constructor
    · intro h
      cases h with
      | named _ n _ hk =>
        obtain ⟨h1, h2⟩ := namedKind_ne hk
        obtain ⟨d, hd⟩ := defOfKind_exists hk n
        unfold FieldType.ofJsonAux
        simp only [h1, h2, if_false, (fieldTypeDefOfKind_iff _ _ _).2 hd]
        exact ⟨_, rfl⟩
      | wrapper _ _ j hk hj =>
        unfold FieldType.ofJsonAux
        rcases hk with rfl | rfl
        · simpa using (ofJsonAux_spec j b.listize).1 hj
        · simpa using (ofJsonAux_spec j b.actualize).1 hj
    · intro ft h
      unfold FieldType.ofJsonAux at h
      by_cases hnn : kind = "NON_NULL"
      · subst hnn
        cases ofType with
        | none => simp at h
        | some j =>
          simp only [if_true] at h
          obtain ⟨h1, k, t, h2, h3, h4⟩ := (ofJsonAux_spec j b.actualize).2 ft h
          exact ⟨.wrapper _ _ _ (Or.inr rfl) h1, k, .nonNull t, .nonNull _ _ _ h2, h3, h4⟩
      · by_cases hl : kind = "LIST"
        · subst hl
          cases ofType with
          | none => simp at h
          | some j =>
            simp only [if_neg hnn, if_true] at h
            obtain ⟨h1, k, t, h2, h3, h4⟩ := (ofJsonAux_spec j b.listize).2 ft h
            exact ⟨.wrapper _ _ _ (Or.inl rfl) h1, k, .list t, .list _ _ _ h2, h3, h4⟩
        · simp only [if_neg hnn, if_neg hl] at h
          cases name with
          | none => simp at h
          | some n =>
            simp only at h
            cases hd : fieldTypeDefOfKind kind n with
            | error e => simp [hd] at h
            | ok d =>
              simp only [hd] at h
              injection h with h
              subst h
              have hdk := (fieldTypeDefOfKind_iff _ _ _).1 hd
              exact ⟨.named _ _ _ (namedKind_of_def hdk), kind, .named n, .named _ _, rfl, hdk⟩

theorem sfield_ofJson_ok_iff (j : JField) : (∃ f, SField.ofJson j = .ok f) ↔ RefOk j.typeInformation := by
  unfold SField.ofJson FieldType.ofJson
  constructor
  · rintro ⟨f, h⟩
    cases ht : FieldType.ofJsonAux ModBuilder.new j.typeInformation with
    | error e => simp [ht] at h
    | ok ft => exact ((ofJsonAux_spec _ _).2 ft ht).1
  · intro h
    obtain ⟨ft, ht⟩ := (ofJsonAux_spec _ ModBuilder.new).1 h
    simp [ht]

theorem sfield_ofJson_spec {j : JField} {f : SField} (h : SField.ofJson j = .ok f) :
    FieldOfJson j f := by
  unfold SField.ofJson FieldType.ofJson at h
  cases ht : FieldType.ofJsonAux ModBuilder.new j.typeInformation with
  | error e => simp [ht] at h
  | ok ft =>
    simp only [ht] at h
    injection h with h
    subst h
    refine ⟨rfl, ?_, ?_, ((ofJsonAux_spec _ _).2 ft ht).2⟩
    · rcases j.deprecated with _ | _ | _ <;> rfl
    · cases j.description with
      | none => rfl
      | some d =>
        exact ⟨_, _, _, isLines_lines d.toList, (tidied_iff _ _).2 rfl, rfl, joinWith_nl _⟩

theorem insertJsonFields_ok_iff (fs : List JField) : ∀ m : FieldsLookup,
    (∃ m', insertJsonFields m fs = .ok m') ↔ FieldsOk fs := by
  induction fs with
  | nil => intro m; simp [insertJsonFields, FieldsOk]
  | cons j rest ih =>
    intro m
    simp only [insertJsonFields, FieldsOk, List.forall_mem_cons]
    rw [← sfield_ofJson_ok_iff]
    cases hf : SField.ofJson j with
    | error e => simp
    | ok f => simpa [FieldsOk] using ih _

theorem lastNamed_cons {α : Type} (name : α → String) (n : String) (a : α) (l : List α) :
    lastNamed name n (a :: l) =
      (lastNamed name n l).or (if name a = n then some a else none) := by
  unfold lastNamed
  by_cases h : name a = n
  · simp only [List.filter_cons, h, decide_true, if_true]
    cases hl : l.filter (fun a => decide (name a = n)) with
    | nil => simp
    | cons b bs => simp [List.getLast?_cons]
  · simp [h, Option.or_none]

theorem insertJsonFields_spec (fs : List JField) : ∀ (m m' : FieldsLookup),
    insertJsonFields m fs = .ok m' → FieldsOfJson fs (fun n => AMap.get? m n) m' := by
  induction fs with
  | nil =>
    intro m m' h n
    simp only [insertJsonFields] at h
    injection h with h; subst h
    simp [lastNamed]
  | cons j rest ih =>
    intro m m' h n
    simp only [insertJsonFields] at h
    cases hf : SField.ofJson j with
    | error e => simp [hf] at h
    | ok f =>
      simp only [hf] at h
      have := ih _ _ h n
      rw [lastNamed_cons]
      cases hl : lastNamed JField.name n rest with
      | some j' => simp only [hl] at this; simpa using this
      | none =>
        simp only [hl] at this
        by_cases hn : j.name = n
        · simp only [hn, if_true, Option.none_or]
          refine ⟨f, ?_, sfield_ofJson_spec hf⟩
          rw [this, AMap.get?_insert]; simp [hn]
        · simp only [hn, if_false, Option.none_or]
          rw [this, AMap.get?_insert]; simp [hn]

theorem getFields_ok_iff (fs : List JField) (b : Bool) :
    (∃ m, getFieldsForComplex fs b = .ok m) ↔ FieldsOk fs := insertJsonFields_ok_iff fs _

theorem getFields_typename {fs : List JField} {m : FieldsLookup}
    (h : getFieldsForComplex fs true = .ok m) : FieldsOfJson fs onlyTypename m := by
  intro n
  have := insertJsonFields_spec _ _ _ h n
  cases hl : lastNamed JField.name n fs with
  | some j => simpa [hl] using this
  | none =>
    simp only [hl] at this ⊢
    rw [this]
    simp only [AMap.get?, onlyTypename, SField.newTypeName, FieldType.newTypeName, if_true]
    by_cases hn : "__typename" = n
    · subst hn; rfl
    · have : ¬ n = "__typename" := fun e => hn e.symm
      simp [hn, this]

theorem getFields_plain {fs : List JField} {m : FieldsLookup}
    (h : getFieldsForComplex fs false = .ok m) : FieldsOfJson fs (fun _ => none) m := by
  intro n
  have := insertJsonFields_spec _ _ _ h n
  cases hl : lastNamed JField.name n fs with
  | some j => simpa [hl] using this
  | none => simpa [hl, AMap.get?] using this

theorem typeDef_ok_iff (j : JType) : (∃ d, TypeDef.ofJson j = .ok d) ↔ TypeOk j := by
  unfold TypeDef.ofJson TypeOk
  by_cases h1 : j.kind = "OBJECT"
  · simp only [h1, if_true]
    cases j.fields with
    | none => simp
    | some fs =>
      simp
      rw [← getFields_ok_iff fs true]
      cases getFieldsForComplex fs true <;> simp
  by_cases h2 : j.kind = "ENUM"
  · simp only [h2]
    cases j.enumValues <;> simp
  by_cases h3 : j.kind = "SCALAR"
  · simp [h3]
  by_cases h4 : j.kind = "INTERFACE"
  · simp only [h4]
    cases j.fields with
    | none => simp
    | some fs => cases j.possibleTypes with
      | none => simp
      | some ps =>
        simp
        rw [← getFields_ok_iff fs true]
        cases getFieldsForComplex fs true <;> simp
  by_cases h5 : j.kind = "INPUT_OBJECT"
  · simp only [h5]
    cases j.inputFields with
    | none => simp
    | some fs =>
      simp
      rw [← getFields_ok_iff fs false]
      cases getFieldsForComplex fs false <;> simp
  by_cases h6 : j.kind = "UNION"
  · simp only [h6]
    cases j.possibleTypes <;> simp
  · simp [h1, h2, h3, h4, h5, h6]

theorem typeDef_spec {j : JType} {d : TypeDef} (h : TypeDef.ofJson j = .ok d) : TypeOfJson j d := by
  unfold TypeDef.ofJson at h
  split at h
  · rename_i hk
    cases hf : j.fields with
    | none => simp [hf] at h
    | some fs =>
      simp only [hf] at h
      cases hm : getFieldsForComplex fs true with
      | error e => simp [hm] at h
      | ok m =>
        simp only [hm] at h; injection h with h; subst h
        exact .object fs m hk hf (getFields_typename hm)
  split at h
  · rename_i hk
    cases hf : j.enumValues with
    | none => simp [hf] at h
    | some vs => simp only [hf] at h; injection h with h; subst h; exact .enum vs hk hf
  split at h
  · rename_i hk
    injection h with h; subst h; exact .scalar hk
  split at h
  · rename_i hk
    cases hf : j.fields with
    | none => simp [hf] at h
    | some fs => cases hp : j.possibleTypes with
      | none => simp [hf, hp] at h
      | some ps =>
        simp only [hf, hp] at h
        cases hm : getFieldsForComplex fs true with
        | error e => simp [hm] at h
        | ok m =>
          simp only [hm] at h; injection h with h; subst h
          exact .interface fs ps m hk hf hp (getFields_typename hm)
  split at h
  · rename_i hk
    cases hf : j.inputFields with
    | none => simp [hf] at h
    | some fs =>
      simp only [hf] at h
      cases hm : getFieldsForComplex fs false with
      | error e => simp [hm] at h
      | ok m =>
        simp only [hm] at h; injection h with h; subst h
        exact .inputObject fs m hk hf (getFields_plain hm)
  split at h
  · rename_i hk
    cases hp : j.possibleTypes with
    | none => simp [hp] at h
    | some ps =>
      simp only [hp] at h; injection h with h; subst h
      refine .union ps _ hk hp ?_
      have : getFieldsForComplex [] true = .ok [("__typename", SField.newTypeName)] := rfl
      exact getFields_typename this
  · simp at h

theorem insertJsonTypes_ok_iff (ts : List JType) : ∀ m : Schema,
    (∃ s, insertJsonTypes m ts = .ok s) ↔ ∀ t ∈ ts, TypeOk t := by
  induction ts with
  | nil => intro m; simp [insertJsonTypes]
  | cons j rest ih =>
    intro m
    simp only [insertJsonTypes, List.forall_mem_cons]
    rw [← typeDef_ok_iff]
    unfold SType.ofJson
    cases TypeDef.ofJson j with
    | error e => simp
    | ok d => simpa using ih _

/-- C04: a schema document loads if and only if every type it lists is well described. -/
theorem C04_schema_loads_iff_well_described (j : JSchema) :
    (∃ s, Schema.ofJson j = .ok s) ↔ ∀ t ∈ j.types, TypeOk t :=
  insertJsonTypes_ok_iff j.types []

/-- A small introspection document for the examples. -/
def exampleSchemaJson : JSchema := ⟨[
  { kind := "OBJECT", name := "Query", description := none, possibleTypes := none,
    inputFields := none, enumValues := none,
    fields := some [⟨"me", none, .mk "NON_NULL" none (some (.mk "OBJECT" (some "Query") none)), none⟩,
      ⟨"name", some " a\n b ", .mk "SCALAR" (some "String") none, some true⟩] },
  { kind := "ENUM", name := "Color", description := some "d", possibleTypes := none,
    inputFields := none, fields := none, enumValues := some ["RED", "BLUE"] }]⟩

example : ∀ t ∈ exampleSchemaJson.types, TypeOk t := by
  intro t ht
  simp only [exampleSchemaJson, List.mem_cons, List.not_mem_nil, or_false] at ht
  rcases ht with rfl | rfl
  · refine Or.inl ⟨rfl, _, rfl, ?_⟩
    intro f hf
    simp only [List.mem_cons, List.not_mem_nil, or_false] at hf
    rcases hf with rfl | rfl
    · exact .wrapper _ _ _ (Or.inr rfl) (.named _ _ _ (by simp [NamedKind]))
    · exact .named _ _ _ (by simp [NamedKind])
  · exact Or.inr (Or.inr (Or.inr (Or.inr (Or.inl ⟨rfl, rfl⟩))))

/-- A document that does not load: a LIST without `ofType`. -/
example : ¬ ∃ s, Schema.ofJson ⟨[⟨"OBJECT", "Query", none, none, none,
    some [⟨"xs", none, .mk "LIST" none none, none⟩], none⟩]⟩ = .ok s := by
  rintro ⟨s, h⟩; simp [Schema.ofJson, insertJsonTypes, SType.ofJson, TypeDef.ofJson,
    getFieldsForComplex, insertJsonFields, SField.ofJson, FieldType.ofJson, FieldType.ofJsonAux] at h

theorem insertJsonTypes_spec (ts : List JType) : ∀ (m s : Schema), insertJsonTypes m ts = .ok s →
    ∀ n, match lastNamed JType.name n ts with
      | some j => ∃ t, AMap.get? s n = some t ∧ t.documentation = j.description ∧
          TypeOfJson j t.definition
      | none => AMap.get? s n = AMap.get? m n := by
  induction ts with
  | nil =>
    intro m s h n
    simp only [insertJsonTypes] at h
    injection h with h; subst h
    simp [lastNamed]
  | cons j rest ih =>
    intro m s h n
    simp only [insertJsonTypes] at h
    unfold SType.ofJson at h
    cases hd : TypeDef.ofJson j with
    | error e => simp [hd] at h
    | ok d =>
      simp only [hd] at h
      have := ih _ _ h n
      rw [lastNamed_cons]
      cases hl : lastNamed JType.name n rest with
      | some j' => simp only [hl] at this; simpa using this
      | none =>
        simp only [hl] at this
        by_cases hn : j.name = n
        · simp only [hn, if_true, Option.none_or]
          refine ⟨⟨j.description, d⟩, ?_, rfl, typeDef_spec hd⟩
          rw [this, AMap.get?_insert]; simp [hn]
        · simp only [hn, if_false, Option.none_or]
          rw [this, AMap.get?_insert]; simp [hn]

/-- C05: after a successful load a name resolves exactly if the document lists a type of that name,
and then to what the last such entry says (`TypeOfJson`: kind, fields plus `__typename`, enum values
and possible types). -/
theorem C05_lookup_returns_what_the_document_says (j : JSchema) (s : Schema)
    (h : Schema.ofJson j = .ok s) (n : String) :
    match lastNamed JType.name n j.types with
    | some t => ∃ st, s.getType n = some st ∧ st.documentation = t.description ∧
        TypeOfJson t st.definition
    | none => s.getType n = none := by
  have := insertJsonTypes_spec j.types [] s h n
  simpa [Schema.getType, AMap.get?] using this

example : ∃ s, Schema.ofJson exampleSchemaJson = .ok s ∧
    (lastNamed JType.name "Color" exampleSchemaJson.types).isSome ∧
    (lastNamed JType.name "Nope" exampleSchemaJson.types) = none ∧
    (s.getType "Color").map SType.documentation = some (some "d") ∧
    s.getType "Nope" = none :=
  ⟨_, rfl, rfl, rfl, rfl, rfl⟩

end Qlc
