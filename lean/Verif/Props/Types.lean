import Verif.Lemmas.Types
import Verif.Spec.Scalars
/-
Properties C01, C02, C03, C06, C59: types keep their meaning.
-/
set_option autoImplicit false

namespace Qlc
open Spec

/-- Kinds introspection uses for named types that can be selected. -/
def OutputKind (k : String) : Prop :=
  k = "OBJECT" ∨ k = "SCALAR" ∨ k = "INTERFACE" ∨ k = "ENUM" ∨ k = "UNION"

/-- Kinds introspection uses for named types of input fields. -/
def InputKind (k : String) : Prop := k = "SCALAR" ∨ k = "ENUM" ∨ k = "INPUT_OBJECT"

/-- C59: the text printed for any modifier sequence around a type name is read by TypeScript's grammar
as exactly the intended type. -/
theorem C59_modifier_text_parses (rest : List Mod) (last : Mod) (flat : String)
    (h : IsTypeName flat) :
    parseTs (propTypeDef rest last flat) = some (wrapMods (last :: rest) (.ref flat)) :=
  (propTypeDef_full rest last (TextPrim.ident h)).parse

example : IsTypeName "Query_viewer" ∧
    propTypeDef [.list, .nullable] .nullableList "Query_viewer" =
      "((Query_viewer[] | null)[]) | null" := by decide

theorem kind_ne {k : String} (h : OutputKind k ∨ InputKind k) : k ≠ "NON_NULL" ∧ k ≠ "LIST" := by
  rcases h with h | h
  · rcases h with h | h | h | h | h <;> subst h <;> decide
  · rcases h with h | h | h <;> subst h <;> decide

theorem kind_ok {k : String} (h : OutputKind k ∨ InputKind k) (n : String) :
    ∃ d, fieldTypeDefOfKind k n = .ok d := by
  rcases h with h | h
  · rcases h with h | h | h | h | h <;> subst h <;> exact ⟨_, rfl⟩
  · rcases h with h | h | h <;> subst h <;> exact ⟨_, rfl⟩

/-- Loading a type reference never fails and yields the named type and the builder's modifiers. -/
theorem ofJson_describes {kind : String} {j : JFieldType} {t : VarTy} (h : Describes kind j t)
    (hk : OutputKind kind ∨ InputKind kind) :
    ∃ ft, FieldType.ofJson j = .ok ft ∧ ft.name = baseName t ∧
      fieldTypeDefOfKind kind (baseName t) = .ok ft.definition ∧
      ft.last :: ft.rest = builderMods ModBuilder.new t := by
  obtain ⟨d, hd⟩ := kind_ok hk (baseName t)
  have := ofJsonAux_describes h (kind_ne hk).1 (kind_ne hk).2 ModBuilder.new
  rw [hd] at this
  cases hm : builderMods ModBuilder.new t with
  | nil => exact absurd hm (builderMods_ne_nil _ _)
  | cons last rest =>
    rw [hm] at this
    exact ⟨_, this, rfl, hd, rfl⟩

/-- C01: take any well-formed GraphQL type `t`, described by introspection as `j`.  The schema loader
accepts `j`, and the text printed for a selected field of that type (around the flat name standing for
the values `env flat`) is a TypeScript type that admits exactly the GraphQL values of `t` - if and only
if `t` nowhere contains a nullable list of non-null lists. -/
theorem C01_selected_field_type_exact (kind flat : String) (j : JFieldType) (t : VarTy)
    (env : String → JVal → Prop)
    (hk : OutputKind kind) (hj : Describes kind j t) (hw : WellFormed t) (hf : IsTypeName flat)
    (hplain : ∀ v, env flat v → v.Plain) (hinh : ∃ v, env flat v) :
    ∃ ft ts, FieldType.ofJson j = .ok ft ∧ ft.name = baseName t ∧
      parseTs (propTypeDef ft.rest ft.last flat) = some ts ∧
      ((∀ v, TsAdmits env ts v ↔ Admits (env flat) t v) ↔
        hasNonNullListInNullableList false t = false) := by
  obtain ⟨ft, h1, h2, -, h3⟩ := ofJson_describes hj (Or.inl hk)
  refine ⟨ft, wrapMods (ft.last :: ft.rest) (.ref flat), h1, h2,
    C59_modifier_text_parses _ _ _ hf, ?_⟩
  rw [h3]
  have hnn : ¬ env flat .null := fun h => hplain _ h
  have hbad := (badFrom_iff t hw).1
  constructor
  · intro hall
    rw [← hbad]
    cases hb : badFrom .nullable t with
    | false => rfl
    | true =>
      exfalso
      obtain ⟨x, hx⟩ := hinh
      have hp := hplain x hx
      have hd := (builder_depth_le t .nullable []).2 hb
      have := (hall (nest (listDepth t) x)).2 (admits_nest hx hp t)
      rw [tsAdmits_wrapMods, modsSem_nest hp _ _ 0] at this
      · simp [modsDepth, modDepth, ModBuilder.new] at this hd; omega
      · intro n
        cases n with
        | zero => simpa [nest, TsAdmits] using hx
        | succ n =>
          simp only [TsAdmits, nest]
          constructor
          · intro h; exact absurd (hplain _ h) (by simp [JVal.Plain])
          · intro h; simp at h
  · intro h v
    rw [← hbad] at h
    rw [tsAdmits_wrapMods]
    have := builder_sound (base := env flat) hnn t .nullable [] ⟨hw, by simp [holeNullable]⟩ h
    simp only [ModBuilder.new]
    have e : TsAdmits env (.ref flat) = env flat := by funext v; rfl
    rw [e, this]
    simp [modsSem, outer, holeSem, holeNullable]

/-- Values for the examples: the strings. -/
def stringEnv : String → JVal → Prop := fun _ v => ∃ s, v = .str s

example : Describes "SCALAR"
      (.mk "NON_NULL" none (some (.mk "LIST" none (some (.mk "LIST" none
        (some (.mk "SCALAR" (some "String") none)))))))
      (.nonNull (.list (.list (.named "String")))) ∧
    WellFormed (.nonNull (.list (.list (.named "String")))) ∧ OutputKind "SCALAR" ∧
    IsTypeName "string" ∧ (∀ v, stringEnv "string" v → v.Plain) ∧ (∃ v, stringEnv "string" v) ∧
    hasNonNullListInNullableList false (.nonNull (.list (.list (.named "String")))) = false ∧
    hasNonNullListInNullableList false (.list (.nonNull (.list (.named "String")))) = true :=
  ⟨.nonNull _ _ _ (.list _ _ _ (.list _ _ _ (.named _ _))), trivial, by simp [OutputKind],
    by decide, by rintro v ⟨s, rfl⟩; trivial, ⟨.str "a", "a", rfl⟩, by decide, by decide⟩

/-- The defect at the boundary of C01, on the text itself: a field of type `[[String]!]` is printed as
`(string | null)[] | null`, i.e. with one list level too few. -/
theorem C01_defect_witness :
    FieldType.ofJson (.mk "LIST" none (some (.mk "NON_NULL" none (some (.mk "LIST" none
      (some (.mk "SCALAR" (some "String") none))))))) =
        .ok ⟨"String", .nullable, .scalar .string, [.nullableList]⟩ ∧
    propTypeDef [.nullableList] .nullable "string" = "(string | null)[] | null" := by
  decide

/-! ### C02: input object fields -/

/-- The modifiers whose outermost level is nullable. -/
def modOptional : Mod → Bool
  | .nullable | .nullableList | .nullableListOfNullable => true
  | _ => false

/-- The text of an input field, split as `name`, an optional `?`, a colon, the type text. -/
def inputFieldShape (name : String) (optional : Bool) (typeText : String) : String :=
  name ++ (if optional then "?" else "") ++ ": " ++ typeText ++ ";"

/-- Every input field text has the shape `name[?]: type;`, with the type text of its last modifier. -/
theorem inputFieldText_shape (name flat : String) (m : Mod) :
    inputFieldText name flat m = inputFieldShape name
      (modOptional m)
      (singlePropTypeDef m flat) := by
  apply String.toList_inj.1
  cases m <;> simp [inputFieldText, inputFieldShape, singlePropTypeDef, modOptional]

theorem builder_head_of_depth0 (t : VarTy) (hw : WellFormed t) (h : listDepth t = 0) :
    builderMods ModBuilder.new t = [if isNullable t then .nullable else .none] := by
  cases t with
  | named n => simp [builderMods, ModBuilder.new, isNullable]
  | list t => simp [listDepth] at h
  | nonNull t =>
    cases t with
    | named n => simp [builderMods, ModBuilder.new, ModBuilder.actualize, isNullable]
    | list t => simp [listDepth] at h
    | nonNull t => exact absurd hw (by simp [WellFormed])

theorem builder_head_of_depth1 (t : VarTy) (hw : WellFormed t) (h : listDepth t = 1) :
    ∃ m, builderMods ModBuilder.new t = [m] ∧
      ((modOptional m) =
        isNullable t) := by
  have inner : ∀ t, WellFormed t → listDepth t = 0 →
      (∃ n, t = .named n) ∨ (∃ n, t = .nonNull (.named n)) := by
    intro t hw h
    cases t with
    | named n => exact Or.inl ⟨n, rfl⟩
    | list t => simp [listDepth] at h
    | nonNull t =>
      cases t with
      | named n => exact Or.inr ⟨n, rfl⟩
      | list t => simp [listDepth] at h
      | nonNull t => exact absurd hw (by simp [WellFormed])
  cases t with
  | named n => simp [listDepth] at h
  | list t =>
    rcases inner t hw (by simpa [listDepth] using h) with ⟨n, rfl⟩ | ⟨n, rfl⟩
    · exact ⟨.nullableListOfNullable, by simp [builderMods, ModBuilder.new, ModBuilder.listize], rfl⟩
    · exact ⟨.nullableList, by
        simp [builderMods, ModBuilder.new, ModBuilder.listize, ModBuilder.actualize], rfl⟩
  | nonNull t =>
    cases t with
    | named n => simp [listDepth] at h
    | nonNull t => exact absurd hw (by simp [WellFormed])
    | list t =>
      rcases inner t hw (by simpa [listDepth] using h) with ⟨n, rfl⟩ | ⟨n, rfl⟩
      · exact ⟨.listOfNullable, by
          simp [builderMods, ModBuilder.new, ModBuilder.listize, ModBuilder.actualize], rfl⟩
      · exact ⟨.list, by
          simp [builderMods, ModBuilder.new, ModBuilder.listize, ModBuilder.actualize], rfl⟩

theorem noBad_of_depth1 (t : VarTy) (nn : Bool) (h : listDepth t ≤ 1) :
    hasNonNullListInNullableList nn t = false := by
  induction t generalizing nn with
  | named n => rfl
  | nonNull t ih => exact ih true (by simpa [listDepth] using h)
  | list t ih =>
    simp only [hasNonNullListInNullableList]
    have h0 : listDepth t = 0 := by simp [listDepth] at h; exact h
    rw [ih false (by omega)]
    cases t with
    | named n => simp [isNonNullList]
    | list t => simp [listDepth] at h0
    | nonNull t =>
      cases t with
      | named n => simp [isNonNullList, isList]
      | list t => simp [listDepth] at h0
      | nonNull t => simp [isNonNullList, isList]

/-- With at most one list level there is one modifier: it says whether the type is nullable, and the type
text built with it admits exactly the values of the type. -/
theorem single_exact {t : VarTy} (hw : WellFormed t) (hd : listDepth t ≤ 1) {last : Mod} {rest : List Mod}
    (h3 : last :: rest = builderMods ModBuilder.new t) :
    modOptional last = isNullable t ∧ ∀ (env : String → JVal → Prop) (flat : String), ¬ env flat .null →
      ∀ v, TsAdmits env (wrapMod last (.ref flat)) v ↔ Admits (env flat) t v := by
  have hone : rest = [] ∧ (modOptional last = isNullable t) := by
    rcases Nat.lt_or_ge (listDepth t) 1 with h0 | h0
    · have := builder_head_of_depth0 t hw (by omega)
      rw [this] at h3
      injection h3 with ha hb
      refine ⟨hb, ?_⟩
      rw [ha]; cases isNullable t <;> rfl
    · obtain ⟨m, hm1, hm2⟩ := builder_head_of_depth1 t hw (by omega)
      rw [hm1] at h3
      injection h3 with ha hb
      exact ⟨hb, by rw [ha]; exact hm2⟩
  refine ⟨hone.2, ?_⟩
  intro env flat hnn v
  have hb := noBad_of_depth1 t false hd
  rw [← (badFrom_iff t hw).1] at hb
  have hs := builder_sound (base := env flat) hnn t .nullable [] ⟨hw, by simp [holeNullable]⟩ hb
  rw [tsAdmits_wrapMod]
  have e : builderMods ⟨.nullable, []⟩ t = [last] := by
    rw [hone.1] at h3; exact h3.symm
  rw [e] at hs
  have e2 : TsAdmits env (.ref flat) = env flat := by funext v; rfl
  rw [e2]
  simp only [modsSem] at hs
  rw [hs]
  simp [modsSem, outer, holeSem, holeNullable]

/-- C02: the text of an input object field of any well-formed GraphQL type `t` is `name[?]: type;`.
The type admits exactly the GraphQL values of `t`, with `?` printed exactly when `t` is nullable - if
and only if `t` has at most one list level. -/
theorem C02_input_field_type_exact (cfg : TsConfig) (kind name flat : String) (f : SField)
    (j : JFieldType) (t : VarTy) (env : String → JVal → Prop)
    (hk : InputKind kind) (hj : Describes kind j t) (hw : WellFormed t)
    (hft : FieldType.ofJson j = .ok f.type) (hflat : fromInputDefFieldDef cfg name f = .ok flat)
    (hf : IsTypeName flat) (hplain : ∀ v, env flat v → v.Plain) (hinh : ∃ v, env flat v) :
    ∃ optional typeText ts,
      inputFieldDef cfg name f = .ok ("  " ++ compileDocumentation f.documentation f.deprecated 2 ++
        inputFieldShape name optional typeText) ∧
      parseTs typeText = some ts ∧
      (((∀ v, TsAdmits env ts v ↔ Admits (env flat) t v) ∧ optional = isNullable t) ↔
        listDepth t ≤ 1) := by
  obtain ⟨ft, h1, h2, -, h3⟩ := ofJson_describes hj (Or.inr hk)
  have hfte : f.type = ft := by rw [hft] at h1; injection h1
  subst hfte
  refine ⟨(modOptional f.type.last),
    singlePropTypeDef f.type.last flat, wrapMod f.type.last (.ref flat), ?_,
    (singleProp_full _ (TextPrim.ident hf)).parse, ?_⟩
  · simp only [inputFieldDef, hflat, inputFieldText_shape]
  · have hnn : ¬ env flat .null := fun h => hplain _ h
    constructor
    · rintro ⟨hall, -⟩
      obtain ⟨x, hx⟩ := hinh
      have hp := hplain x hx
      have h := (hall (nest (listDepth t) x)).2 (admits_nest hx hp t)
      have h' : modsSem [f.type.last] (env flat) (nest (listDepth t) x) := by
        simp only [modsSem]
        rw [tsAdmits_wrapMod] at h
        exact h
      rw [modsSem_nest hp _ _ 0] at h'
      · cases hm : f.type.last <;> simp [modsDepth, modDepth, hm] at h' <;> omega
      · intro n
        cases n with
        | zero => simpa [nest] using hx
        | succ n =>
          simp only [nest]
          constructor
          · intro h; exact absurd (hplain _ h) (by simp [JVal.Plain])
          · intro h; simp at h
    · intro hd
      obtain ⟨h4, h5⟩ := single_exact (rest := f.type.rest) hw hd h3
      exact ⟨h5 env flat hnn, h4⟩

/-- A configuration for examples. -/
def exampleCfg : TsConfig := ⟨true, .defaultBottomType, "globals", "docs"⟩

example : InputKind "ENUM" ∧
    Describes "ENUM" (.mk "LIST" none (some (.mk "ENUM" (some "Color") none)))
      (.list (.named "Color")) ∧
    FieldType.ofJson (.mk "LIST" none (some (.mk "ENUM" (some "Color") none))) =
      .ok ⟨"Color", .nullableListOfNullable, .enum, []⟩ ∧
    fromInputDefFieldDef exampleCfg "colors"
      ⟨"colors", none, ⟨"Color", .nullableListOfNullable, .enum, []⟩, false⟩ = .ok "Color" ∧
    IsTypeName "Color" ∧ listDepth (.list (.named "Color")) ≤ 1 :=
  ⟨by simp [InputKind], .list _ _ _ (.named _ _), by decide, by decide, by decide, by decide⟩

/-- The defect at the boundary of C02: an input field of type `[[Int!]!]!` is printed as `number[]`. -/
theorem C02_defect_witness :
    inputFieldDef exampleCfg "matrix" ⟨"matrix", none,
      ⟨"Int", .list, .scalar .int, [.list]⟩, false⟩ = .ok "  matrix: number[];" ∧
    FieldType.ofJson (.mk "NON_NULL" none (some (.mk "LIST" none (some (.mk "NON_NULL" none
      (some (.mk "LIST" none (some (.mk "NON_NULL" none
        (some (.mk "SCALAR" (some "Int") none))))))))))) =
      .ok ⟨"Int", .list, .scalar .int, [.list]⟩ := by
  decide

/-! ### C03: variables -/

/-- C03, acceptance: a variable definition is accepted exactly when its type has at most one list level
and no doubled `!`, and names a built-in scalar or a type of the schema.  (`WellFormed` and the depth
bound are needed because the parser also produces `[X!!]` trees.) -/
theorem C03_variable_accepted_iff (schema : Schema) (d : VarDef) :
    (∃ v, buildVariable schema d = .ok v) ↔
      SupportedVarType d.type ∧ KnownTypeName schema (baseName d.type) := by
  have hname : ∀ n pos, (∃ vt, VariableType.ofName schema n pos = .ok vt) ↔
      KnownTypeName schema n := by
    intro n pos
    unfold VariableType.ofName KnownTypeName
    repeat' split
    all_goals simp_all
  have key : ∀ (m : Mod) (n : String), unwrapVarDef d = .ok (m, n) → n = baseName d.type →
      SupportedVarType d.type →
      ((∃ v, buildVariable schema d = .ok v) ↔
        SupportedVarType d.type ∧ KnownTypeName schema (baseName d.type)) := by
    intro m n hu hn hs
    rw [← hname _ d.pos, ← hn]
    simp only [buildVariable, hu]
    cases VariableType.ofName schema n d.pos <;> simp [hs]
  have bad : ∀ e, unwrapVarDef d = .error e → ¬ SupportedVarType d.type →
      ((∃ v, buildVariable schema d = .ok v) ↔
        SupportedVarType d.type ∧ KnownTypeName schema (baseName d.type)) := by
    intro e hu hs
    simp only [buildVariable, hu]
    simp [hs]
  obtain ⟨pos, name, type, dflt⟩ := d
  rcases type with n | t | t
  · exact key .nullable n rfl rfl (by simp [SupportedVarType, WellFormed, listDepth])
  · rcases t with n | t | t
    · exact key .nullableListOfNullable n rfl rfl (by simp [SupportedVarType, WellFormed, listDepth])
    · exact bad _ rfl (by simp [SupportedVarType, WellFormed, listDepth])
    · rcases t with n | t | t
      · exact key .nullableList n rfl rfl (by simp [SupportedVarType, WellFormed, listDepth])
      · exact bad _ rfl (by simp [SupportedVarType, WellFormed, listDepth])
      · exact bad _ rfl (by simp [SupportedVarType, WellFormed])
  · rcases t with n | t | t
    · exact key .none n rfl rfl (by simp [SupportedVarType, WellFormed, listDepth])
    · rcases t with n | t | t
      · exact key .listOfNullable n rfl rfl (by simp [SupportedVarType, WellFormed, listDepth])
      · exact bad _ rfl (by simp [SupportedVarType, WellFormed, listDepth])
      · rcases t with n | t | t
        · exact key .list n rfl rfl (by simp [SupportedVarType, WellFormed, listDepth])
        · exact bad _ rfl (by simp [SupportedVarType, WellFormed, listDepth])
        · exact bad _ rfl (by simp [SupportedVarType, WellFormed])
    · exact bad _ rfl (by simp [SupportedVarType, WellFormed])

example : (∃ v, buildVariable [] ⟨⟨1, 1⟩, "ids", .nonNull (.list (.nonNull (.named "ID"))), none⟩ = .ok v) :=
  ⟨⟨"ids", .list, .id⟩, by decide⟩
example : ¬ (∃ v, buildVariable [] ⟨⟨1, 1⟩, "m", .list (.list (.named "ID")), none⟩ = .ok v) := by
  rintro ⟨v, hv⟩; revert hv; simp [buildVariable, unwrapVarDef]

/-- The text of a variable property, split as `name`, an optional `?`, a colon, the type text. -/
def variablePropShape (name : String) (optional : Bool) (typeText : String) : String :=
  "  " ++ name ++ (if optional then "?" else "") ++ ": " ++ typeText ++ ";"

/-- C03, meaning: for an accepted variable, the printed property is `name[?]: type;` where the type
admits exactly the GraphQL values of the declared type and `?` is printed exactly when the type is
nullable. -/
theorem C03_variable_type_exact (schema : Schema) (d : VarDef) (v : Variable) (flat : String)
    (env : String → JVal → Prop) (hv : buildVariable schema d = .ok v) (hf : IsTypeName flat)
    (hnn : ¬ env flat .null) :
    v.propName = d.name ∧
    ∃ ts, variablePropText v (propTypeDef [] v.modifier flat) =
        variablePropShape d.name (isNullable d.type) (propTypeDef [] v.modifier flat) ∧
      parseTs (propTypeDef [] v.modifier flat) = some ts ∧
      ∀ x, TsAdmits env ts x ↔ Admits (env flat) d.type x := by
  have hs : SupportedVarType d.type := ((C03_variable_accepted_iff schema d).1 ⟨v, hv⟩).1
  have key : ∀ (m : Mod) (n : String), unwrapVarDef d = .ok (m, n) →
      builderMods ModBuilder.new d.type = [m] →
      v.propName = d.name ∧ ∃ ts, variablePropText v (propTypeDef [] v.modifier flat) =
        variablePropShape d.name (isNullable d.type) (propTypeDef [] v.modifier flat) ∧
      parseTs (propTypeDef [] v.modifier flat) = some ts ∧
      ∀ x, TsAdmits env ts x ↔ Admits (env flat) d.type x := by
    intro m n hu hb
    simp only [buildVariable, hu] at hv
    cases hn : VariableType.ofName schema n d.pos with
    | error e => simp [hn] at hv
    | ok vt =>
      simp only [hn] at hv
      injection hv with hv
      subst hv
      refine ⟨rfl, _, ?_, C59_modifier_text_parses [] m flat hf, ?_⟩
      · have hone : (modOptional m) =
            isNullable d.type := by
          rcases Nat.lt_or_ge (listDepth d.type) 1 with h0 | h0
          · rw [builder_head_of_depth0 _ hs.1 (by omega)] at hb
            injection hb with hb; subst hb
            cases isNullable d.type <;> rfl
          · obtain ⟨m', h1, h2⟩ := builder_head_of_depth1 _ hs.1 (by have := hs.2; omega)
            rw [h1] at hb; injection hb with hb; subst hb; exact h2
        rw [← hone]
        cases m <;> simp [variablePropText, variablePropShape, modOptional, String.append_assoc]
      · intro x
        have hbad := noBad_of_depth1 d.type false hs.2
        rw [← (badFrom_iff d.type hs.1).1] at hbad
        have hsd := builder_sound (base := env flat) hnn d.type .nullable []
          ⟨hs.1, by simp [holeNullable]⟩ hbad
        have hb' : builderMods ⟨.nullable, []⟩ d.type = [m] := hb
        rw [hb'] at hsd
        rw [tsAdmits_wrapMods]
        have e2 : TsAdmits env (.ref flat) = env flat := by funext v; rfl
        rw [e2, hsd]
        simp [modsSem, outer, holeSem, holeNullable]
  obtain ⟨pos, name, type, dflt⟩ := d
  rcases type with n | t | t
  · exact key .nullable n rfl rfl
  · rcases t with n | t | t
    · exact key .nullableListOfNullable n rfl rfl
    · exact absurd hs (by simp [SupportedVarType, listDepth])
    · rcases t with n | t | t
      · exact key .nullableList n rfl rfl
      · exact absurd hs (by simp [SupportedVarType, listDepth])
      · exact absurd hs (by simp [SupportedVarType, WellFormed])
  · rcases t with n | t | t
    · exact key .none n rfl rfl
    · rcases t with n | t | t
      · exact key .listOfNullable n rfl rfl
      · exact absurd hs (by simp [SupportedVarType, listDepth])
      · rcases t with n | t | t
        · exact key .list n rfl rfl
        · exact absurd hs (by simp [SupportedVarType, listDepth])
        · exact absurd hs (by simp [SupportedVarType, WellFormed])
    · exact absurd hs (by simp [SupportedVarType, WellFormed])

example : buildVariable [] ⟨⟨1, 1⟩, "ids", .list (.nonNull (.named "ID")), none⟩ =
      .ok ⟨"ids", .nullableList, .id⟩ ∧ IsTypeName "string" ∧ ¬ stringEnv "string" .null ∧
    variablePropText ⟨"ids", .nullableList, .id⟩ (propTypeDef [] .nullableList "string") =
      "  ids?: string[] | null;" :=
  ⟨by decide, by decide, fun ⟨_, h⟩ => (by cases h), by decide⟩

/-! ### C06: scalars -/

/-- C06: a selected field, an input object field and an operation variable of the same scalar are
spelled the same, namely as `scalarSpelling` says.  (For the variable, the schema must know a custom
scalar as a scalar.) -/
theorem C06_scalar_spelling (cfg : TsConfig) (name : String) :
    -- a selected field
    typeNameFromScalar cfg (ScalarType.ofName name) = scalarSpelling cfg name ∧
    -- an input object field
    (∀ (f : SField) (fieldName : String), f.type.definition = .scalar (ScalarType.ofName name) →
      fromInputDefFieldDef cfg fieldName f = .ok (scalarSpelling cfg name)) ∧
    -- a variable
    (∀ (schema : Schema) (d : VarDef) (v : Variable) (g : List String),
      buildVariable schema d = .ok v → baseName d.type = name →
      (∀ t, schema.getType name = some t → ∃ n, t.definition = .scalar n) →
      compileVariableTypeName cfg schema v g = .ok (scalarSpelling cfg name, g)) := by
  have hs : ∀ s, compileScalar cfg s = typeNameFromScalar cfg s := by
    intro s; cases s <;> rfl
  have h1 : typeNameFromScalar cfg (ScalarType.ofName name) = scalarSpelling cfg name := by
    unfold scalarSpelling ScalarType.ofName
    repeat' split
    all_goals simp_all [typeNameFromScalar, compileCustomScalarName]
  refine ⟨h1, ?_, ?_⟩
  · intro f fn hf
    simp [fromInputDefFieldDef, hf, hs, h1]
  · intro schema d v g hv hn hsch
    have key : ∀ (m : Mod) (n : String), unwrapVarDef d = .ok (m, n) → n = name →
        compileVariableTypeName cfg schema v g = .ok (scalarSpelling cfg name, g) := by
      intro m n hu hnn
      subst hnn
      simp only [buildVariable, hu] at hv
      cases ho : VariableType.ofName schema n d.pos with
      | error e => simp [ho] at hv
      | ok vt =>
        simp only [ho] at hv
        injection hv with hv
        subst hv
        unfold VariableType.ofName at ho
        unfold scalarSpelling
        repeat' split at ho
        all_goals (first | (injection ho with ho; subst ho) | skip)
        all_goals (try simp_all [compileVariableTypeName])
        rename_i t ht
        obtain ⟨k, hk⟩ := hsch
        simp only [hk]
        cases hb : cfg.bottomTypeConfig <;> simp [compileCustomScalarName, hb]
    have hsv := ((C03_variable_accepted_iff schema d).1 ⟨v, hv⟩).1
    obtain ⟨pos, vn, type, dflt⟩ := d
    rcases type with n | t | t
    · exact key .nullable n rfl hn
    · rcases t with n | t | t
      · exact key .nullableListOfNullable n rfl hn
      · exact absurd hsv (by simp [SupportedVarType, listDepth])
      · rcases t with n | t | t
        · exact key .nullableList n rfl hn
        · exact absurd hsv (by simp [SupportedVarType, listDepth])
        · exact absurd hsv (by simp [SupportedVarType, WellFormed])
    · rcases t with n | t | t
      · exact key .none n rfl hn
      · rcases t with n | t | t
        · exact key .listOfNullable n rfl hn
        · exact absurd hsv (by simp [SupportedVarType, listDepth])
        · rcases t with n | t | t
          · exact key .list n rfl hn
          · exact absurd hsv (by simp [SupportedVarType, listDepth])
          · exact absurd hsv (by simp [SupportedVarType, WellFormed])
      · exact absurd hsv (by simp [SupportedVarType, WellFormed])

example : ∃ v, buildVariable [("Date", ⟨none, .scalar "Date"⟩)]
      ⟨⟨1, 1⟩, "d", .nonNull (.named "Date"), none⟩ = .ok v ∧
    compileVariableTypeName { exampleCfg with bottomTypeConfig := .realNameWithPrefix "S_" }
      [("Date", ⟨none, .scalar "Date"⟩)] v [] = .ok ("S_Date", []) :=
  ⟨⟨"d", .none, .custom "Date"⟩, by decide, by decide⟩

end Qlc
