import Verif.Spec.Inputs
import Verif.Lemmas.GrammarDoc
import Verif.Lemmas.ModuleAdmits
import Verif.Props.Globals
/-
Helper lemmas for C78 and C79: input types of a loaded schema, and how the globals file is read back.
-/
set_option autoImplicit false

namespace Qlc
open Spec

variable {doc : JSchema} {schema : Schema} {cfg : TsConfig}

/-! ### Loaded input types -/

theorem insertJsonTypes_full (ts : List JType) : ∀ (m s : Schema), insertJsonTypes m ts = .ok s →
    ∀ n, match lastNamed JType.name n ts with
      | some j => ∃ t, AMap.get? s n = some t ∧ SType.ofJson j = .ok t
      | none => AMap.get? s n = AMap.get? m n := by
  induction ts with
  | nil =>
    intro m s h n
    simp only [insertJsonTypes] at h
    injection h with h; subst h
    simp [lastNamed]
  | cons j rest ih =>
    intro m s h n
    simp only [insertJsonTypes] at h
    cases hd : SType.ofJson j with
    | error e => simp [hd] at h
    | ok d =>
      simp only [hd] at h
      have := ih _ _ h n
      rw [lastNamed_cons]
      cases hl : lastNamed JType.name n rest with
      | some j' => simp only [hl] at this; simpa using this
      | none =>
        simp only [hl] at this
        by_cases hn : j.name = n
        · simp only [hn, if_true, Option.none_or]
          refine ⟨d, ?_, hd⟩
          rw [this, AMap.get?_insert]; simp [hn]
        · simp only [hn, if_false, Option.none_or]
          rw [this, AMap.get?_insert]; simp [hn]

theorem loaded_full (h : Schema.ofJson doc = .ok schema) {n : String} {t : SType}
    (ht : schema.getType n = some t) : ∃ j, typeNamed doc n = some j ∧ j.description = t.documentation ∧
      TypeDef.ofJson j = .ok t.definition := by
  have := insertJsonTypes_full doc.types [] schema h n
  unfold typeNamed
  cases hl : lastNamed JType.name n doc.types with
  | none =>
    rw [hl] at this
    simp only at this
    have h0 : schema.getType n = none := by rw [Schema.getType, this]; rfl
    rw [h0] at ht; simp at ht
  | some j =>
    rw [hl] at this
    simp only at this
    obtain ⟨t', h1, h2⟩ := this
    have : t' = t := by
      have h1 : schema.getType n = some t' := h1
      rw [ht] at h1; injection h1 with h1; exact h1.symm
    subst this
    unfold SType.ofJson at h2
    cases hd : TypeDef.ofJson j with
    | error e => simp [hd] at h2
    | ok d =>
      simp only [hd] at h2
      injection h2 with h2
      subst h2
      exact ⟨j, rfl, rfl, hd⟩

theorem input_def {j : JType} {nm : String} {m : FieldsLookup}
    (h : TypeDef.ofJson j = .ok (.inputObject nm m)) :
    j.kind = "INPUT_OBJECT" ∧ ∃ fs, j.inputFields = some fs ∧ insertJsonFields [] fs = .ok m := by
  have hk : j.kind = "INPUT_OBJECT" := by
    rcases typeDef_cases h with ⟨_, _, _, _, _, e⟩ | ⟨_, _, _, _, _, _, _, e⟩ | ⟨_, _, _, e⟩ | ⟨hk, _⟩ |
      ⟨_, _, _, e⟩ | ⟨_, e⟩
    all_goals first | exact hk | exact TypeDef.noConfusion e
  refine ⟨hk, ?_⟩
  unfold TypeDef.ofJson at h
  rw [hk] at h
  simp only [String.reduceEq, if_false, if_true] at h
  cases hf : j.inputFields with
  | none => simp [hf] at h
  | some fs =>
    simp only [hf] at h
    cases hm : getFieldsForComplex fs false with
    | error e => simp [hm] at h
    | ok m' =>
      simp only [hm] at h
      injection h with h
      injection h with _ h
      subst h
      exact ⟨fs, rfl, hm⟩

theorem insertJsonFields_listed (fs : List JField) : ∀ (m m' : FieldsLookup), insertJsonFields m fs = .ok m' →
    m.keys.Nodup → m'.keys.Nodup := by
  induction fs with
  | nil =>
    intro m m' h hn
    simp only [insertJsonFields] at h
    injection h with h; subst h; exact hn
  | cons j rest ih =>
    intro m m' h hn
    simp only [insertJsonFields] at h
    cases hf : SField.ofJson j with
    | error e => simp [hf] at h
    | ok f =>
      simp only [hf] at h
      exact ih _ _ h (AMap.nodup_keys_insert _ _ _ hn)

theorem lastNamed_isSome {α : Type} {name : α → String} {n : String} {l : List α} (h : n ∈ l.map name) :
    ∃ a, lastNamed name n l = some a := by
  obtain ⟨a, ha, e⟩ := List.mem_map.1 h
  unfold lastNamed
  cases hl : (l.filter (fun a => decide (name a = n))).getLast? with
  | some b => exact ⟨b, rfl⟩
  | none =>
    rw [List.getLast?_eq_none_iff] at hl
    have : a ∈ l.filter (fun a => decide (name a = n)) := List.mem_filter.2 ⟨ha, by simpa using e⟩
    rw [hl] at this
    simp at this

/-- The fields of a loaded input object. -/
theorem loaded_input (h : Schema.ofJson doc = .ok schema) {n nm : String} {t : SType} {m : FieldsLookup}
    (ht : schema.getType n = some t) (hd : t.definition = .inputObject nm m) :
    kindNamed doc n = some "INPUT_OBJECT" ∧ m.keys.Nodup ∧
    (∀ k, k ∈ m.keys ↔ k ∈ (inputFields doc n).map JField.name) ∧
    ∀ k f, (k, f) ∈ m → ∃ j, lastNamed JField.name k (inputFields doc n) = some j ∧ SField.ofJson j = .ok f := by
  obtain ⟨j, h1, _, h2⟩ := loaded_full h ht
  rw [hd] at h2
  obtain ⟨hk, fs, hf, hm⟩ := input_def h2
  have hfs : inputFields doc n = fs := by simp [inputFields, h1, hk, hf]
  have hnd := insertJsonFields_listed fs [] m hm (by simp [AMap.keys])
  have hget := insertJsonFields_get fs [] m hm
  have hmem : ∀ k f, (k, f) ∈ m → ∃ j, lastNamed JField.name k fs = some j ∧ SField.ofJson j = .ok f := by
    intro k f hkf
    have hg := AMap.get?_of_mem hnd hkf
    have := hget k
    cases hl : lastNamed JField.name k fs with
    | none => simp only [hl] at this; rw [this] at hg; simp [AMap.get?] at hg
    | some j' =>
      simp only [hl] at this
      obtain ⟨f', h3, h4⟩ := this
      rw [hg] at h3; injection h3 with h3; subst h3
      exact ⟨j', rfl, h4⟩
  refine ⟨by simp [kindNamed, h1, hk], hnd, ?_, by rw [hfs]; exact hmem⟩
  intro k
  rw [hfs]
  constructor
  · intro hk
    obtain ⟨⟨k', f⟩, hm', e⟩ := List.mem_map.1 hk
    simp only at e
    subst e
    obtain ⟨j', h3, _⟩ := hmem k' f hm'
    obtain ⟨h4, h5⟩ := lastNamed_name h3
    exact List.mem_map.2 ⟨j', h4, h5⟩
  · intro hk
    obtain ⟨j', hl⟩ := lastNamed_isSome hk
    have := hget k
    simp only [hl] at this
    obtain ⟨f, h3, _⟩ := this
    exact List.mem_map.2 ⟨(k, f), AMap.mem_of_get? h3, rfl⟩

theorem loaded_enum (h : Schema.ofJson doc = .ok schema) {n : String} {t : SType} {vs : List String}
    (ht : schema.getType n = some t) (hd : t.definition = .enum vs) :
    ∃ j, typeNamed doc n = some j ∧ j.kind = "ENUM" ∧ j.description = t.documentation ∧
      enumValuesOf doc n = vs := by
  obtain ⟨j, h1, h0, h2⟩ := loaded_full h ht
  rw [hd] at h2
  refine ⟨j, h1, ?_, h0, ?_⟩
  all_goals
    rcases typeDef_cases h2 with ⟨_, _, _, _, _, e⟩ | ⟨_, _, _, _, _, _, _, e⟩ | ⟨_, _, _, e⟩ | ⟨_, _, e⟩ |
      ⟨hk, vs', hv, e⟩ | ⟨_, e⟩
  all_goals first | exact TypeDef.noConfusion e | skip
  · exact hk
  · injection e with e
    simp [enumValuesOf, h1, hv, e]

/-! ### One input field -/

theorem compileScalar_spelling (n : String) : compileScalar cfg (ScalarType.ofName n) = scalarSpelling cfg n := by
  unfold scalarSpelling ScalarType.ofName
  repeat' split
  all_goals simp_all [compileScalar]

theorem fieldDef_kind {k n : String} {d : FieldTypeDef} (hk : k ∈ ["SCALAR", "ENUM", "INPUT_OBJECT"])
    (h : fieldTypeDefOfKind k n = .ok d) :
    (k = "SCALAR" ∧ d = .scalar (ScalarType.ofName n)) ∨ (k = "ENUM" ∧ d = .enum) ∨
      (k = "INPUT_OBJECT" ∧ d = .inputObject) := by
  simp only [List.mem_cons, List.not_mem_nil, or_false] at hk
  rcases hk with rfl | rfl | rfl <;> simp [fieldTypeDefOfKind] at h <;> simp [h]

/-- What is known about a loaded input field. -/
theorem input_field (hv : ValidInputs doc) {P key : String} {j : JField} {f : SField}
    (hj : lastNamed JField.name key (inputFields doc P) = some j) (hf : SField.ofJson j = .ok f) :
    ∃ k t, inputFieldType doc P key = some (k, t) ∧ WellFormed t ∧ kindNamed doc (baseName t) = some k ∧
      f.type.name = baseName t ∧ f.documentation = j.description.map normalizeDocs ∧
      f.type.last :: f.type.rest = builderMods ModBuilder.new t ∧
      ((k = "SCALAR" ∧ f.type.definition = .scalar (ScalarType.ofName (baseName t))) ∨
       (k = "ENUM" ∧ f.type.definition = .enum) ∨ (k = "INPUT_OBJECT" ∧ f.type.definition = .inputObject)) := by
  obtain ⟨hmem, _⟩ := lastNamed_name hj
  obtain ⟨k, t, h1, h2, h3, h4⟩ := hv P j hmem
  have hik : InputKind k := by simpa [InputKind] using h3
  obtain ⟨ft, g1, g2, g3, g4⟩ := ofJson_describes (refType_describes h1) (.inr hik)
  unfold SField.ofJson at hf
  rw [g1] at hf
  simp only at hf
  injection hf with hf
  subst hf
  exact ⟨k, t, by simp [inputFieldType, hj, h1], h2, h4, g2, rfl, g4, fieldDef_kind h3 g3⟩

/-- The member that is printed for an input field. -/
def inputMember (cfg : TsConfig) (doc : JSchema) (e : String × SField) : TsMember :=
  ⟨false, e.1, modOptional e.2.type.last, wrapMod e.2.type.last (.ref (inputSpelling cfg doc e.2.type.name))⟩

theorem reads_inputField (hv : ValidInputs doc) (hw : GlobalsWritable cfg doc) {P key : String} {j : JField}
    {f : SField} {line : String}
    (hj : lastNamed JField.name key (inputFields doc P) = some j) (hf : SField.ofJson j = .ok f)
    (hl : inputFieldDef cfg key f = .ok line) (n : String) (ms : List TsMember) :
    Reads (.object n ms) line [] (.object n (ms ++ [inputMember cfg doc (key, f)])) := by
  obtain ⟨k, t, h1, h2, h3, h4, h5, h6, h7⟩ := input_field hv hj hf
  obtain ⟨hmem, hkey⟩ := lastNamed_name hj
  obtain ⟨w1, w2⟩ := hw.fields P j hmem
  have hflat : fromInputDefFieldDef cfg key f = .ok (inputSpelling cfg doc f.type.name) ∧
      IsTypeRef (inputSpelling cfg doc f.type.name) := by
    unfold fromInputDefFieldDef inputSpelling
    rw [h4]
    rcases h7 with ⟨rfl, hd⟩ | ⟨rfl, hd⟩ | ⟨rfl, hd⟩
    · rw [hd, if_pos h3]
      exact ⟨congrArg Except.ok (compileScalar_spelling _), hw.scalars _ h3⟩
    · rw [hd, if_neg (by rw [h3]; simp)]
      exact ⟨rfl, (hw.enums _ h3).1.ref⟩
    · rw [hd, if_neg (by rw [h3]; simp)]
      exact ⟨rfl, (hw.inputs _ h3).ref⟩
  unfold inputFieldDef at hl
  rw [hflat.1] at hl
  simp only at hl
  injection hl with hl
  have e : line = ("  " ++ compileDocumentation f.documentation f.deprecated 2) ++
      ("" ++ (key ++ ((if modOptional f.type.last then "?: " else ": ") ++
        (propTypeDef [] f.type.last (inputSpelling cfg doc f.type.name) ++ ";")))) := by
    rw [← hl, inputFieldText_shape]
    unfold inputFieldShape
    have : propTypeDef [] f.type.last (inputSpelling cfg doc f.type.name) =
        singlePropTypeDef f.type.last (inputSpelling cfg doc f.type.name) := rfl
    rw [this]
    cases modOptional f.type.last <;> simp [String.append_assoc]
  rw [e]
  refine Reads.after ?_ ?_
  · refine lexes_append (ta := []) (by unfold Lexes; decide) (Lexes.doc ?_ _ _)
    rw [h5]
    exact docOk_normalize w2
  · refine reads_member (.inl ⟨rfl, rfl⟩) ?_ (by rw [← hkey]; exact w1) (readsType_named hflat.2)
    cases modOptional f.type.last
    · exact .inl ⟨rfl, rfl⟩
    · exact .inr ⟨rfl, rfl⟩

theorem inputMember_spec (hv : ValidInputs doc) {P key : String} {j : JField} {f : SField}
    (hj : lastNamed JField.name key (inputFields doc P) = some j) (hf : SField.ofJson j = .ok f) :
    ∃ k t, inputFieldType doc P key = some (k, t) ∧ InputMember cfg doc t (inputMember cfg doc (key, f)) := by
  obtain ⟨k, t, h1, h2, h3, h4, h5, h6, h7⟩ := input_field hv hj hf
  refine ⟨k, t, h1, rfl, ?_, ?_⟩
  · show (wrapMod _ _).refs = _
    rw [refs_wrapMod, h4]; rfl
  · intro hd
    obtain ⟨g1, g2⟩ := single_exact h2 hd h6
    exact ⟨g1, fun env hnn v => by
      have := g2 env _ hnn v
      rw [← h4] at this ⊢
      exact this⟩

/-! ### The globals file -/

theorem Reads.lines {n : String} : ∀ {α : Type} (es : List α) (lines : List String) (mem : α → TsMember),
    List.Forall₂ (fun e line => ∀ ms, Reads (.object n ms) line [] (.object n (ms ++ [mem e]))) es lines →
    ∀ ms, Reads (.object n ms) (joinWith "\n" lines) [] (.object n (ms ++ es.map mem)) := by
  intro α es lines mem h
  have hz : lines = (es.zip lines).map Prod.snd ∧ es = (es.zip lines).map Prod.fst ∧
      ∀ p ∈ es.zip lines, ∀ ms, Reads (.object n ms) p.2 [] (.object n (ms ++ [mem p.1])) := by
    induction h with
    | nil => simp
    | cons h _ ih =>
      obtain ⟨a, b, c⟩ := ih
      refine ⟨?_, ?_, ?_⟩
      · rw [List.zip_cons_cons, List.map_cons, ← a]
      · rw [List.zip_cons_cons, List.map_cons, ← b]
      · intro p hp
        rw [List.zip_cons_cons] at hp
        rcases List.mem_cons.1 hp with rfl | hp
        · exact h
        · exact c p hp
  obtain ⟨a, b, c⟩ := hz
  intro ms
  have := reads_members (n := n) Prod.snd (fun p => mem p.1) (es.zip lines) c ms
  rw [← a, show (es.zip lines).map (fun p => mem p.1) = ((es.zip lines).map Prod.fst).map mem by
    rw [List.map_map]; rfl, ← b] at this
  exact this

/-- A declared global type is read as its statement. -/
theorem reads_global (hs : Schema.ofJson doc = .ok schema) (hv : ValidInputs doc) (hw : GlobalsWritable cfg doc)
    {n text : String} (h : DeclaresGlobal cfg schema n text) :
    ∃ s, GlobalStmt cfg doc n s ∧ Reads .top text [s] .top := by
  obtain ⟨t, ht, h⟩ := h
  rcases h with ⟨vs, hd, us, hp, hsort, rfl⟩ | ⟨nm, fields, hd, es, lines, hp, hsort, hl, rfl⟩
  · obtain ⟨j, h1, h2, h3, h4⟩ := loaded_enum hs ht hd
    have hk : kindNamed doc n = some "ENUM" := by simp [kindNamed, h1, h2]
    obtain ⟨w1, w2⟩ := hw.enums n hk
    rw [h4] at w2
    refine ⟨_, .inl ⟨hk, us, by rw [h4]; exact hp, ?_, rfl⟩, ?_⟩
    · refine hsort ?_
      intro v hvm c hc
      have := isIdent_chars (w2 v hvm) c hc
      by_contra hlt
      have hle : c.toNat ≤ 32 := by
        have : ¬ (' ' < c) := hlt
        simp only [Char.lt_def, UInt32.lt_iff_toNat_lt] at this
        show c.val.toNat ≤ 32
        have e : (' ').val.toNat = 32 := rfl
        omega
      have hex : ∀ n, n ≤ 32 → isIdentChar (Char.ofNat n) = false := by decide
      have h0 := hex c.toNat hle
      rw [Char.ofNat_toNat] at h0
      rw [h0] at this
      simp at this
    · have e : compileDocumentation t.documentation false 0 ++ "export enum " ++ n ++ " {\n" ++
          joinWith "\n" (us.map enumMember) ++ "\n}" = compileDocumentation t.documentation false 0 ++
          ("export enum " ++ n ++ " {\n" ++ joinWith "\n" (us.map enumMember) ++ "\n}") := by
        simp only [String.append_assoc]
      rw [e]
      refine Reads.after (Lexes.doc ?_ _ _) (reads_enum w1 (fun v hvm => w2 v (hp.mem_iff.1 hvm)))
      rw [← h3]
      exact hw.docs n j h1 h2
  · obtain ⟨hk, hnd, hkeys, hget⟩ := loaded_input hs ht hd
    have hpn : (es.map Prod.fst).Perm fields.keys := hp.map _
    refine ⟨_, .inr ⟨hk, es.map (inputMember cfg doc), rfl, ?_, ?_, ?_⟩, ?_⟩
    · have e : (es.map (inputMember cfg doc)).map TsMember.name = es.map Prod.fst := by
        rw [List.map_map]; rfl
      rw [e]
      refine lt_of_le_nodup ?_ (hpn.nodup_iff.2 hnd)
      exact hsort
    · intro name
      have e : (es.map (inputMember cfg doc)).map TsMember.name = es.map Prod.fst := by
        rw [List.map_map]; rfl
      rw [e, hpn.mem_iff, hkeys]
    · intro m hm
      obtain ⟨⟨key, f⟩, he, rfl⟩ := List.mem_map.1 hm
      obtain ⟨j, h1, h2⟩ := hget key f (hp.mem_iff.1 he)
      exact inputMember_spec hv h1 h2
    · refine reads_object (hw.inputs n hk) ?_
      refine Reads.lines es lines (inputMember cfg doc) ?_ []
      have hall : ∀ e ∈ es, e ∈ fields := fun e he => hp.mem_iff.1 he
      clear hp hsort hpn
      induction hl with
      | nil => exact .nil
      | cons h0 _ ih =>
        rename_i e line es lines _
        refine .cons ?_ (ih (fun e he => hall e (List.mem_cons_of_mem _ he)))
        intro ms
        obtain ⟨j, h1, h2⟩ := hget e.1 e.2 (hall e (List.mem_cons_self ..))
        exact reads_inputField hv hw h1 h2 h0 n ms

theorem reads_globals {names decls : List String} {P : String → TsStmt → Prop}
    (h : List.Forall₂ (fun n text => ∃ s, P n s ∧ Reads .top text [s] .top) names decls) :
    ∃ ss, List.Forall₂ P names ss ∧ Reads .top (joinWith "\n\n" decls) ss .top := by
  have key : ∃ l : List (String × TsStmt), decls = l.map Prod.fst ∧ List.Forall₂ P names (l.map Prod.snd) ∧
      ∀ p ∈ l, Reads .top p.1 [p.2] .top := by
    induction h with
    | nil => exact ⟨[], rfl, .nil, by simp⟩
    | cons h _ ih =>
      obtain ⟨s, h1, h2⟩ := h
      obtain ⟨l, e1, e2, e3⟩ := ih
      rename_i a b _ _ _
      refine ⟨(b, s) :: l, by simp [e1], .cons h1 e2, ?_⟩
      intro p hp
      rcases List.mem_cons.1 hp with rfl | hp
      · exact h2
      · exact e3 p hp
  obtain ⟨l, rfl, h2, h3⟩ := key
  exact ⟨_, h2, reads_blocks Prod.fst Prod.snd l h3⟩

end Qlc
