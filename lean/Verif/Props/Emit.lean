import Verif.Lemmas.EmitDoc
import Verif.Props.Tree
import Verif.Props.Docs
/-
Properties C18, C19, C20, C24, C26, C28, C29: the generated file.  Each says: the generated text is the text
of a file, given as data, that is a file for the operation and has the property.
-/
set_option autoImplicit false

namespace Qlc
open Spec

variable {schema : Schema} {frags : Frags}

/-! ### The generated file -/

theorem varIs_tsVar {cfg : TsConfig} {v : Variable} (hv : ∀ n, v.type = .custom n → (schema.getType n).isSome) :
    VarIs cfg schema v (tsVar cfg schema v) := by
  refine ⟨rfl, rfl, ?_, ?_⟩
  · unfold tsVar
    cases v.modifier <;> simp
  · unfold tsVar varFlat
    cases ht : v.type with
    | custom n =>
      simp only
      obtain ⟨t, h⟩ := Option.isSome_iff_exists.1 (hv n ht)
      refine ⟨t, h, ?_⟩
      rw [h]
      simp only [Option.map_some]
      cases t.definition <;> rfl
    | _ => rfl

theorem variableTypes_known (cfg : TsConfig) : ∀ (vs : List Variable) (g g' : List String)
    (out : List (Variable × String)), compileVariableTypes cfg schema vs g = .ok (out, g') →
    ∀ v ∈ vs, ∀ n, v.type = .custom n → (schema.getType n).isSome = true
  | [], _, _, _, _ => by simp
  | w :: vs, g, g', out, h => by
    unfold compileVariableTypes at h
    cases h1 : compileVariableTypeName cfg schema w g with
    | error e => rw [h1] at h; simp at h
    | ok r =>
      obtain ⟨tn, g₁⟩ := r
      rw [h1] at h
      simp only at h
      cases h2 : compileVariableTypes cfg schema vs g₁ with
      | error e => rw [h2] at h; simp at h
      | ok r₂ =>
        intro v hv n hn
        rcases List.mem_cons.1 hv with rfl | hv
        · unfold compileVariableTypeName at h1
          rw [hn] at h1
          simp only at h1
          cases hg : schema.getType n with
          | none => rw [hg] at h1; simp at h1
          | some t => rfl
        · exact variableTypes_known cfg vs g₁ _ _ h2 v hv n hn

theorem sortedVars_sorted (ω : Hash) (cfg : TsConfig) (vs : List Variable) :
    ((sortedVars ω cfg schema vs).map Variable.propName).Pairwise (· ≤ ·) := by
  unfold sortedVars
  rw [List.map_map, List.pairwise_map]
  exact sortBy_sorted (fun (e : Variable × String) => e.1.propName) _

theorem sortedVars_are {ω : Hash} {cfg : TsConfig} {vs : List Variable}
    (hv : ∀ v ∈ vs, ∀ n, v.type = .custom n → (schema.getType n).isSome = true) :
    VarsAre cfg schema vs ((sortedVars ω cfg schema vs).map (tsVar cfg schema)) := by
  refine ⟨?_, sortedVars ω cfg schema vs, sortedVars_perm ω cfg schema vs, ?_⟩
  · rw [List.map_map]
    exact sortedVars_sorted ω cfg vs
  · apply forall₂_map_right
    intro v hm
    exact varIs_tsVar (hv v ((sortedVars_perm ω cfg schema vs).mem_iff.1 hm))

theorem fileFor_tsFile {ω : Hash} {op : Operation} {cfg : TsConfig} {c : Compile}
    (hal : AltsNodup op.collection) (h : compileIr ω op cfg schema = .ok c) :
    FileFor cfg schema op (tsFile ω cfg schema op) where
  name := rfl
  docModule := rfl
  globalsModule := rfl
  tree := fun k => renders cfg _ k op.collection op.name hal (fun _ hd => hd)
  vars := by
    cases hv : op.variables with
    | none => simp only; unfold tsFile; rw [hv]; rfl
    | some vs =>
      simp only
      refine ⟨_, by unfold tsFile; simp only [hv]; rfl, sortedVars_are ?_⟩
      unfold compileIr at h
      cases h1 : genCollection ω (possOf ω cfg op.collection) op.name [] with
      | error e => rw [h1] at h; simp at h
      | ok r =>
        obtain ⟨defs, g⟩ := r
        rw [h1] at h
        simp only at h
        unfold compileVariablesTypeDefinition at h
        rw [hv] at h
        simp only at h
        cases h2 : compileVariableTypes cfg schema vs g with
        | error e => rw [h2] at h; simp at h
        | ok r => exact variableTypes_known cfg vs g _ _ h2

theorem compiled_altsNodup {ω : Hash} {fuel : Nat} {showDep : Bool} (hcon : Consistent schema)
    {d : Definition} {op : Operation} {ws : List Warning}
    (h : Operation.compile ω fuel ⟨schema, showDep, frags⟩ d = some (.ok op, ws)) :
    AltsNodup op.collection := by
  cases hP : rootType d with
  | none =>
    cases d with
    | selectionSet pos items => simp [Operation.compile] at h
    | operation kw pos name vars dirs items => cases kw <;> simp [rootType] at hP
    | fragment f => simp [rootType] at hP
  | some P =>
    obtain ⟨_, _, ht, _⟩ := compiled_tree hcon hP h
    exact altsNodup_of_tree (fun n => ⟨_, _, ht n⟩)

theorem compiled_finish {ω : Hash} {fuel : Nat} {showDep : Bool} (hcon : Consistent schema)
    {d : Definition} {op : Operation} {ws : List Warning}
    (h : Operation.compile ω fuel ⟨schema, showDep, frags⟩ d = some (.ok op, ws)) :
    finish schema d op.collection = .ok op := by
  cases hP : rootType d with
  | none =>
    cases d with
    | selectionSet pos items => simp [Operation.compile] at h
    | operation kw pos name vars dirs items => cases kw <;> simp [rootType] at hP
    | fragment f => simp [rootType] at hP
  | some P => exact (compiled_tree hcon hP h).2.2.2

/-! ### C18 -/

theorem tsFile_declared_nodup {ω : Hash} {fuel : Nat} {showDep : Bool} {cfg : TsConfig}
    (hcon : Consistent schema) (hfr : FragsValid schema frags) {d : Definition} {op : Operation}
    {ws : List Warning} {P : String} (hP : rootType d = some P)
    (h : Operation.compile ω fuel ⟨schema, showDep, frags⟩ d = some (.ok op, ws))
    (hone : OneTypePerKey schema frags P [itemsOf d])
    (hT : ∀ P, ∀ T ∈ possibleTypes schema P, Plain T)
    (hk : ∀ k ∈ compositeKeys (itemsOf d), Plain k)
    (hkf : ∀ name fd, AMap.get? frags name = some fd → ∀ k ∈ compositeKeys fd.items, Plain k) :
    (tsFile ω cfg schema op).declared.Nodup := by
  obtain ⟨_, _, ht, _⟩ := compiled_tree hcon hP h
  have hal := altsNodup_of_tree (fun n => ⟨_, _, ht n⟩)
  have hn : ((collDecls cfg op.collection op.name).map TsDecl.name).Nodup := by
    refine coll_nodup cfg _ op.collection (Nat.le_refl _) ?_ ?_ hal op.name
    · refine plainNames_of_tree hkf hT (fun n => ⟨_, _, ht n, ?_⟩)
      intro s hs
      rw [List.mem_singleton] at hs; subst hs
      exact hk
    · exact propsNodup_of_distinct
        (C21_properties_listed_once ω fuel showDep hcon hfr d op ws P hP h hone)
  unfold TsFile.declared
  show ((collDecls cfg op.collection op.name).map TsDecl.name ++ _).Nodup
  cases hv : op.variables with
  | none =>
    unfold tsFile
    simp only [hv, Option.map_none, List.append_nil]
    exact hn
  | some vs =>
    unfold tsFile
    simp only [hv, Option.map_some]
    rw [List.nodup_append]
    refine ⟨hn, by simp, ?_⟩
    intro a ha b hb
    rw [List.mem_singleton] at hb
    subst hb
    obtain ⟨d, hd, rfl⟩ := List.mem_map.1 ha
    exact variables_ne (coll_extends cfg _ op.collection (Nat.le_refl _) op.name d hd)

/-- **C18.** If no object type name and no response key of a field with sub-selections, in the document or
in an imported fragment, contains an underscore or a dollar sign, and each response key has one named type,
then every type name is declared once in the generated file. -/
theorem C18_names_declared_once (ω : Hash) (fuel : Nat) (showDep : Bool) (cfg : TsConfig)
    (hcon : Consistent schema) (hfr : FragsValid schema frags) (d : Definition) (op : Operation)
    (ws : List Warning) (P : String) (hP : rootType d = some P)
    (h : Operation.compile ω fuel ⟨schema, showDep, frags⟩ d = some (.ok op, ws))
    (hone : OneTypePerKey schema frags P [itemsOf d])
    (hT : ∀ P, ∀ T ∈ possibleTypes schema P, Plain T)
    (hk : ∀ k ∈ compositeKeys (itemsOf d), Plain k)
    (hkf : ∀ name fd, AMap.get? frags name = some fd → ∀ k ∈ compositeKeys fd.items, Plain k)
    (c : Compile) (hc : compileIr ω op cfg schema = .ok c) :
    ∃ f : TsFile, c.contents = f.text cfg.useReadonlyTypes ∧ FileFor cfg schema op f ∧
      f.declared.Nodup := by
  obtain ⟨_, _, ht, _⟩ := compiled_tree hcon hP h
  have hal := altsNodup_of_tree (fun n => ⟨_, _, ht n⟩)
  refine ⟨tsFile ω cfg schema op, (compileIr_agrees hc).1, fileFor_tsFile hal hc, ?_⟩
  exact tsFile_declared_nodup hcon hfr hP h hone hT hk hkf

/-! ### C19 -/

theorem scalarFlat_known (cfg : TsConfig) (f : TsFile) (s : ScalarType) : (scalarFlat cfg s).Known cfg f := by
  cases s with
  | custom n =>
    unfold scalarFlat
    cases hb : cfg.bottomTypeConfig with
    | defaultBottomType => simp [Flat.Known]
    | realName => exact ⟨n, by rw [hb]⟩
    | realNameWithPrefix p => exact ⟨n, by rw [hb]⟩
  | _ => simp [scalarFlat, Flat.Known]

/-- Where the references of generated properties come from. -/
theorem prop_flat (cfg : TsConfig) (k : Nat) : ∀ (ps : List Complex), sizeOf ps ≤ k → ∀ (main n : String)
    (props : List TsProp), TsDecl.object n props ∈ collDecls cfg ps main → ∀ p ∈ props,
    (∃ m, p.flat = .declared m) ∨ (∃ m, p.flat = .global m) ∨ (∃ s, p.flat = scalarFlat cfg s) ∨
      ∃ ls, p.flat = .literals ls := by
  induction k with
  | zero => intro ps hs; exfalso; cases ps <;> simp at hs
  | succ k ih =>
    intro ps hs main n props hd p hp
    rcases mem_collDecls.1 hd with ⟨b, hb, hd⟩ | ⟨_, e⟩
    · rcases mem_objDecls.1 hd with ⟨fld, hf, sub, hty, hd⟩ | e
      · have hm := (mem_bodies hb).1
        obtain ⟨⟨T, fields⟩, _, _⟩ := b
        have := sizeOf_sub hm hf hty
        exact ih sub (by omega) _ _ _ hd p hp
      · injection e with e1 e2
        rw [e2, aFields_props] at hp
        obtain ⟨fld, _, rfl⟩ := List.mem_map.1 hp
        simp only
        cases fld.type with
        | complex sub => unfold aType; exact .inl ⟨_, rfl⟩
        | enum m => unfold aType; exact .inr (.inl ⟨_, rfl⟩)
        | scalar s => unfold aType; exact .inr (.inr (.inl ⟨_, rfl⟩))
        | typeName => unfold aType; exact .inr (.inr (.inr ⟨_, rfl⟩))
    · exact TsDecl.noConfusion e

theorem mem_globals {ω : Hash} {cfg : TsConfig} {op : Operation} {n : String} :
    n ∈ (tsFile ω cfg schema op).globals ↔
      n ∈ enumsIn (tsFile ω cfg schema op).decls ∨ n ∈ varGlobals cfg schema (op.variables.getD []) := by
  show n ∈ sortStr _ ↔ _
  rw [mem_sortStr, mem_foldl_setInsert, List.mem_append]
  simp only [List.not_mem_nil, false_or]
  rfl

theorem mem_enumsIn {ds : List TsDecl} {n : String} :
    n ∈ enumsIn ds ↔ ∃ m props, TsDecl.object m props ∈ ds ∧ ∃ p ∈ props, p.flat = .global n := by
  unfold enumsIn
  rw [List.mem_flatMap]
  constructor
  · rintro ⟨d, hd, h⟩
    cases d with
    | union m as => simp at h
    | object m props =>
      simp only [List.mem_flatMap] at h
      obtain ⟨p, hp, h⟩ := h
      refine ⟨m, props, hd, p, hp, ?_⟩
      cases hfl : p.flat <;> rw [hfl] at h <;> simp at h
      rw [h]
  · rintro ⟨m, props, hd, p, hp, h⟩
    refine ⟨_, hd, ?_⟩
    simp only [List.mem_flatMap]
    exact ⟨p, hp, by rw [h]; simp⟩

theorem mem_varGlobals {ω : Hash} {cfg : TsConfig} {vs : List Variable} {n : String} :
    n ∈ varGlobals cfg schema vs ↔
      ∃ p ∈ (sortedVars ω cfg schema vs).map (tsVar cfg schema), p.flat = .global n := by
  unfold varGlobals
  rw [List.mem_flatMap]
  constructor
  · rintro ⟨v, hv, h⟩
    refine ⟨tsVar cfg schema v, List.mem_map.2 ⟨v, (sortedVars_perm ω cfg schema vs).mem_iff.2 hv, rfl⟩, ?_⟩
    show varFlat cfg schema v.type = _
    cases hfl : varFlat cfg schema v.type <;> rw [hfl] at h <;> simp at h
    rw [h]
  · rintro ⟨p, hp, h⟩
    obtain ⟨v, hv, rfl⟩ := List.mem_map.1 hp
    refine ⟨v, (sortedVars_perm ω cfg schema vs).mem_iff.1 hv, ?_⟩
    have h : varFlat cfg schema v.type = .global n := h
    rw [h]; simp

theorem tsFile_args {ω : Hash} {cfg : TsConfig} {op : Operation} {c : Compile}
    (hc : compileIr ω op cfg schema = .ok c) :
    ∀ a ∈ (tsFile ω cfg schema op).args, a ∈ (tsFile ω cfg schema op).declared ∨ a = "never" := by
  obtain ⟨h1, h2, h3, h4⟩ := compileIr_agrees hc
  intro a ha
  have hname : op.name ∈ (tsFile ω cfg schema op).declared := List.mem_append_left _ h4
  have key : ∀ b, b = (match op.variables with | none => "never" | some _ => op.name ++ "Variables") →
      b ∈ (tsFile ω cfg schema op).declared ∨ b = "never" := by
    rintro b rfl
    cases ho : op.variables with
    | none => exact .inr rfl
    | some vs =>
      left
      refine List.mem_append_right _ ?_
      unfold tsFile
      simp [ho]
  have ha : a ∈ (match op.kind with
    | .fragment => [op.name]
    | _ => [op.name, match op.variables with | none => "never" | some _ => op.name ++ "Variables"]) := ha
  cases hk : op.kind with
  | fragment =>
    rw [hk] at ha
    simp only [List.mem_singleton] at ha
    rw [ha]; exact .inl hname
  | _ =>
    rw [hk] at ha
    simp only [List.mem_cons, List.not_mem_nil, or_false] at ha
    rcases ha with rfl | ha
    · exact .inl hname
    · exact key a ha

/-- **C19.** Every reference in a generated file is to something that exists: the properties' types, the
alternatives of the unions, the variables' types and the arguments of the document node type. -/
theorem C19_no_dangling_references (ω : Hash) (fuel : Nat) (showDep : Bool) (cfg : TsConfig)
    (hcon : Consistent schema) (d : Definition) (op : Operation) (ws : List Warning)
    (h : Operation.compile ω fuel ⟨schema, showDep, frags⟩ d = some (.ok op, ws))
    (c : Compile) (hc : compileIr ω op cfg schema = .ok c) :
    ∃ f : TsFile, c.contents = f.text cfg.useReadonlyTypes ∧ FileFor cfg schema op f ∧
      (∀ n props, TsDecl.object n props ∈ f.decls → ∀ p ∈ props, p.flat.Known cfg f) ∧
      (∀ n alts, TsDecl.union n alts ∈ f.decls → ∀ a ∈ alts, a ∈ f.declared) ∧
      (∀ n vs, f.vars = some (n, vs) → ∀ v ∈ vs, v.flat.Known cfg f) ∧
      (∀ a ∈ f.args, a ∈ f.declared ∨ a = "never") := by
  obtain ⟨h1, h2, h3, h4⟩ := compileIr_agrees hc
  refine ⟨tsFile ω cfg schema op, h1, fileFor_tsFile (compiled_altsNodup hcon h) hc, ?_, ?_, ?_, ?_⟩
  · intro n props hd p hp
    rcases prop_flat cfg _ op.collection (Nat.le_refl _) op.name n props hd p hp with
      ⟨m, e⟩ | ⟨m, e⟩ | ⟨s, e⟩ | ⟨ls, e⟩
    · rw [e]
      have : m ∈ refsIn (tsFile ω cfg schema op).decls := by
        unfold refsIn
        rw [List.mem_flatMap]
        refine ⟨_, hd, ?_⟩
        simp only [List.mem_flatMap]
        exact ⟨p, hp, by rw [e]; simp⟩
      obtain ⟨d, hd, e⟩ := List.mem_map.1 (h3.1 m this)
      exact ⟨d, hd, e⟩
    · rw [e]
      exact mem_globals.2 (.inl (mem_enumsIn.2 ⟨n, props, hd, p, hp, e⟩))
    · rw [e]; exact scalarFlat_known cfg _ s
    · rw [e]; trivial
  · intro n alts hd a ha
    refine List.mem_append_left _ (h3.1 a ?_)
    unfold refsIn
    rw [List.mem_flatMap]
    exact ⟨_, hd, ha⟩
  · intro n vs hv v hm
    have hv : op.variables.map (fun vs => (op.name ++ "Variables",
      (sortedVars ω cfg schema vs).map (tsVar cfg schema))) = some (n, vs) := hv
    cases ho : op.variables with
    | none => rw [ho] at hv; simp at hv
    | some us =>
      rw [ho] at hv
      simp only [Option.map_some, Option.some.injEq, Prod.mk.injEq] at hv
      obtain ⟨_, rfl⟩ := hv
      obtain ⟨u, hu, rfl⟩ := List.mem_map.1 hm
      show (varFlat cfg schema u.type).Known cfg _
      cases hfl : varFlat cfg schema u.type with
      | global m =>
        refine mem_globals.2 (.inr ?_)
        rw [ho]
        exact (mem_varGlobals (ω := ω)).2 ⟨_, hm, hfl⟩
      | _ =>
        rw [← hfl]
        unfold varFlat
        cases ht : u.type with
        | custom name =>
          simp only
          split
          · exact scalarFlat_known cfg _ _
          · rename_i hns
            unfold varFlat at hfl
            rw [ht] at hfl
            simp only at hfl
            exact Flat.noConfusion hfl
        | _ => simp [Flat.Known]
  · exact tsFile_args hc

/-! ### C20 -/

/-- **C20.** The names imported from the globals module are, sorted and without repetition, the enums that
the properties of the file refer to and the enums and input objects that its variables refer to; the same
names are reported for the globals module.  (`TsFile.text` prints no import if there are none.) -/
theorem C20_globals_exactly_those_used (ω : Hash) (fuel : Nat) (showDep : Bool) (cfg : TsConfig)
    (hcon : Consistent schema) (d : Definition) (op : Operation) (ws : List Warning)
    (h : Operation.compile ω fuel ⟨schema, showDep, frags⟩ d = some (.ok op, ws))
    (c : Compile) (hc : compileIr ω op cfg schema = .ok c) :
    ∃ f : TsFile, c.contents = f.text cfg.useReadonlyTypes ∧ FileFor cfg schema op f ∧
      f.globals.Pairwise (· < ·) ∧ c.globalTypesUsed.Perm f.globals ∧
      ∀ n, n ∈ f.globals ↔
        (∃ m props, TsDecl.object m props ∈ f.decls ∧ ∃ p ∈ props, p.flat = .global n) ∨
        (∃ m vs, f.vars = some (m, vs) ∧ ∃ v ∈ vs, v.flat = .global n) := by
  obtain ⟨h1, h2, h3, h4⟩ := compileIr_agrees hc
  refine ⟨tsFile ω cfg schema op, h1, fileFor_tsFile (compiled_altsNodup hcon h) hc, ?_, h2, ?_⟩
  · exact sortStr_strict (nodup_foldl_setInsert _ _ (by simp))
  · intro n
    rw [mem_globals, mem_enumsIn]
    refine or_congr Iff.rfl ?_
    show _ ↔ ∃ m vs, op.variables.map (fun vs => (op.name ++ "Variables",
      (sortedVars ω cfg schema vs).map (tsVar cfg schema))) = some (m, vs) ∧ _
    cases ho : op.variables with
    | none => simp [varGlobals]
    | some us =>
      rw [Option.getD_some, mem_varGlobals (ω := ω)]
      simp

/-! ### C24 -/

theorem discriminated (cfg : TsConfig) (decls : List TsDecl) (k : Nat) : ∀ (n : String) (ps : List Complex),
    Renders cfg decls k n ps → Discriminated decls k n ps := by
  induction k with
  | zero => intro n ps _; trivial
  | succ k ih =>
    rintro n ps ⟨alts, hres, hcov, hdis, hall⟩
    have hlit : ∀ a ∈ alts, ∀ key T, HasLiteral a.props key T → T ∈ a.types := by
      rintro a ha key T ⟨p, hp, _, ls, hfl, hT⟩
      obtain ⟨_, _, _, hF⟩ := hall a ha
      obtain ⟨fld, _, hpi⟩ := forall₂_mem hF p hp
      have h6 := hpi.2.2.2.2.2
      rw [hfl] at h6
      cases hty : fld.type with
      | complex sub => rw [hty] at h6; obtain ⟨m, e, _⟩ := h6; exact Flat.noConfusion e
      | enum m => rw [hty] at h6; exact Flat.noConfusion h6
      | scalar s =>
        rw [hty] at h6
        exfalso
        have h6 : Flat.literals ls = scalarFlat cfg s := h6
        unfold scalarFlat at h6
        cases s with
        | custom m => revert h6; cases cfg.bottomTypeConfig <;> (intro h6; exact Flat.noConfusion h6)
        | _ => exact Flat.noConfusion h6
      | typeName =>
        rw [hty] at h6
        obtain ⟨ls', e, _, h⟩ := h6
        injection e with e
        subst e
        exact (h T).1 hT
    refine ⟨alts.map (fun a => ((a.name, a.props), a.rep)), ?_, ?_, ?_⟩
    · rw [List.map_map]; exact hres
    · intro key hkey
      constructor
      · intro T
        rw [hcov]
        constructor
        · rintro ⟨a, ha, hT⟩
          refine ⟨_, List.mem_map.2 ⟨a, ha, rfl⟩, ?_⟩
          obtain ⟨hr, _, _, hF⟩ := hall a ha
          obtain ⟨fld, hf, hk, hty⟩ := hkey a.rep hr
          obtain ⟨p, hp, hpi⟩ := forall₂_mem_left hF fld hf
          have h6 := hpi.2.2.2.2.2
          rw [hty] at h6
          obtain ⟨ls, e, _, h⟩ := h6
          exact ⟨p, hp, hpi.1.trans hk, ls, e, (h T).2 hT⟩
        · rintro ⟨_, hb, hT⟩
          obtain ⟨a, ha, rfl⟩ := List.mem_map.1 hb
          exact ⟨a, ha, hlit a ha key T hT⟩
      · rw [List.pairwise_map]
        refine List.Pairwise.imp_of_mem ?_ hdis
        intro a b ha hb hab T h1 h2
        exact hab T (hlit a ha key T h1) (hlit b hb key T h2)
    · intro x hx
      obtain ⟨a, ha, rfl⟩ := List.mem_map.1 hx
      obtain ⟨hr, _, _, hF⟩ := hall a ha
      refine ⟨hr, hF.imp ?_⟩
      rintro fld p ⟨h1, _, _, _, _, h6⟩
      refine ⟨h1, fun sub hty => ?_⟩
      rw [hty] at h6
      obtain ⟨m, e, hR⟩ := h6
      exact ⟨m, e, ih m sub hR⟩

/-- **C24.** Where `__typename` is selected for all alternatives, the literals admitted by the printed object
types are exactly the possible object types, and no object type is admitted twice; at every printed
position, to any depth. -/
theorem C24_typename_discriminates (ω : Hash) (fuel : Nat) (showDep : Bool) (cfg : TsConfig)
    (hcon : Consistent schema) (d : Definition) (op : Operation) (ws : List Warning)
    (h : Operation.compile ω fuel ⟨schema, showDep, frags⟩ d = some (.ok op, ws))
    (c : Compile) (hc : compileIr ω op cfg schema = .ok c) :
    ∃ f : TsFile, c.contents = f.text cfg.useReadonlyTypes ∧ FileFor cfg schema op f ∧
      ∀ k, Discriminated f.decls k f.name op.collection := by
  have hf := fileFor_tsFile (compiled_altsNodup hcon h) hc
  exact ⟨_, (compileIr_agrees hc).1, hf, fun k => discriminated cfg _ k _ _ (hf.tree k)⟩

/-! ### C26 -/

/-- **C26.** A property is printed as: the doc comment, whose last line is `@deprecated` exactly when the
property is deprecated; then `readonly ` exactly when asked for; then name and type. -/
theorem C26_property_text (ro : Bool) (p : TsProp) :
    (p.text ro).toList = [' ', ' '] ++
      comment 2 (docLines p.doc ++ if p.deprecated then ["@deprecated".toList] else []) ++
      (if ro then "readonly ".toList else []) ++ (p.name ++ ": " ++ p.typeText ++ ";").toList := by
  unfold TsProp.text
  simp only [String.toList_append]
  rw [C26_doc_comment]
  have e : "  ".toList = [' ', ' '] := by decide
  have e' : (if ro = true then "readonly " else "").toList =
      if ro = true then "readonly ".toList else [] := by cases ro <;> rfl
  rw [e, e']
  simp only [List.append_assoc]

/-- **C26.** The properties of a generated file are printed with `readonly` exactly if the configuration says
so, and at every depth their documentation and deprecation marks are those of the fields (`FileFor`). -/
theorem C26_markers (ω : Hash) (fuel : Nat) (showDep : Bool) (cfg : TsConfig)
    (hcon : Consistent schema) (d : Definition) (op : Operation) (ws : List Warning)
    (h : Operation.compile ω fuel ⟨schema, showDep, frags⟩ d = some (.ok op, ws))
    (c : Compile) (hc : compileIr ω op cfg schema = .ok c) :
    ∃ f : TsFile, c.contents = f.text cfg.useReadonlyTypes ∧ FileFor cfg schema op f ∧
      ∀ n props, TsDecl.object n props ∈ f.decls → ∀ p ∈ props,
        (p.text cfg.useReadonlyTypes).toList = [' ', ' '] ++
          comment 2 (docLines p.doc ++ if p.deprecated then ["@deprecated".toList] else []) ++
          (if cfg.useReadonlyTypes then "readonly ".toList else []) ++
          (p.name ++ ": " ++ p.typeText ++ ";").toList :=
  ⟨_, (compileIr_agrees hc).1, fileFor_tsFile (compiled_altsNodup hcon h) hc,
    fun _ _ _ p _ => C26_property_text _ p⟩

/-! ### C28 and C29 -/

theorem finish_ok {d : Definition} {coll : List Complex} {op : Operation}
    (h : finish schema d coll = .ok op) :
    op.name = nameOf d ∧ op.kind = kindOf d ∧ tryBuildVariableIr schema (varsOf d) = .ok op.variables := by
  unfold finish at h
  split at h
  · simp at h
  · rename_i vs hv
    injection h with h
    subst h
    exact ⟨rfl, rfl, hv⟩

theorem variables_none_iff {vars : List VarDef} {o : Option (List Variable)}
    (h : tryBuildVariableIr schema vars = .ok o) : o = none ↔ vars = [] := by
  unfold tryBuildVariableIr at h
  split at h
  · rename_i he
    injection h with h
    subst h
    simpa using he
  · rename_i he
    split at h
    · simp at h
    · injection h with h
      subst h
      simpa using he

theorem name_of_compiled {ω : Hash} {fuel : Nat} {showDep : Bool} (hcon : Consistent schema)
    {d : Definition} {op : Operation} {ws : List Warning}
    (h : Operation.compile ω fuel ⟨schema, showDep, frags⟩ d = some (.ok op, ws)) :
    op.name = dataName d := by
  rw [(finish_ok (compiled_finish hcon h)).1]
  cases d with
  | operation kw pos name vars dirs items => cases kw <;> rfl
  | selectionSet => rfl
  | fragment f => rfl

/-- The name, the document node and its arguments, of the file as data. -/
theorem tsFile_doc {ω : Hash} {fuel : Nat} {showDep : Bool} {cfg : TsConfig}
    (hcon : Consistent schema) {d : Definition} {op : Operation} {ws : List Warning}
    (h : Operation.compile ω fuel ⟨schema, showDep, frags⟩ d = some (.ok op, ws)) :
    (tsFile ω cfg schema op).name = dataName d ∧ (tsFile ω cfg schema op).docNode = docNodeFor d ∧
      (tsFile ω cfg schema op).args = docArgs d := by
  have hname := name_of_compiled hcon h
  obtain ⟨_, h2, h3⟩ := finish_ok (compiled_finish hcon h)
  have hdoc : (tsFile ω cfg schema op).docNode = docNodeFor d := by
    show docNodeName op.kind = _
    rw [h2]
    cases d with
    | operation kw pos name vars dirs items => cases kw <;> rfl
    | selectionSet => rfl
    | fragment f => rfl
  have hargs : (tsFile ω cfg schema op).args = docArgs d := by
    unfold tsFile
    simp only
    rw [h2]
    have hv := variables_none_iff h3
    cases d with
    | operation kw pos name vars dirs items =>
      have hv : op.variables = none ↔ vars = [] := hv
      have key : (match op.variables with | none => "never" | some _ => op.name ++ "Variables") =
          if vars = [] then "never" else op.name ++ "Variables" := by
        cases ho : op.variables with
        | none => rw [if_pos (hv.1 ho)]
        | some vs => rw [if_neg (fun e => by rw [hv.2 e] at ho; simp at ho)]
      unfold docArgs
      simp only
      rw [← hname, ← key]
      cases kw <;> rfl
    | selectionSet => unfold docArgs; simp only; rw [← hname]; rfl
    | fragment f => unfold docArgs; simp only; rw [← hname]; rfl
  exact ⟨hname, hdoc, hargs⟩

/-- **C28.** The default export is annotated according to the definition: `QueryDocumentNode`,
`MutationDocumentNode` or `FragmentDocumentNode`, with the data type and, for operations, the variables type
or `never`.  A subscription is treated as a query. -/
theorem C28_default_export (ω : Hash) (fuel : Nat) (showDep : Bool) (cfg : TsConfig)
    (hcon : Consistent schema) (d : Definition) (op : Operation) (ws : List Warning)
    (h : Operation.compile ω fuel ⟨schema, showDep, frags⟩ d = some (.ok op, ws))
    (c : Compile) (hc : compileIr ω op cfg schema = .ok c) :
    ∃ f : TsFile, c.contents = f.text cfg.useReadonlyTypes ∧ FileFor cfg schema op f ∧
      f.name = dataName d ∧ f.docNode = docNodeFor d ∧ f.args = docArgs d ∧
      ∃ before, c.contents = before ++ "\n\ndeclare const graphqlDocument: " ++ docNodeFor d ++
        "<" ++ joinWith ", " (docArgs d) ++ ">" ++ ";\nexport default graphqlDocument;" := by
  obtain ⟨hname, hdoc, hargs⟩ := tsFile_doc (cfg := cfg) hcon h
  refine ⟨tsFile ω cfg schema op, (compileIr_agrees hc).1, fileFor_tsFile (compiled_altsNodup hcon h) hc,
    hname, hdoc, hargs, ?_⟩
  rw [(compileIr_agrees hc).1, ← hdoc, ← hargs]
  exact ⟨_, rfl⟩

theorem buildVariable_name {v : VarDef} {x : Variable} (h : buildVariable schema v = .ok x) :
    x.propName = v.name := by
  unfold buildVariable at h
  split at h
  · simp at h
  · split at h
    · simp at h
    · injection h with h; subst h; rfl

theorem buildVariables_names : ∀ (ds : List VarDef) (us : List Variable),
    ds.map (buildVariable schema) = us.map .ok → us.map Variable.propName = ds.map VarDef.name
  | [], us, h => by cases us <;> simp at h ⊢
  | v :: ds, [], h => by simp at h
  | v :: ds, u :: us, h => by
    simp only [List.map_cons, List.cons.injEq] at h ⊢
    exact ⟨buildVariable_name h.1, buildVariables_names ds us h.2⟩

/-- **C29.** The file has a variables type exactly if the definition declares variables; its properties are
the declared variables, each as often as it is declared, in sorted order. -/
theorem C29_variables_type (ω : Hash) (fuel : Nat) (showDep : Bool) (cfg : TsConfig)
    (hcon : Consistent schema) (d : Definition) (op : Operation) (ws : List Warning)
    (h : Operation.compile ω fuel ⟨schema, showDep, frags⟩ d = some (.ok op, ws))
    (c : Compile) (hc : compileIr ω op cfg schema = .ok c) :
    ∃ f : TsFile, c.contents = f.text cfg.useReadonlyTypes ∧ FileFor cfg schema op f ∧
      (f.vars = none ↔ varsOf d = []) ∧
      ∀ n ps, f.vars = some (n, ps) → n = dataName d ++ "Variables" ∧
        (ps.map TsVar.name).Pairwise (· ≤ ·) ∧ (ps.map TsVar.name).Perm ((varsOf d).map VarDef.name) := by
  have hname := name_of_compiled hcon h
  obtain ⟨_, _, h3⟩ := finish_ok (compiled_finish hcon h)
  refine ⟨tsFile ω cfg schema op, (compileIr_agrees hc).1, fileFor_tsFile (compiled_altsNodup hcon h) hc,
    ?_, ?_⟩
  · rw [← variables_none_iff h3]
    show op.variables.map _ = none ↔ _
    rw [Option.map_eq_none_iff]
  · intro n ps hv
    have hv : op.variables.map (fun vs => (op.name ++ "Variables",
      (sortedVars ω cfg schema vs).map (tsVar cfg schema))) = some (n, ps) := hv
    cases ho : op.variables with
    | none => rw [ho] at hv; simp at hv
    | some vs =>
      rw [ho] at hv h3
      simp only [Option.map_some, Option.some.injEq, Prod.mk.injEq] at hv
      obtain ⟨rfl, rfl⟩ := hv
      refine ⟨by rw [hname], ?_, ?_⟩
      · rw [List.map_map]; exact sortedVars_sorted ω cfg vs
      · rw [List.map_map]
        refine ((sortedVars_perm ω cfg schema vs).map Variable.propName).trans ?_
        unfold tryBuildVariableIr at h3
        split at h3
        · simp at h3
        · split at h3
          · simp at h3
          · rename_i us hus
            injection h3 with h3
            injection h3 with h3
            subst h3
            have hall := (seqE_ok_iff _ _).1 hus
            clear hus hv
            rw [buildVariables_names _ us hall]

/-! ### Examples -/

/-- Compiling and generating both succeed. -/
def generates (cfg : TsConfig) (schema : Schema) (frags : Frags) (d : Definition) : Bool :=
  match Operation.compile .inOrder 5 ⟨schema, true, frags⟩ d with
  | some (.ok op, _) => match compileIr .inOrder op cfg schema with | .ok _ => true | .error _ => false
  | _ => false

theorem generates_iff {cfg : TsConfig} {d : Definition} (h : generates cfg schema frags d = true) :
    ∃ op ws c, Operation.compile .inOrder 5 ⟨schema, true, frags⟩ d = some (.ok op, ws) ∧
      compileIr .inOrder op cfg schema = .ok c := by
  unfold generates at h
  split at h
  · rename_i op ws hop
    split at h
    · rename_i c hc; exact ⟨op, ws, c, hop, hc⟩
    · simp at h
  · simp at h

/-- The hypotheses used above are met by the demo query. -/
theorem demo_generates : ∃ op ws c,
    Operation.compile .inOrder 5 ⟨Demo.schema, true, Demo.ctx.fragments⟩ Demo.query = some (.ok op, ws) ∧
      compileIr .inOrder op Demo.tsCfg Demo.schema = .ok c := generates_iff (by decide +kernel)

theorem possible_plain_of_check (h : schema.all (fun e =>
    (possibleTypes schema e.1).all (fun T => decide (Plain T))) = true) :
    ∀ P, ∀ T ∈ possibleTypes schema P, Plain T := by
  intro P T hT
  cases hP : schema.getType P with
  | none => unfold possibleTypes at hT; rw [hP] at hT; simp at hT
  | some t =>
    have := List.all_eq_true.1 h _ (AMap.mem_of_get? hP)
    simpa using List.all_eq_true.1 this T hT

theorem demo_possible_plain : ∀ P, ∀ T ∈ possibleTypes Demo.schema P, Plain T :=
  possible_plain_of_check (by decide +kernel)

example : (∀ k ∈ compositeKeys (itemsOf Demo.query), Plain k) ∧
    compositeKeys (itemsOf Demo.query) = ["node", "me", "friends"] := by decide +kernel

example : ∀ name fd, AMap.get? Demo.ctx.fragments name = some fd → ∀ k ∈ compositeKeys fd.items, Plain k := by
  intro name fd h
  have : fd = Demo.fragF := by
    unfold Demo.ctx at h
    simp only [AMap.get?] at h
    split at h
    · injection h with e; exact e.symm
    · simp at h
  subst this
  decide

/-- The whole text for the demo query, as an illustration of `TsFile.text`. -/
example : Demo.textOf Demo.tsCfg Demo.schema Demo.ctx.fragments Demo.query = some (TsFile.text true {
    docNode := "QueryDocumentNode", docModule := "doc", globals := ["Filter", "Role"]
    globalsModule := "globals", name := "Q"
    decls := [
      .object "Q_me_friends" [⟨"id", none, false, .none, [], .builtin "string"⟩],
      .object "Q_me" [⟨"friends", none, false, .list, [], .declared "Q_me_friends"⟩],
      .object "Q_node_User" [⟨"__typename", none, false, .none, [], .literals ["User"]⟩,
        ⟨"id", none, false, .none, [], .builtin "string"⟩,
        ⟨"name", none, false, .nullable, [], .builtin "string"⟩,
        ⟨"old", some "gone", true, .nullable, [], .custom "Date"⟩,
        ⟨"role", none, false, .none, [], .global "Role"⟩],
      .object "Q_node_$$other" [⟨"__typename", none, false, .none, [], .literals ["Bot"]⟩,
        ⟨"id", none, false, .none, [], .builtin "string"⟩,
        ⟨"name", none, false, .nullable, [], .builtin "string"⟩],
      .union "Q_node" ["Q_node_User", "Q_node_$$other"],
      .object "Q" [⟨"me", none, false, .none, [], .declared "Q_me"⟩,
        ⟨"node", none, false, .nullable, [], .declared "Q_node"⟩]]
    vars := some ("QVariables", [⟨"f", true, .nullable, .global "Filter"⟩,
      ⟨"n", false, .none, .builtin "number"⟩])
    args := ["Q", "QVariables"] }) := by decide +kernel

/-- **C18, violated with underscores.** `a { b_c { x } }` and `a_b { c { y } }` are given the same type name:
the generated file declares `Q_a_b_c` twice, with different properties. -/
theorem C18_underscores_collide : Demo.textOf Demo.tsCfg Demo.usSchema [] Demo.usQuery = some (TsFile.text true {
    docNode := "QueryDocumentNode", docModule := "doc", globals := [], globalsModule := "globals", name := "Q"
    decls := [
      .object "Q_a_b_c" [⟨"x", none, false, .nullable, [], .builtin "number"⟩],
      .object "Q_a" [⟨"b_c", none, false, .nullable, [], .declared "Q_a_b_c"⟩],
      .object "Q_a_b_c" [⟨"y", none, false, .nullable, [], .builtin "number"⟩],
      .object "Q_a_b" [⟨"c", none, false, .nullable, [], .declared "Q_a_b_c"⟩],
      .object "Q" [⟨"a", none, false, .nullable, [], .declared "Q_a"⟩,
        ⟨"a_b", none, false, .nullable, [], .declared "Q_a_b"⟩]]
    vars := none, args := ["Q", "never"] }) := by decide +kernel

end Qlc
