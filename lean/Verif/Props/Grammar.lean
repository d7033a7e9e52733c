import Verif.Lemmas.ModuleAdmits
import Verif.Lemmas.GrammarCheck
import Verif.Props.Response
/-
Properties C75, C76 and C77: a generated file is a TypeScript module, read by a parser that does not know the
code generator; what its types admit; and which names it uses.
-/
set_option autoImplicit false

namespace Qlc
open Spec

variable {schema : Schema} {frags : Frags} {doc : JSchema}

/-- What the properties below have in common: the generated file as data, its names kept apart. -/
theorem module_of_compile {ω : Hash} {fuel : Nat} {showDep : Bool} {cfg : TsConfig} {Q : Flat → Prop}
    (hv : ValidDoc doc) (hs : Schema.ofJson doc = .ok schema) (hw : Writable cfg doc)
    {d : Definition} {op : Operation} {ws : List Warning} {P : String} (hP : rootType d = some P)
    (h : Operation.compile ω fuel ⟨schema, showDep, frags⟩ d = some (.ok op, ws))
    (hmain : IsBinding op.name)
    (hk : ∀ k ∈ fieldKeys (itemsOf d), IsGqlName k)
    (hkf : ∀ name fd, AMap.get? frags name = some fd → ∀ k ∈ fieldKeys fd.items, IsGqlName k)
    (hvs : VarsWritable schema (op.variables.getD [])) (hQ : ∀ fl, FromSchema cfg doc fl → Q fl)
    {c : Compile} (hc : compileIr ω op cfg schema = .ok c) :
    Printable cfg Q op.collection ∧
      FileFor cfg schema op (tsFile ω cfg schema op) ∧ FileOk (tsFile ω cfg schema op) ∧
      (∀ d ∈ (tsFile ω cfg schema op).decls, RefsOk Q d) ∧
      parseModule c.contents = some ((tsFile ω cfg schema op).stmts cfg.useReadonlyTypes) := by
  have hcon := loaded_consistent hv hs
  obtain ⟨_, _, htx, _⟩ := compiled_tree hcon hP h
  have hal := altsNodup_of_tree (fun n => ⟨_, _, htx n⟩)
  have hp : Printable cfg Q op.collection := by
    refine printable_of_tree hv hs hw hQ hkf (fun n => ⟨_, _, htx n, ?_⟩)
    intro s hs
    rw [List.mem_singleton] at hs; subst hs
    exact hk
  obtain ⟨hok, hrefs⟩ := fileOk_of_compile hs hw hc hmain hp hal hvs
  refine ⟨hp, fileFor_tsFile hal hc, hok, hrefs, ?_⟩
  rw [(compileIr_agrees hc).1]
  exact parse_file hok

/-! ### C75 -/

/-- **C75.** A generated file is a TypeScript module: a parser that knows only the grammar reads from the
text, comments and all, the imports, the exported types with their properties, the variables type, the
declaration of the document and the default export, in this order and nothing else.

The schema is loaded from a document that describes a valid schema, whose names and descriptions can be
written down (`Writable`: no enum is called like a reserved word, no description closes its comment, ...);
the document and the imported fragments have GraphQL names as response keys and variables; the name of the
operation is one that TypeScript lets a module declare. -/
theorem C75_file_is_a_module (ω : Hash) (fuel : Nat) (showDep : Bool) (cfg : TsConfig)
    (hv : ValidDoc doc) (hs : Schema.ofJson doc = .ok schema) (hw : Writable cfg doc)
    (d : Definition) (op : Operation) (ws : List Warning) (P : String) (hP : rootType d = some P)
    (h : Operation.compile ω fuel ⟨schema, showDep, frags⟩ d = some (.ok op, ws))
    (hmain : IsBinding op.name)
    (hk : ∀ k ∈ fieldKeys (itemsOf d), IsGqlName k)
    (hkf : ∀ name fd, AMap.get? frags name = some fd → ∀ k ∈ fieldKeys fd.items, IsGqlName k)
    (hvs : VarsWritable schema (op.variables.getD []))
    (c : Compile) (hc : compileIr ω op cfg schema = .ok c) :
    ∃ f : TsFile, FileFor cfg schema op f ∧ f.name = dataName d ∧ f.docNode = docNodeFor d ∧
      f.args = docArgs d ∧ c.globalTypesUsed.Perm f.globals ∧
      parseModule c.contents = some (f.stmts cfg.useReadonlyTypes) := by
  obtain ⟨_, h1, _, _, h2⟩ := module_of_compile (Q := fun _ => True) hv hs hw hP h hmain hk hkf hvs
    (fun _ _ => trivial) hc
  obtain ⟨d1, d2, d3⟩ := tsFile_doc (cfg := cfg) (loaded_consistent hv hs) h
  exact ⟨_, h1, d1, d2, d3, (compileIr_agrees hc).2.1, h2⟩

/-! ### C76 -/

theorem variables_not_generated (main : String) : ¬ Generated main (main ++ "Variables") := by
  rintro (e | ⟨s, e⟩)
  · have := congrArg String.length e
    simp [String.length_append] at this
  · have := congrArg String.toList e
    rw [String.append_assoc, String.toList_append, String.toList_append] at this
    have := List.append_cancel_left this
    rw [String.toList_append] at this
    simp at this

theorem outside_of_schema {cfg : TsConfig} {fl : Flat} (h : FromSchema cfg doc fl) :
    Outside cfg doc fl.text := by
  cases fl with
  | builtin n => exact .inl h
  | global n => exact .inr (.inl h)
  | custom n => exact .inr (.inr h)
  | declared n => exact h.elim
  | literals n => exact h.elim

theorem readable_of_printable {cfg : TsConfig} {main : String} {Q : Flat → Prop} {ps : List Complex}
    (h : Printable cfg Q ps) (hQ : ∀ fl, Q fl → ¬ Generated main fl.text) : Readable cfg main ps := by
  intro qs hu T fields hm
  obtain ⟨h1, h2⟩ := h qs hu T fields hm
  refine ⟨h1.2, ?_⟩
  intro fld hf
  obtain ⟨h3, _, h4⟩ := h2 fld hf
  cases hty : fld.type with
  | complex sub => exact h3.2
  | enum n => rw [hty] at h4; exact ⟨(Spec.IsBinding.ref h4.1).typeName, hQ _ h4.2⟩
  | scalar s => rw [hty] at h4; exact ⟨Spec.IsTypeRef.typeName h4.1, hQ _ h4.2⟩
  | typeName => rw [hty] at h4; exact h4

theorem apart_of_compile {ω : Hash} {cfg : TsConfig} {op : Operation} {c : Compile}
    (hc : compileIr ω op cfg schema = .ok c) (hok : FileOk (tsFile ω cfg schema op))
    (hrefs : ∀ d ∈ (tsFile ω cfg schema op).decls,
      RefsOk (fun fl => ¬ Generated op.name fl.text ∧ fl.text ≠ op.name ++ "Variables") d) :
    Apart (tsFile ω cfg schema op) := by
  have hgen : ∀ d ∈ (tsFile ω cfg schema op).decls, Generated op.name d.name := fun d hd =>
    generated_of_extends (coll_extends cfg _ op.collection (Nat.le_refl _) op.name d hd)
  have hvars : ∀ x vs, (tsFile ω cfg schema op).vars = some (x, vs) → x = op.name ++ "Variables" := by
    intro x vs hx
    have hx : op.variables.map (fun vs => (op.name ++ "Variables",
      (sortedVars ω cfg schema vs).map (tsVar cfg schema))) = some (x, vs) := hx
    cases ho : op.variables with
    | none => rw [ho] at hx; simp at hx
    | some ws =>
      rw [ho] at hx
      simp only [Option.map_some, Option.some.injEq, Prod.mk.injEq] at hx
      exact hx.1.symm
  refine ⟨hok.decls, ?_, ?_, ?_⟩
  · intro d hd m props e p hp
    rcases hrefs d hd m props e p hp with h | h | ⟨h1, h2⟩
    · exact .inl h
    · exact .inr (.inl h)
    · refine .inr (.inr ?_)
      show p.flat.text ∉ _
      unfold TsFile.declared
      rw [List.mem_append]
      rintro (hm | hm)
      · obtain ⟨d', hd', e'⟩ := List.mem_map.1 hm
        rw [← e'] at h1
        exact h1 (hgen d' hd')
      · cases hx : (tsFile ω cfg schema op).vars with
        | none => rw [hx] at hm; simp at hm
        | some q =>
          obtain ⟨x, vs⟩ := q
          rw [hx] at hm
          simp only [List.mem_singleton] at hm
          exact h2 (hm.trans (hvars x vs hx))
  · intro n props hd p hp m hm
    obtain ⟨_, _, h3, _⟩ := compileIr_agrees hc
    refine h3.1 m ?_
    unfold refsIn
    rw [List.mem_flatMap]
    refine ⟨_, hd, ?_⟩
    simp only [List.mem_flatMap]
    exact ⟨p, hp, by rw [hm]; simp⟩
  · intro x vs hx hm
    rw [hvars x vs hx] at hm
    obtain ⟨d, hd, e⟩ := List.mem_map.1 hm
    have := hgen d hd
    rw [e] at this
    exact variables_not_generated op.name this

/-- **C76.** Whatever a server may answer to the definition belongs to the type that the text of the file,
read as a TypeScript module, exports under the name of the operation.

This is C22 with the text in place of the generator's own data; the hypotheses are those of C22 and C75, and
that no enum or scalar is called like the variables type. -/
theorem C76_responses_inhabit_text (ω : Hash) (fuel : Nat) (showDep : Bool) (cfg : TsConfig)
    (hv : ValidDoc doc) (hs : Schema.ofJson doc = .ok schema) (hbad : NoNonNullListInNullableList doc)
    (hw : Writable cfg doc)
    (hfr : FragsValid schema frags) (d : Definition) (op : Operation) (ws : List Warning) (P : String)
    (hns : isSubscription d = false) (hP : serverRoot d = some P)
    (h : Operation.compile ω fuel ⟨schema, showDep, frags⟩ d = some (.ok op, ws))
    (hone : OneTypePerKey schema frags P [itemsOf d]) (hsame : SameBodies op.collection)
    (applies : List Directive → Prop) (hu : Unconditional applies (itemsOf d))
    (huf : FragsApply applies frags)
    (hmain : IsBinding op.name)
    (hk : ∀ k ∈ fieldKeys (itemsOf d), IsGqlName k)
    (hkf : ∀ name fd, AMap.get? frags name = some fd → ∀ k ∈ fieldKeys fd.items, IsGqlName k)
    (hvs : VarsWritable schema (op.variables.getD []))
    (hout : ∀ n, Outside cfg doc n → ¬ Generated op.name n ∧ n ≠ op.name ++ "Variables")
    (scalars env : String → JVal → Prop) (he : EnvFor cfg doc scalars env)
    (c : Compile) (hc : compileIr ω op cfg schema = .ok c) :
    ∃ m, parseModule c.contents = some m ∧
      ∀ T ∈ objectTypes doc P, ∀ v, (∀ n, AnswersTo doc frags applies scalars n T [itemsOf d] v) →
        ∀ n, ModuleAdmits m env n (dataName d) v := by
  have hcon := loaded_consistent hv hs
  have hP' := root_of_server hns hP h
  obtain ⟨_, _, htx, _⟩ := compiled_tree hcon hP' h
  have ht := C10_generated_tree ω fuel showDep hcon hfr d op ws P hP' h
  obtain ⟨hp, hfile, hok, hrefs, hparse⟩ := module_of_compile
    (Q := fun fl => ¬ Generated op.name fl.text ∧ fl.text ≠ op.name ++ "Variables") hv hs hw hP' h hmain hk hkf
    hvs (fun fl hfl => hout _ (outside_of_schema hfl)) hc
  have hap := apart_of_compile hc hok hrefs
  have hread : Readable cfg op.name op.collection := readable_of_printable hp (fun _ h => h.1)
  have hno := namesOk_of_compile hc hmain.ref.typeName hread
  obtain ⟨d1, _, _⟩ := tsFile_doc (cfg := cfg) hcon h
  refine ⟨_, hparse, ?_⟩
  intro T hT v hans n
  rw [← d1]
  refine inhabits_module hap _ env n n (Nat.le_refl _) _ _ ?_
  have hd := C21_properties_listed_once ω fuel showDep hcon hfr d op ws P hP' h hone
  refine tree_inhabits hno env n _ _ (hfile.tree n) hread hsame v ?_
  refine answers_tree hv hs hbad huf he n P _ _ (ht n) hd ?_ T hT v (hans n)
  intro s hs
  rw [List.mem_singleton] at hs; subst hs
  exact hu

/-- **C76.** The converse: the type exported under the name of the operation admits nothing but the values of
the alternatives that C10 describes.  The additional hypotheses are those of C18 (plain names, so that no type
is declared twice) and of C23 (one `__typename` per selection set). -/
theorem C76_text_admits_exactly (ω : Hash) (fuel : Nat) (showDep : Bool) (cfg : TsConfig)
    (hv : ValidDoc doc) (hs : Schema.ofJson doc = .ok schema) (hw : Writable cfg doc)
    (hfr : FragsValid schema frags) (d : Definition) (op : Operation) (ws : List Warning) (P : String)
    (hP : rootType d = some P)
    (h : Operation.compile ω fuel ⟨schema, showDep, frags⟩ d = some (.ok op, ws))
    (hone : OneTypePerKey schema frags P [itemsOf d]) (hsame : SameBodies op.collection)
    (htn : OneTypename op.collection)
    (hT : ∀ P, ∀ T ∈ possibleTypes schema P, Plain T)
    (hpk : ∀ k ∈ compositeKeys (itemsOf d), Plain k)
    (hpkf : ∀ name fd, AMap.get? frags name = some fd → ∀ k ∈ compositeKeys fd.items, Plain k)
    (hmain : IsBinding op.name)
    (hk : ∀ k ∈ fieldKeys (itemsOf d), IsGqlName k)
    (hkf : ∀ name fd, AMap.get? frags name = some fd → ∀ k ∈ fieldKeys fd.items, IsGqlName k)
    (hvs : VarsWritable schema (op.variables.getD []))
    (hout : ∀ n, Outside cfg doc n → ¬ Generated op.name n ∧ n ≠ op.name ++ "Variables")
    (env : String → JVal → Prop) (c : Compile) (hc : compileIr ω op cfg schema = .ok c) :
    ∃ m, parseModule c.contents = some m ∧
      ∀ v, (∀ n, ModuleAdmits m env n (dataName d) v) ↔ ∀ n, TreeAdmits cfg env n op.collection v := by
  have hcon := loaded_consistent hv hs
  obtain ⟨_, _, htx, _⟩ := compiled_tree hcon hP h
  have hal := altsNodup_of_tree (fun n => ⟨_, _, htx n⟩)
  obtain ⟨hp, hfile, hok, hrefs, hparse⟩ := module_of_compile
    (Q := fun fl => ¬ Generated op.name fl.text ∧ fl.text ≠ op.name ++ "Variables") hv hs hw hP h hmain hk hkf
    hvs (fun fl hfl => hout _ (outside_of_schema hfl)) hc
  have hap := apart_of_compile hc hok hrefs
  have hread : Readable cfg op.name op.collection := readable_of_printable hp (fun _ h => h.1)
  have hno := namesOk_of_compile hc hmain.ref.typeName hread
  obtain ⟨d1, _, _⟩ := tsFile_doc (cfg := cfg) hcon h
  have hn : ((tsFile ω cfg schema op).decls.map TsDecl.name).Nodup := by
    refine coll_nodup cfg _ op.collection (Nat.le_refl _) ?_ ?_ hal op.name
    · refine plainNames_of_tree hpkf hT (fun n => ⟨_, _, htx n, ?_⟩)
      intro s hs
      rw [List.mem_singleton] at hs; subst hs
      exact hpk
    · exact propsNodup_of_distinct
        (C21_properties_listed_once ω fuel showDep hcon hfr d op ws P hP h hone)
  refine ⟨_, hparse, ?_⟩
  intro v
  rw [← d1]
  have hin : (tsFile ω cfg schema op).name ∈ (tsFile ω cfg schema op).decls.map TsDecl.name :=
    (compileIr_agrees hc).2.2.2
  constructor
  · intro hm n
    have := module_inhabits hap hn (coll_unions cfg _ op.collection (Nat.le_refl _) op.name)
      cfg.useReadonlyTypes env n _ hin v (hm _)
    exact inhabits_tree hno hn env n _ _ (hfile.tree n) hread hsame htn v this
  · intro ht n
    exact inhabits_module hap _ env n n (Nat.le_refl _) _ _
      (tree_inhabits hno env n _ _ (hfile.tree n) hread hsame v (ht n))

/-! ### C77 -/

theorem wrapMod_refs (m : Mod) (t : TsTy) : (wrapMod m t).refs = t.refs := by
  cases m <;> simp [wrapMod, TsTy.refs]

theorem wrapMods_refs (ms : List Mod) : ∀ t : TsTy, (wrapMods ms t).refs = t.refs := by
  induction ms with
  | nil => intro t; rfl
  | cons m ms ih => intro t; rw [wrapMods, ih, wrapMod_refs]

/-- What the types of variables refer to. -/
theorem varFlat_known (cfg : TsConfig) (hs : Schema.ofJson doc = .ok schema) (ty : VariableType) :
    (∃ n, varFlat cfg schema ty = .global n) ∨ FromSchema cfg doc (varFlat cfg schema ty) := by
  cases ty with
  | custom n =>
    unfold varFlat
    simp only
    split
    · rename_i m hd
      right
      have hkind : kindNamed doc n = some "SCALAR" := by
        have ht := loaded_type hs n
        unfold kindNamed
        cases hj : typeNamed doc n with
        | none => rw [hj] at ht; simp only at ht; rw [ht] at hd; simp at hd
        | some j =>
          rw [hj] at ht
          obtain ⟨t, ht, hdef⟩ := ht
          rw [ht] at hd
          simp only [Option.map_some, Option.some.injEq] at hd ⊢
          rw [hd] at hdef
          exact scalar_kind hdef
      unfold scalarFlat
      cases hb : cfg.bottomTypeConfig with
      | defaultBottomType => simp [FromSchema]
      | realName => exact ⟨_, hkind, by rw [hb]⟩
      | realNameWithPrefix p => exact ⟨_, hkind, by rw [hb]⟩
    · exact .inl ⟨n, rfl⟩
  | _ => right; simp [varFlat, FromSchema]

theorem stmts_typeNames (f : TsFile) (ro : Bool) :
    (f.stmts ro).flatMap TsStmt.typeNames = f.docNode :: (f.globals ++ f.declared) := by
  have hd : ∀ ds : List TsDecl, (ds.map (TsDecl.stmt ro)).flatMap TsStmt.typeNames = ds.map TsDecl.name := by
    intro ds
    induction ds with
    | nil => rfl
    | cons d ds ih =>
      rw [List.map_cons, List.flatMap_cons, ih]
      cases d <;> rfl
  unfold TsFile.stmts TsFile.declared
  simp only [List.flatMap_append, hd]
  cases hv : f.vars with
  | none => split <;> simp_all [TsStmt.typeNames]
  | some p => split <;> simp_all [TsStmt.typeNames]

theorem stmts_refs {f : TsFile} {ro : Bool} {r : String} (h : r ∈ (f.stmts ro).flatMap TsStmt.refs) :
    (∃ n props, TsDecl.object n props ∈ f.decls ∧ ∃ p ∈ props, r ∈ p.flat.ty.refs) ∨
    (∃ n alts, TsDecl.union n alts ∈ f.decls ∧ r ∈ alts) ∨
    (∃ n vs, f.vars = some (n, vs) ∧ ∃ v ∈ vs, r ∈ v.flat.ty.refs) ∨ r = f.docNode ∨ r ∈ f.args := by
  obtain ⟨st, hst, hr⟩ := List.mem_flatMap.1 h
  cases st with
  | importType ns md => simp [TsStmt.refs] at hr
  | enum n ms => exact absurd hst mem_stmts_enum
  | exportDefault n => simp [TsStmt.refs] at hr
  | declare n hd as =>
    unfold TsFile.stmts at hst
    simp only [List.mem_append, List.mem_map] at hst
    rcases hst with (((h | h) | ⟨d, _, h⟩) | h) | h
    · simp at h
    · split at h <;> simp at h
    · cases d <;> simp [TsDecl.stmt] at h
    · cases hv : f.vars with
      | none => rw [hv] at h; simp at h
      | some p => rw [hv] at h; simp at h
    · simp only [List.mem_cons, TsStmt.declare.injEq, reduceCtorEq, List.not_mem_nil, or_false] at h
      obtain ⟨_, rfl, rfl⟩ := h
      simp only [TsStmt.refs, List.mem_cons, List.mem_flatMap, List.mem_map] at hr
      rcases hr with rfl | ⟨t, ⟨a, ha, rfl⟩, hr⟩
      · exact .inr (.inr (.inr (.inl rfl)))
      · simp only [TsTy.refs, List.mem_singleton] at hr
        subst hr
        exact .inr (.inr (.inr (.inr ha)))
  | typeAlias n body =>
    rcases mem_stmts_alias.1 hst with ⟨d, hd, e⟩ | ⟨vs, hv, rfl⟩
    · cases d with
      | object m props =>
        simp only [TsDecl.stmt, TsStmt.typeAlias.injEq] at e
        obtain ⟨rfl, rfl⟩ := e
        simp only [TsStmt.refs, List.mem_flatMap, List.mem_map] at hr
        obtain ⟨_, ⟨p, hp, rfl⟩, hr⟩ := hr
        refine .inl ⟨_, _, hd, p, hp, ?_⟩
        simp only [TsProp.member, wrapMods_refs] at hr
        exact hr
      | union m alts =>
        simp only [TsDecl.stmt, TsStmt.typeAlias.injEq] at e
        obtain ⟨rfl, rfl⟩ := e
        refine .inr (.inl ⟨_, _, hd, ?_⟩)
        rcases refs_unionFrom _ _ r hr with ⟨_, h, _⟩ | ⟨t, ht, h⟩
        · simp at h
        · obtain ⟨a, ha, rfl⟩ := List.mem_map.1 ht
          simp only [TsTy.refs, List.mem_singleton] at h
          subst h; exact ha
    · simp only [TsStmt.refs, List.mem_flatMap, List.mem_map] at hr
      obtain ⟨_, ⟨p, hp, rfl⟩, hr⟩ := hr
      refine .inr (.inr (.inl ⟨_, _, hv, p, hp, ?_⟩))
      simp only [TsVar.member, wrapMod_refs] at hr
      exact hr

/-- **C77.** In the module that is read from a generated file, every type that is mentioned exists: it is
imported or declared by the same module, it is a type of TypeScript, or it is a custom scalar of the schema
under the configured name. -/
theorem C77_names_in_scope (ω : Hash) (fuel : Nat) (showDep : Bool) (cfg : TsConfig)
    (hv : ValidDoc doc) (hs : Schema.ofJson doc = .ok schema) (hw : Writable cfg doc)
    (d : Definition) (op : Operation) (ws : List Warning) (P : String) (hP : rootType d = some P)
    (h : Operation.compile ω fuel ⟨schema, showDep, frags⟩ d = some (.ok op, ws))
    (hmain : IsBinding op.name)
    (hk : ∀ k ∈ fieldKeys (itemsOf d), IsGqlName k)
    (hkf : ∀ name fd, AMap.get? frags name = some fd → ∀ k ∈ fieldKeys fd.items, IsGqlName k)
    (hvs : VarsWritable schema (op.variables.getD []))
    (c : Compile) (hc : compileIr ω op cfg schema = .ok c) :
    ∃ m, parseModule c.contents = some m ∧ ∀ r ∈ m.flatMap TsStmt.refs,
      r ∈ m.flatMap TsStmt.typeNames ∨ r ∈ ["string", "number", "boolean", "any", "never"] ∨
      FromSchema cfg doc (.custom r) := by
  obtain ⟨_, hfile, hok, hrefs, hparse⟩ := module_of_compile (Q := FromSchema cfg doc) hv hs hw hP h hmain hk
    hkf hvs (fun _ h => h) hc
  obtain ⟨_, _, hcl, hname⟩ := compileIr_agrees hc
  refine ⟨_, hparse, ?_⟩
  intro r hr
  rw [stmts_typeNames]
  have hdecl : ∀ n, n ∈ (tsFile ω cfg schema op).decls.map TsDecl.name →
      n ∈ (tsFile ω cfg schema op).docNode :: ((tsFile ω cfg schema op).globals ++
        (tsFile ω cfg schema op).declared) := fun n hn =>
    List.mem_cons_of_mem _ (List.mem_append_right _ (List.mem_append_left _ hn))
  have hfrom : ∀ fl : Flat, FromSchema cfg doc fl → (∀ n, fl ≠ .global n) → r ∈ fl.ty.refs →
      r ∈ ["string", "number", "boolean", "any", "never"] ∨ FromSchema cfg doc (.custom r) := by
    intro fl hfl hng hr
    cases fl with
    | builtin n =>
      simp only [Flat.ty, Flat.text, TsTy.refs, List.mem_singleton] at hr
      subst hr
      left
      have : r ∈ ["string", "number", "boolean", "any"] := hfl
      simp only [List.mem_cons, List.not_mem_nil, or_false] at this ⊢
      tauto
    | custom n =>
      simp only [Flat.ty, Flat.text, TsTy.refs, List.mem_singleton] at hr
      subst hr
      exact .inr hfl
    | global n => exact absurd rfl (hng n)
    | declared n => exact hfl.elim
    | literals n => exact hfl.elim
  rcases stmts_refs hr with ⟨n, props, hd, p, hp, hr⟩ | ⟨n, alts, hd, hr⟩ | ⟨n, vs, hvv, v, hvm, hr⟩ | rfl | hr
  · rcases hrefs _ hd n props rfl p hp with ⟨m, e⟩ | ⟨ls, e⟩ | hq
    · rw [e] at hr
      simp only [Flat.ty, Flat.text, TsTy.refs, List.mem_singleton] at hr
      subst hr
      refine .inl (hdecl _ (hcl.1 _ ?_))
      unfold refsIn
      rw [List.mem_flatMap]
      refine ⟨_, hd, ?_⟩
      simp only [List.mem_flatMap]
      exact ⟨p, hp, by rw [e]; simp⟩
    · rcases flat_refs p.flat with ⟨_, _, h0⟩ | h0
      · rw [h0] at hr; simp at hr
      · rw [e] at h0
        rcases flat_refs (.literals ls) with ⟨_, _, h1⟩ | h1
        · rw [h0] at h1; simp at h1
        · rw [e] at hr
          exfalso
          rcases refs_unionFrom _ _ r hr with ⟨_, h, _⟩ | ⟨t, ht, h⟩
          · simp at h
          · obtain ⟨a, ha, rfl⟩ := List.mem_map.1 ht
            simp [TsTy.refs] at h
    · cases hfl : p.flat with
      | global m =>
        rw [hfl] at hr
        simp only [Flat.ty, Flat.text, TsTy.refs, List.mem_singleton] at hr
        subst hr
        exact .inl (List.mem_cons_of_mem _ (List.mem_append_left _
          (mem_globals.2 (.inl (mem_enumsIn.2 ⟨n, props, hd, p, hp, hfl⟩)))))
      | _ => exact .inr (hfrom p.flat hq (by rw [hfl]; simp) hr)
  · refine .inl (hdecl _ (hcl.1 _ ?_))
    unfold refsIn
    rw [List.mem_flatMap]
    exact ⟨_, hd, hr⟩
  · have hvv : op.variables.map (fun vs => (op.name ++ "Variables",
      (sortedVars ω cfg schema vs).map (tsVar cfg schema))) = some (n, vs) := hvv
    cases ho : op.variables with
    | none => rw [ho] at hvv; simp at hvv
    | some us =>
      rw [ho] at hvv
      simp only [Option.map_some, Option.some.injEq, Prod.mk.injEq] at hvv
      obtain ⟨_, rfl⟩ := hvv
      have hvm' := hvm
      obtain ⟨u, hu, rfl⟩ := List.mem_map.1 hvm
      have hr : r ∈ (varFlat cfg schema u.type).ty.refs := hr
      rcases varFlat_known cfg hs u.type with ⟨m, e⟩ | e
      · rw [e] at hr
        simp only [Flat.ty, Flat.text, TsTy.refs, List.mem_singleton] at hr
        subst hr
        refine .inl (List.mem_cons_of_mem _ (List.mem_append_left _ (mem_globals.2 (.inr ?_))))
        rw [ho]
        exact (mem_varGlobals (ω := ω)).2 ⟨_, hvm', e⟩
      · cases hfl : varFlat cfg schema u.type with
        | global m =>
          rw [hfl] at hr
          simp only [Flat.ty, Flat.text, TsTy.refs, List.mem_singleton] at hr
          subst hr
          refine .inl (List.mem_cons_of_mem _ (List.mem_append_left _ (mem_globals.2 (.inr ?_))))
          rw [ho]
          exact (mem_varGlobals (ω := ω)).2 ⟨_, hvm', hfl⟩
        | _ => exact .inr (hfrom _ e (by rw [hfl]; simp) hr)
  · exact .inl (by simp)
  · rcases tsFile_args hc r hr with h | rfl
    · exact .inl (List.mem_cons_of_mem _ (List.mem_append_right _ h))
    · exact .inr (.inl (by simp))

/-- **C77.** No name is imported and declared, or declared twice, in the module that is read from a generated
file.  The provisos are those of C18, and that neither an enum or input type nor the imported document node
type is called like a type the file declares. -/
theorem C77_names_distinct (ω : Hash) (fuel : Nat) (showDep : Bool) (cfg : TsConfig)
    (hv : ValidDoc doc) (hs : Schema.ofJson doc = .ok schema) (hw : Writable cfg doc)
    (hfr : FragsValid schema frags) (d : Definition) (op : Operation) (ws : List Warning) (P : String)
    (hP : rootType d = some P)
    (h : Operation.compile ω fuel ⟨schema, showDep, frags⟩ d = some (.ok op, ws))
    (hone : OneTypePerKey schema frags P [itemsOf d])
    (hT : ∀ P, ∀ T ∈ possibleTypes schema P, Plain T)
    (hpk : ∀ k ∈ compositeKeys (itemsOf d), Plain k)
    (hpkf : ∀ name fd, AMap.get? frags name = some fd → ∀ k ∈ compositeKeys fd.items, Plain k)
    (hmain : IsBinding op.name)
    (hk : ∀ k ∈ fieldKeys (itemsOf d), IsGqlName k)
    (hkf : ∀ name fd, AMap.get? frags name = some fd → ∀ k ∈ fieldKeys fd.items, IsGqlName k)
    (hvs : VarsWritable schema (op.variables.getD []))
    (c : Compile) (hc : compileIr ω op cfg schema = .ok c)
    (hg : ∀ n ∈ c.globalTypesUsed, ¬ Generated op.name n ∧ n ≠ op.name ++ "Variables" ∧ n ≠ docNodeFor d)
    (hdn : ¬ Generated op.name (docNodeFor d) ∧ docNodeFor d ≠ op.name ++ "Variables") :
    ∃ m, parseModule c.contents = some m ∧ (m.flatMap TsStmt.typeNames).Nodup := by
  have hcon := loaded_consistent hv hs
  obtain ⟨_, hfile, hok, hrefs, hparse⟩ := module_of_compile (Q := FromSchema cfg doc) hv hs hw hP h hmain hk
    hkf hvs (fun _ h => h) hc
  obtain ⟨_, d2, _⟩ := tsFile_doc (cfg := cfg) hcon h
  obtain ⟨_, hperm, hcl, hname⟩ := compileIr_agrees hc
  refine ⟨_, hparse, ?_⟩
  rw [stmts_typeNames, d2]
  have hdecl : ∀ n ∈ (tsFile ω cfg schema op).declared, Generated op.name n ∨ n = op.name ++ "Variables" := by
    intro n hn
    unfold TsFile.declared at hn
    rcases List.mem_append.1 hn with hn | hn
    · obtain ⟨d, hd, rfl⟩ := List.mem_map.1 hn
      exact .inl (generated_of_extends (coll_extends cfg _ op.collection (Nat.le_refl _) op.name d hd))
    · right
      cases ho : op.variables with
      | none => simp [tsFile, ho] at hn
      | some vs => simpa [tsFile, ho] using hn
  have hglob : ∀ n ∈ (tsFile ω cfg schema op).globals,
      ¬ Generated op.name n ∧ n ≠ op.name ++ "Variables" ∧ n ≠ docNodeFor d :=
    fun n hn => hg n (hperm.mem_iff.2 hn)
  refine List.nodup_cons.2 ⟨?_, List.nodup_append.2 ⟨?_, tsFile_declared_nodup hcon hfr hP h hone hT hpk hpkf, ?_⟩⟩
  · intro hm
    rcases List.mem_append.1 hm with hm | hm
    · exact (hglob _ hm).2.2 rfl
    · rcases hdecl _ hm with e | e
      · exact hdn.1 e
      · exact hdn.2 e
  · have : (tsFile ω cfg schema op).globals.Pairwise (· < ·) :=
      sortStr_strict (nodup_foldl_setInsert _ _ (by simp))
    refine this.imp ?_
    rintro a b hab rfl
    exact String.lt_irrefl a hab
  · rintro a ha b hb rfl
    rcases hdecl _ hb with e | e
    · exact (hglob _ ha).1 e
    · exact (hglob _ ha).2.1 e

/-! ### A concrete case -/

theorem demo_writable : Writable Demo.tsCfg Demo.respJson := writableB_sound (by decide +kernel)

/-- The variables and globals of the demo query. -/
def moduleChecks : Bool :=
  match Operation.compile .inOrder 9 ⟨Demo.respSchema, true, Demo.ctx.fragments⟩ Demo.query with
  | some (.ok op, _) => varsWritableB (op.variables.getD []) && decide (op.variables ≠ none) &&
    match compileIr .inOrder op Demo.tsCfg Demo.respSchema with
    | .ok c => decide (c.globalTypesUsed = ["Role", "Filter"])
    | .error _ => false
  | _ => false

theorem module_checks : moduleChecks = true := by decide +kernel

/-- The demo query, with variables, enums, custom scalars, unions of types and an imported fragment: the
module that is read from the generated file, and what it admits. -/
theorem C75_demo : ∃ op ws c, Operation.compile .inOrder 9 ⟨Demo.respSchema, true, Demo.ctx.fragments⟩
      Demo.query = some (.ok op, ws) ∧ compileIr .inOrder op Demo.tsCfg Demo.respSchema = .ok c ∧
    ∃ m, parseModule c.contents = some m ∧
      (m.flatMap TsStmt.typeNames).Nodup ∧
      (∀ v, (∀ n, ModuleAdmits m (leastEnv Demo.tsCfg Demo.respJson stringScalars) n "Q" v) ↔
        ∀ n, TreeAdmits Demo.tsCfg (leastEnv Demo.tsCfg Demo.respJson stringScalars) n op.collection v) ∧
      ∀ n, ModuleAdmits m (leastEnv Demo.tsCfg Demo.respJson stringScalars) n "Q" respValue := by
  obtain ⟨op, ws, c, h, hc, hd, hsame, htn, _, _, _, _, hname⟩ := respChecks_sound resp_checks
  refine ⟨op, ws, c, h, hc, ?_⟩
  have hone := (C21_listed_once_iff .inOrder 9 true (loaded_consistent resp_valid resp_loads)
    resp_frags_valid Demo.query op ws "Query" rfl h).1 hd
  have hmain : IsBinding op.name := by rw [hname]; decide
  have hk : ∀ k ∈ fieldKeys (itemsOf Demo.query), IsGqlName k := by decide
  have hkf : ∀ name fd, AMap.get? Demo.ctx.fragments name = some fd → ∀ k ∈ fieldKeys fd.items, IsGqlName k := by
    intro name fd hg; obtain rfl := demo_frag hg; decide
  have hpk : ∀ k ∈ compositeKeys (itemsOf Demo.query), Plain k := by decide
  have hpkf : ∀ name fd, AMap.get? Demo.ctx.fragments name = some fd →
      ∀ k ∈ compositeKeys fd.items, Plain k := by
    intro name fd hg; obtain rfl := demo_frag hg; decide
  have hch := module_checks
  unfold moduleChecks at hch
  rw [h] at hch
  simp only [hc, Bool.and_eq_true, decide_eq_true_eq] at hch
  have hvs : VarsWritable Demo.respSchema (op.variables.getD []) := varsWritableB_sound hch.1.1
  have hout : ∀ n, Outside Demo.tsCfg Demo.respJson n → ¬ Generated op.name n ∧ n ≠ op.name ++ "Variables" := by
    intro n hn
    have := outsideB_sound (q := fun n => !generatedB "Q" n && decide (n ≠ "QVariables")) (cfg := Demo.tsCfg)
        (doc := Demo.respJson) (by decide +kernel) n hn
    rw [Bool.and_eq_true, decide_eq_true_eq, Bool.not_eq_true'] at this
    rw [hname]
    exact ⟨generatedB_sound this.1, this.2⟩
  have hT : ∀ P, ∀ T ∈ possibleTypes Demo.respSchema P, Plain T := by
    intro P T hT
    rw [loaded_possible resp_loads] at hT
    have := objectTypesB_sound (q := fun T => decide (Plain T)) (doc := Demo.respJson) (by decide +kernel) P T hT
    simpa using this
  obtain ⟨m, h1, h2⟩ := C76_responses_inhabit_text .inOrder 9 true Demo.tsCfg resp_valid resp_loads
    (noBadListB_sound (by decide +kernel)) demo_writable resp_frags_valid Demo.query op ws "Query" rfl rfl h hone
    hsame (fun d => d.isEmpty = true) (by unfold Unconditional; decide)
    (by intro name fd hg; obtain rfl := demo_frag hg; unfold Unconditional; decide)
    hmain hk hkf hvs hout stringScalars _ (leastEnv_for _ _ _) c hc
  obtain ⟨m', h1', h3⟩ := C76_text_admits_exactly .inOrder 9 true Demo.tsCfg resp_valid resp_loads
    demo_writable resp_frags_valid Demo.query op ws "Query" rfl h hone
    hsame htn hT hpk hpkf hmain hk hkf hvs hout (leastEnv Demo.tsCfg Demo.respJson stringScalars) c hc
  obtain ⟨m'', h1'', h4⟩ := C77_names_distinct .inOrder 9 true Demo.tsCfg resp_valid resp_loads
    demo_writable resp_frags_valid Demo.query op ws "Query" rfl h hone hT hpk hpkf hmain hk hkf hvs c hc
    (by
      rw [hch.2, hname]
      intro n hn
      simp only [List.mem_cons, List.not_mem_nil, or_false] at hn
      rcases hn with rfl | rfl <;> exact ⟨generatedB_sound (by decide), by decide, by decide⟩)
    (by
      rw [hname]
      refine ⟨?_, by decide⟩
      rintro (e | ⟨s, e⟩)
      · exact absurd e (by decide)
      · have e := congrArg (fun s => s.toList.take 2) e
        rw [String.toList_append, String.toList_append, List.append_assoc] at e
        simp [docNodeFor, Demo.query] at e)
  rw [h1] at h1' h1''
  injection h1' with e
  injection h1'' with e'
  subst e e'
  exact ⟨m, h1, h4, h3, h2 "Query" (by decide +kernel) _ resp_answers⟩

/-! ### Names that TypeScript does not allow -/

/-- `query <name> { viewer { role } }`. -/
def namedQuery (name : String) : Definition := .operation .query ⟨1, 1⟩ (some name) [] []
  [.field ⟨1, 9⟩ none "viewer" [] [] [Demo.leaf 1 18 "role"]]

theorem of_text {o : Option String} {q : String → Bool} (h : o.any q = true) : ∃ t, o = some t ∧ q t = true := by
  cases o with
  | none => simp at h
  | some t => exact ⟨t, rfl, h⟩

theorem not_a_module {name : String} (h : (Demo.textOf Demo.tsCfg Demo.respSchema [] (namedQuery name)).any
      (fun t => decide (parseModule t = none)) = true) :
    ∃ text, Demo.textOf Demo.tsCfg Demo.respSchema [] (namedQuery name) = some text ∧
      parseModule text = none := by
  obtain ⟨t, h1, h2⟩ := of_text h
  exact ⟨t, h1, of_decide_eq_true h2⟩

theorem named_delete : ∃ text, Demo.textOf Demo.tsCfg Demo.respSchema [] (namedQuery "delete") = some text ∧
    parseModule text = none := not_a_module (by decide +kernel)

theorem named_string : ∃ text, Demo.textOf Demo.tsCfg Demo.respSchema [] (namedQuery "string") = some text ∧
    parseModule text = none := not_a_module (by decide +kernel)

/-- **C75, why the name must be one that can be declared.** Nothing keeps an operation from being called like
a reserved word of TypeScript or like one of its types: it compiles without an error, and the generated file
is not a TypeScript module. -/
theorem C75_reserved_name_witness : ∀ name ∈ ["delete", "string"],
    ∃ text, Demo.textOf Demo.tsCfg Demo.respSchema [] (namedQuery name) = some text ∧
      parseModule text = none := by
  exact List.forall_mem_cons.2 ⟨named_delete, List.forall_mem_cons.2 ⟨named_string,
    fun _ h => absurd h List.not_mem_nil⟩⟩

/-- The module for `namedQuery`. -/
def namedModule (name : String) : List TsStmt := [
  .importType ["QueryDocumentNode"] "doc",
  .importType ["Role"] "globals",
  .typeAlias (name ++ "_viewer") (.object [⟨true, "role", false, .ref "Role"⟩]),
  .typeAlias name (.object [⟨true, "viewer", false, .ref (name ++ "_viewer")⟩]),
  .declare "graphqlDocument" "QueryDocumentNode" [.ref name, .ref "never"],
  .exportDefault "graphqlDocument"]

theorem named_module {name : String} (h : (Demo.textOf Demo.tsCfg Demo.respSchema [] (namedQuery name)).any
      (fun t => decide (parseModule t = some (namedModule name))) = true) :
    ∃ text, Demo.textOf Demo.tsCfg Demo.respSchema [] (namedQuery name) = some text ∧
      parseModule text = some (namedModule name) := by
  obtain ⟨t, h1, h2⟩ := of_text h
  exact ⟨t, h1, of_decide_eq_true h2⟩

/-- With another name it is. -/
example : ∃ text, Demo.textOf Demo.tsCfg Demo.respSchema [] (namedQuery "Viewer") = some text ∧
    parseModule text = some (namedModule "Viewer") := named_module (by decide +kernel)

/-- **C77, why the provisos about names are there.** An operation may be called like an enum it selects: then
the generated file imports and declares the same name. -/
theorem C77_name_clash_witness :
    ∃ text m, Demo.textOf Demo.tsCfg Demo.respSchema [] (namedQuery "Role") = some text ∧
      parseModule text = some m ∧ ¬ (m.flatMap TsStmt.typeNames).Nodup := by
  obtain ⟨t, h1, h2⟩ := named_module (name := "Role") (by decide +kernel)
  exact ⟨t, _, h1, h2, by decide⟩

end Qlc
