import Verif.Model.Library
import Verif.Spec.Library
import Verif.Props.Grammar
/-
C88: the document types of the npm package fit the generated files.  C100: what the helper types of the
package make of them.
-/
set_option autoImplicit false

namespace Qlc
open Spec

variable {doc : JSchema} {schema : Schema} {frags : Frags}

theorem objectsOf_join {m : List TsStmt} {acc : Option TsTy} {t : TsTy}
    (ha : ∀ u, acc = some u → ObjectsOf m u) (ht : ObjectsOf m t) : ObjectsOf m (joinUnion acc t) := by
  cases acc with
  | none => exact ht
  | some u => exact ⟨ha u rfl, ht⟩

theorem objectsOf_union {m : List TsStmt} : ∀ (l : List TsTy) (acc : Option TsTy),
    (acc.isSome = true ∨ l ≠ []) → (∀ u, acc = some u → ObjectsOf m u) → (∀ t ∈ l, ObjectsOf m t) →
    ObjectsOf m (unionFrom acc l)
  | [], none, h, _, _ => by simp at h
  | [], some u, _, ha, _ => ha u rfl
  | t :: ts, acc, _, ha, ht => by
    have e : unionFrom acc (t :: ts) = unionFrom (some (joinUnion acc t)) ts := by cases acc <;> rfl
    rw [e]
    exact objectsOf_union ts (some (joinUnion acc t)) (.inl rfl)
      (fun u hu => by cases hu; exact objectsOf_join ha (ht t List.mem_cons_self))
      (fun u hu => ht u (List.mem_cons_of_mem _ hu))

/-- **C88.** A generated file imports the type of its default export from the configured module, the
library exports a type of that name, the file gives it as many type arguments as it has parameters, and each
of them satisfies the parameter's constraint. -/
theorem C88_document_type_fits (ω : Hash) (fuel : Nat) (showDep : Bool) (cfg : TsConfig)
    (hv : ValidDoc doc) (hs : Schema.ofJson doc = .ok schema) (hw : Writable cfg doc)
    (d : Definition) (op : Operation) (ws : List Warning) (P : String) (hP : rootType d = some P)
    (h : Operation.compile ω fuel ⟨schema, showDep, frags⟩ d = some (.ok op, ws))
    (hmain : IsBinding op.name)
    (hk : ∀ k ∈ fieldKeys (itemsOf d), IsGqlName k)
    (hkf : ∀ name fd, AMap.get? frags name = some fd → ∀ k ∈ fieldKeys fd.items, IsGqlName k)
    (hvs : VarsWritable schema (op.variables.getD []))
    (c : Compile) (hc : compileIr ω op cfg schema = .ok c) :
    ∃ m node args, parseModule c.contents = some m ∧
      TsStmt.importType [node] cfg.typedGraphqlDocumentnodeModuleName ∈ m ∧
      TsStmt.declare "graphqlDocument" node args ∈ m ∧ TsStmt.exportDefault "graphqlDocument" ∈ m ∧
      (node, args.length) ∈ libraryTypes ∧ ∀ a ∈ args, IsRecord m a := by
  obtain ⟨_, hfile, hok, _, hparse⟩ := module_of_compile (Q := fun _ => True) hv hs hw hP h hmain hk hkf hvs
    (fun _ _ => trivial) hc
  obtain ⟨d1, d2, d3⟩ := tsFile_doc (cfg := cfg) (loaded_consistent hv hs) h
  generalize tsFile ω cfg schema op = f at *
  refine ⟨_, f.docNode, f.args.map TsTy.ref, hparse, ?_, ?_, ?_, ?_, ?_⟩
  · rw [← hfile.docModule]; simp [TsFile.stmts]
  · simp [TsFile.stmts]
  · simp [TsFile.stmts]
  · rw [List.length_map, d2, d3]
    cases d with
    | selectionSet => simp [rootType] at hP
    | operation kw => cases kw <;> simp [docNodeFor, docArgs, libraryTypes]
    | fragment => simp [docNodeFor, docArgs, libraryTypes]
  · have hdecl : ∀ x ∈ f.decls, x.stmt cfg.useReadonlyTypes ∈ f.stmts cfg.useReadonlyTypes := by
      intro x hx
      unfold TsFile.stmts
      simp only [List.mem_append, List.mem_map]
      exact .inl (.inl (.inr ⟨x, hx, rfl⟩))
    have hmainRec : IsRecord (f.stmts cfg.useReadonlyTypes) (.ref f.name) := by
      obtain ⟨alts, hres, _⟩ := hfile.tree 1
      rcases hres with ⟨props, hm, _⟩ | ⟨hu, hobj⟩
      · exact .inr (.inl ⟨_, hdecl _ hm⟩)
      · refine .inr (.inr ⟨f.name, _, rfl, hdecl _ hu, ?_⟩)
        have hne := hok.decls _ hu
        apply objectsOf_union
        · right
          intro e
          simp only [DeclOk] at hne
          simp_all
        · intro u hu; cases hu
        · intro t ht
          simp only [List.mem_map] at ht
          obtain ⟨n, ⟨o, ho, rfl⟩, rfl⟩ := ht
          obtain ⟨a, ha, rfl⟩ := ho
          exact ⟨_, hdecl _ (hobj _ (List.mem_map_of_mem ha))⟩
    intro a ha
    rw [d3] at ha
    rw [d1] at hmainRec
    have hvars : ∀ vars, (∃ kw pos name dirs items, d = .operation kw pos name vars dirs items) → vars ≠ [] →
        IsRecord (f.stmts cfg.useReadonlyTypes) (.ref (dataName d ++ "Variables")) := by
      rintro vars ⟨kw, pos, name, dirs, items, rfl⟩ hne
      obtain ⟨_, _, h3⟩ := finish_ok (compiled_finish (loaded_consistent hv hs) h)
      have hvn : op.variables = none ↔ vars = [] := variables_none_iff h3
      have hfv := hfile.vars
      cases ho : op.variables with
      | none => exact absurd (hvn.1 ho) hne
      | some vs =>
        rw [ho] at hfv
        obtain ⟨ps, hps, _⟩ := hfv
        refine .inr (.inl ⟨ps.map TsVar.member, ?_⟩)
        unfold TsFile.stmts
        simp [hps, d1]
    cases d with
    | selectionSet => simp [rootType] at hP
    | operation kw pos name vars dirs items =>
      simp only [docArgs, List.map_cons, List.map_nil, List.mem_cons, List.not_mem_nil, or_false] at ha
      rcases ha with rfl | rfl
      · exact hmainRec
      · split
        · exact .inl rfl
        · rename_i hne
          exact hvars vars ⟨_, _, _, _, _, rfl⟩ hne
    | fragment fd =>
      simp only [docArgs, List.map_cons, List.map_nil, List.mem_cons, List.not_mem_nil, or_false] at ha
      subst ha
      exact hmainRec

/-- The hypotheses hold of an example, and its module says what the theorem says. -/
theorem C88_demo : ∃ op ws c, Operation.compile .inOrder 9 ⟨Demo.respSchema, true, Demo.ctx.fragments⟩
      Demo.query = some (.ok op, ws) ∧ compileIr .inOrder op Demo.tsCfg Demo.respSchema = .ok c ∧
    ∃ m node args, parseModule c.contents = some m ∧
      TsStmt.importType [node] "doc" ∈ m ∧ TsStmt.declare "graphqlDocument" node args ∈ m ∧
      (node, args.length) ∈ libraryTypes ∧ ∀ a ∈ args, IsRecord m a := by
  obtain ⟨op, ws, c, h, hc, _, _, _, _, _, _, _, hname⟩ := respChecks_sound resp_checks
  have hmain : IsBinding op.name := by rw [hname]; decide
  have hk : ∀ k ∈ fieldKeys (itemsOf Demo.query), IsGqlName k := by decide
  have hkf : ∀ name fd, AMap.get? Demo.ctx.fragments name = some fd → ∀ k ∈ fieldKeys fd.items, IsGqlName k := by
    intro name fd hg; obtain rfl := demo_frag hg; decide
  have hch := module_checks
  unfold moduleChecks at hch
  rw [h] at hch
  simp only [hc, Bool.and_eq_true, decide_eq_true_eq] at hch
  have hvs : VarsWritable Demo.respSchema (op.variables.getD []) := varsWritableB_sound hch.1.1
  obtain ⟨m, node, args, h1, h2, h3, _, h5, h6⟩ := C88_document_type_fits .inOrder 9 true Demo.tsCfg resp_valid
    resp_loads demo_writable Demo.query op ws "Query" rfl h hmain hk hkf hvs c hc
  exact ⟨op, ws, c, h, hc, m, node, args, h1, h2, h3, h5, h6⟩

/-! ### C100 -/

theorem helpers_query {α : Type} [DecidableEq α] (data vars : α) :
    dataOf "QueryDocumentNode" [data, vars] = some (.is data) ∧
    variablesOf "QueryDocumentNode" [data, vars] = some (.is vars) := by
  simp [dataOf, variablesOf, docTy, evalHelper, dataOfBranches, variablesOfBranches, inferFrom, inferred,
    extendsPattern, AMap.get?]

theorem helpers_mutation {α : Type} [DecidableEq α] (data vars : α) :
    dataOf "MutationDocumentNode" [data, vars] = some .anyRecord ∧
    variablesOf "MutationDocumentNode" [data, vars] = some .anyRecord := by
  simp [dataOf, variablesOf, docTy, evalHelper, dataOfBranches, variablesOfBranches, inferFrom, inferred,
    extendsPattern, AMap.get?]

theorem helpers_subscription {α : Type} [DecidableEq α] (data vars : α) :
    dataOf "SubscriptionDocumentNode" [data, vars] = some .anyRecord ∧
    variablesOf "SubscriptionDocumentNode" [data, vars] = some .anyRecord := by
  simp [dataOf, variablesOf, docTy, evalHelper, dataOfBranches, variablesOfBranches, inferFrom, inferred,
    extendsPattern, AMap.get?]

theorem helpers_fragment {α : Type} [DecidableEq α] (data : α) :
    dataOf "FragmentDocumentNode" [data] = some .anyRecord ∧
    variablesOf "FragmentDocumentNode" [data] = some .anyRecord := by
  simp [dataOf, variablesOf, docTy, evalHelper, dataOfBranches, variablesOfBranches, inferFrom, inferred,
    extendsPattern, AMap.get?]

/-- **C100.** `DataOf` and `VariablesOf` of the document of a query (or of a subscription, which is given a
query's type): the data type and the variables type of the file, `never` if there are no variables. -/
theorem C100_helpers_on_queries (ω : Hash) (fuel : Nat) (showDep : Bool) (cfg : TsConfig)
    (hv : ValidDoc doc) (hs : Schema.ofJson doc = .ok schema) (hw : Writable cfg doc)
    (kw : OpKeyword) (hkw : kw ≠ .mutation) (pos : Pos) (name : Option String) (vars : List VarDef)
    (dirs : List Directive) (items : List Selection) (op : Operation) (ws : List Warning) (P : String)
    (hP : rootType (.operation kw pos name vars dirs items) = some P)
    (h : Operation.compile ω fuel ⟨schema, showDep, frags⟩ (.operation kw pos name vars dirs items)
      = some (.ok op, ws))
    (hmain : IsBinding op.name)
    (hk : ∀ k ∈ fieldKeys items, IsGqlName k)
    (hkf : ∀ name fd, AMap.get? frags name = some fd → ∀ k ∈ fieldKeys fd.items, IsGqlName k)
    (hvs : VarsWritable schema (op.variables.getD []))
    (c : Compile) (hc : compileIr ω op cfg schema = .ok c) :
    ∃ m node args, parseModule c.contents = some m ∧
      TsStmt.importType [node] cfg.typedGraphqlDocumentnodeModuleName ∈ m ∧
      TsStmt.declare "graphqlDocument" node args ∈ m ∧ TsStmt.exportDefault "graphqlDocument" ∈ m ∧
      dataOf node args = some (.is (.ref op.name)) ∧
      variablesOf node args = some (.is (.ref (if vars = [] then "never" else op.name ++ "Variables"))) := by
  obtain ⟨_, hfile, hok, _, hparse⟩ := module_of_compile (Q := fun _ => True) hv hs hw hP h hmain hk hkf hvs
    (fun _ _ => trivial) hc
  obtain ⟨d1, d2, d3⟩ := tsFile_doc (cfg := cfg) (loaded_consistent hv hs) h
  have hn : op.name = dataName (.operation kw pos name vars dirs items) :=
    name_of_compiled (loaded_consistent hv hs) h
  generalize tsFile ω cfg schema op = f at *
  refine ⟨_, f.docNode, f.args.map TsTy.ref, hparse, ?_, ?_, ?_, ?_⟩
  · rw [← hfile.docModule]; simp [TsFile.stmts]
  · simp [TsFile.stmts]
  · simp [TsFile.stmts]
  · rw [d2, d3, hn]
    cases kw with
    | mutation => exact absurd rfl hkw
    | query => exact helpers_query _ _
    | subscription => exact helpers_query _ _

/-- **C100.** Of the document of a mutation or a fragment the helpers know nothing: both give
`Record<string, unknown>`.  The marker by which the query type differs is optional, so every document fits
the first branch. -/
theorem C100_helpers_lose_other_documents (ω : Hash) (fuel : Nat) (showDep : Bool) (cfg : TsConfig)
    (hv : ValidDoc doc) (hs : Schema.ofJson doc = .ok schema) (hw : Writable cfg doc)
    (d : Definition) (op : Operation) (ws : List Warning) (P : String) (hP : rootType d = some P)
    (hd : (∃ pos name vars dirs items, d = .operation .mutation pos name vars dirs items) ∨
      ∃ fd, d = .fragment fd)
    (h : Operation.compile ω fuel ⟨schema, showDep, frags⟩ d = some (.ok op, ws))
    (hmain : IsBinding op.name)
    (hk : ∀ k ∈ fieldKeys (itemsOf d), IsGqlName k)
    (hkf : ∀ name fd, AMap.get? frags name = some fd → ∀ k ∈ fieldKeys fd.items, IsGqlName k)
    (hvs : VarsWritable schema (op.variables.getD []))
    (c : Compile) (hc : compileIr ω op cfg schema = .ok c) :
    ∃ m node args, parseModule c.contents = some m ∧
      TsStmt.importType [node] cfg.typedGraphqlDocumentnodeModuleName ∈ m ∧
      TsStmt.declare "graphqlDocument" node args ∈ m ∧ TsStmt.exportDefault "graphqlDocument" ∈ m ∧
      dataOf node args = some .anyRecord ∧ variablesOf node args = some .anyRecord := by
  obtain ⟨_, hfile, hok, _, hparse⟩ := module_of_compile (Q := fun _ => True) hv hs hw hP h hmain hk hkf hvs
    (fun _ _ => trivial) hc
  obtain ⟨d1, d2, d3⟩ := tsFile_doc (cfg := cfg) (loaded_consistent hv hs) h
  generalize tsFile ω cfg schema op = f at *
  refine ⟨_, f.docNode, f.args.map TsTy.ref, hparse, ?_, ?_, ?_, ?_⟩
  · rw [← hfile.docModule]; simp [TsFile.stmts]
  · simp [TsFile.stmts]
  · simp [TsFile.stmts]
  · rw [d2, d3]
    rcases hd with ⟨pos, name, vars, dirs, items, rfl⟩ | ⟨fd, rfl⟩
    · exact helpers_mutation _ _
    · exact helpers_fragment _

/-- The same of the library's types alone: the helpers recover the type arguments of a query document and of
no other document. -/
theorem C100_only_queries (data vars : String) :
    dataOf "QueryDocumentNode" [data, vars] = some (.is data) ∧
    variablesOf "QueryDocumentNode" [data, vars] = some (.is vars) ∧
    (∀ node args, node ≠ "QueryDocumentNode" → docTy node args ≠ none →
      dataOf node args = some (Extracted.anyRecord (α := String)) ∧
      variablesOf node args = some (Extracted.anyRecord (α := String))) := by
  refine ⟨(helpers_query data vars).1, (helpers_query data vars).2, ?_⟩
  intro node args hn hd
  unfold docTy at hd
  rw [if_neg hn] at hd
  split at hd
  · rename_i e; subst e
    split at hd
    · exact helpers_subscription _ _
    · simp at hd
  · split at hd
    · rename_i e; subst e
      split at hd
      · exact helpers_mutation _ _
      · simp at hd
    · split at hd
      · rename_i e; subst e
        split at hd
        · exact helpers_fragment _
        · simp at hd
      · simp at hd

/-- The hypotheses hold of the demo query, which has variables. -/
theorem C100_demo : ∃ op ws c, Operation.compile .inOrder 9 ⟨Demo.respSchema, true, Demo.ctx.fragments⟩
      Demo.query = some (.ok op, ws) ∧ compileIr .inOrder op Demo.tsCfg Demo.respSchema = .ok c ∧
    ∃ m node args, parseModule c.contents = some m ∧ TsStmt.declare "graphqlDocument" node args ∈ m ∧
      dataOf node args = some (.is (.ref "Q")) ∧ variablesOf node args = some (.is (.ref "QVariables")) := by
  obtain ⟨op, ws, c, h, hc, _, _, _, _, _, _, _, hname⟩ := respChecks_sound resp_checks
  have hmain : IsBinding op.name := by rw [hname]; decide
  have hk : ∀ k ∈ fieldKeys (itemsOf Demo.query), IsGqlName k := by decide
  have hkf : ∀ name fd, AMap.get? Demo.ctx.fragments name = some fd → ∀ k ∈ fieldKeys fd.items, IsGqlName k := by
    intro name fd hg; obtain rfl := demo_frag hg; decide
  have hch := module_checks
  unfold moduleChecks at hch
  rw [h] at hch
  simp only [hc, Bool.and_eq_true, decide_eq_true_eq] at hch
  have hvs : VarsWritable Demo.respSchema (op.variables.getD []) := varsWritableB_sound hch.1.1
  obtain ⟨m, node, args, h1, _, h3, _, h5, h6⟩ := C100_helpers_on_queries .inOrder 9 true Demo.tsCfg resp_valid
    resp_loads demo_writable .query (by decide) _ _ _ _ _ op ws "Query" rfl h hmain hk hkf hvs c hc
  rw [hname] at h5 h6
  exact ⟨op, ws, c, h, hc, m, node, args, h1, h3, h5, h6⟩

/-- Whether a definition compiles, and to a type of this name without variables. -/
def fragmentChecks (d : Definition) (n : String) : Bool :=
  match Operation.compile .inOrder 9 ⟨Demo.respSchema, true, Demo.ctx.fragments⟩ d with
  | some (.ok op, _) => decide (op.name = n) && decide (op.variables = none) &&
    isOkB (compileIr .inOrder op Demo.tsCfg Demo.respSchema)
  | _ => false

theorem fragmentChecks_sound {d : Definition} {n : String} (h : fragmentChecks d n = true) :
    ∃ op ws c, Operation.compile .inOrder 9 ⟨Demo.respSchema, true, Demo.ctx.fragments⟩ d = some (.ok op, ws) ∧
      compileIr .inOrder op Demo.tsCfg Demo.respSchema = .ok c ∧ op.name = n ∧ op.variables = none := by
  unfold fragmentChecks at h
  split at h
  · rename_i op ws e
    simp only [Bool.and_eq_true, decide_eq_true_eq] at h
    cases hc : compileIr .inOrder op Demo.tsCfg Demo.respSchema with
    | error e => rw [hc] at h; simp [isOkB] at h
    | ok c => exact ⟨op, ws, c, e, hc, h.1.1, h.1.2⟩
  · simp at h

/-- The hypotheses hold of the demo fragment: the file says `F`, and `DataOf` does not. -/
theorem C100_lost_demo : ∃ op ws c, Operation.compile .inOrder 9
      ⟨Demo.respSchema, true, Demo.ctx.fragments⟩ (.fragment Demo.fragF) = some (.ok op, ws) ∧
    compileIr .inOrder op Demo.tsCfg Demo.respSchema = .ok c ∧ op.name = "F" ∧
    ∃ m node args, parseModule c.contents = some m ∧ TsStmt.declare "graphqlDocument" node args ∈ m ∧
      dataOf node args = some .anyRecord := by
  obtain ⟨op, ws, c, h, hc, hname, hvars⟩ := fragmentChecks_sound
    (show fragmentChecks (.fragment Demo.fragF) "F" = true by decide +kernel)
  have hmain : IsBinding op.name := by rw [hname]; decide
  have hk : ∀ k ∈ fieldKeys (itemsOf (.fragment Demo.fragF)), IsGqlName k := by decide
  have hkf : ∀ name fd, AMap.get? Demo.ctx.fragments name = some fd → ∀ k ∈ fieldKeys fd.items, IsGqlName k := by
    intro name fd hg; obtain rfl := demo_frag hg; decide
  have hvs : VarsWritable Demo.respSchema (op.variables.getD []) := by
    rw [hvars]; exact varsWritableB_sound rfl
  obtain ⟨m, node, args, h1, _, h3, _, h5, _⟩ := C100_helpers_lose_other_documents .inOrder 9 true Demo.tsCfg
    resp_valid resp_loads demo_writable _ op ws _ rfl (.inr ⟨_, rfl⟩) h hmain hk hkf hvs c hc
  exact ⟨op, ws, c, h, hc, hname, m, node, args, h1, h3, h5⟩

end Qlc
