import Verif.Props.Library
/-
C107: where TypeScript accepts one document in place of another.
-/
set_option autoImplicit false

namespace Qlc
open Spec

variable {doc : JSchema} {schema : Schema} {frags : Frags}

theorem operation_assignable {α : Type} (sub : α → α → Prop) {node : String} (hn : OperationNode node)
    (D V D' V' : α) : ∃ t u, docTy node [D, V] = some t ∧ docTy node [D', V'] = some u ∧
      (DocAssignable sub t u ↔ sub V' V ∧ sub D D') := by
  cases hn <;> exact ⟨_, _, rfl, rfl, by simp [DocAssignable]⟩

/-- **C107.** A document of an operation is accepted where one of the same kind is expected exactly if the data it yields
is expected there and the variables that are given there are variables it takes. -/
theorem C107_operation_documents {α : Type} (sub : α → α → Prop) {node : String} (hn : OperationNode node)
    (D V D' V' : α) (t u : DocTy α) (ht : docTy node [D, V] = some t) (hu : docTy node [D', V'] = some u) :
    DocAssignable sub t u ↔ sub V' V ∧ sub D D' := by
  obtain ⟨t', u', h1, h2, h⟩ := operation_assignable sub hn D V D' V'
  cases h1.symm.trans ht
  cases h2.symm.trans hu
  exact h

/-- C107 for fragments: a document of a fragment is accepted where one is expected exactly if its data is. -/
theorem C107_fragment_documents {α : Type} (sub : α → α → Prop) (D D' : α) (t u : DocTy α)
    (ht : docTy "FragmentDocumentNode" [D] = some t) (hu : docTy "FragmentDocumentNode" [D'] = some u) :
    DocAssignable sub t u ↔ sub D D' := by
  cases ht
  cases hu
  simp [DocAssignable]

/-- **C107: this is right.** Take a place where some variables are given and not every data is expected.  A document is
accepted there exactly if every document with these types, however it is answered, keeps the promise that the place
relies on. -/
theorem C107_accepted_iff_safe {β : Type} {node : String} (hn : OperationNode node) (D V D' V' : β → Prop)
    (hV : ∃ v, V' v) (hD : ∃ a, ¬ D' a) (t u : DocTy (β → Prop)) (ht : docTy node [D, V] = some t)
    (hu : docTy node [D', V'] = some u) :
    DocAssignable Within t u ↔ ∀ answers, Serves answers V D → Serves answers V' D' := by
  rw [C107_operation_documents Within hn D V D' V' t u ht hu]
  constructor
  · rintro ⟨h1, h2⟩ answers h v a hv ha
    exact h2 a (h v a (h1 v hv) ha)
  · intro h
    obtain ⟨v₀, hv₀⟩ := hV
    obtain ⟨a₀, ha₀⟩ := hD
    refine ⟨fun v hv => ?_, fun a ha => ?_⟩
    · refine Classical.byContradiction fun hn => ha₀ ?_
      refine h (fun v' _ => v' = v) (fun v' a' h1 h2 => ?_) v a₀ hv rfl
      subst h2
      exact absurd h1 hn
    · exact h (fun _ a' => a' = a) (fun v' a' _ h2 => h2 ▸ ha) v₀ a hv₀ rfl

/-- The type `number`. -/
def Demo.numbers (a : JVal) : Prop := ∃ n, a = .num n

/-- The type `number | string`. -/
def Demo.numbersOrTexts (a : JVal) : Prop := Demo.numbers a ∨ ∃ s, a = .str s

/-- A document that takes a number or a text and yields a number is accepted where a number is given and a number or a
text is expected, and so it serves there. -/
example : ∃ t u, docTy "QueryDocumentNode" [Demo.numbers, Demo.numbersOrTexts] = some t ∧
    docTy "QueryDocumentNode" [Demo.numbersOrTexts, Demo.numbers] = some u ∧ DocAssignable Within t u ∧
    ∀ answers, Serves answers Demo.numbersOrTexts Demo.numbers → Serves answers Demo.numbers Demo.numbersOrTexts := by
  obtain ⟨t, u, h1, h2, h⟩ := operation_assignable Within .query Demo.numbers Demo.numbersOrTexts Demo.numbersOrTexts
    Demo.numbers
  have h := h.2 ⟨fun _ h => .inl h, fun _ h => .inl h⟩
  exact ⟨t, u, h1, h2, h, (C107_accepted_iff_safe .query _ _ _ _ ⟨.num "1", "1", rfl⟩
    ⟨.null, by simp [Demo.numbersOrTexts, Demo.numbers]⟩ _ _ h1 h2).1 h⟩

/-- C107, the half that needs no proviso: what is accepted is safe. -/
theorem C107_accepted_is_safe {β : Type} {node : String} (hn : OperationNode node) (D V D' V' : β → Prop)
    (t u : DocTy (β → Prop)) (ht : docTy node [D, V] = some t) (hu : docTy node [D', V'] = some u)
    (h : DocAssignable Within t u) (answers : β → β → Prop) (hs : Serves answers V D) : Serves answers V' D' := by
  obtain ⟨h1, h2⟩ := (C107_operation_documents Within hn D V D' V' t u ht hu).1 h
  exact fun v a hv ha => h2 a (hs v a (h1 v hv) ha)

/-- **C107: kinds are not told apart.** A document is accepted wherever a document of another kind is expected, whatever
the types of its variables and data: the property by which the kinds differ is optional. -/
theorem C107_kinds_confused {α : Type} (sub : α → α → Prop) {node node' : String} (hne : node ≠ node')
    (args args' : List α) (t u : DocTy α) (ht : docTy node args = some t) (hu : docTy node' args' = some u) :
    DocAssignable sub t u := by
  intro hm
  exfalso
  unfold docTy at ht hu
  split at ht
  · split at hu
    · simp_all
    · repeat' split at ht
      all_goals repeat' split at hu
      all_goals simp_all <;> (subst ht; subst hu; simp at hm)
  · repeat' split at ht
    all_goals repeat' split at hu
    all_goals simp_all <;> (subst ht; subst hu; simp at hm)

/-- So the promise can be broken: a mutation that yields a text is accepted where a query that yields a number is
expected. -/
theorem C107_kinds_confused_witness : ∃ (t u : DocTy (JVal → Prop)) (answers : JVal → JVal → Prop),
    docTy "MutationDocumentNode" [Demo.numbersOrTexts, Demo.numbers] = some t ∧
    docTy "QueryDocumentNode" [Demo.numbers, Demo.numbers] = some u ∧ DocAssignable Within t u ∧
    Serves answers Demo.numbers Demo.numbersOrTexts ∧ ¬ Serves answers Demo.numbers Demo.numbers := by
  refine ⟨_, _, fun _ a => a = .str "a", rfl, rfl, C107_kinds_confused Within (node := "MutationDocumentNode")
    (node' := "QueryDocumentNode") (by decide) [_, _] [_, _] _ _ rfl rfl, fun _ _ _ h => .inr ⟨_, h⟩, fun h => ?_⟩
  obtain ⟨n, hn⟩ := h (.num "1") _ ⟨_, rfl⟩ rfl
  cases hn

/-- **C107 for a generated file.** The document that the file of an operation exports is accepted, for a query or a
subscription where a query document is expected, for a mutation where a mutation document is expected, exactly if the
file's data type is, and the expected variables are of the file's type of variables, which is `never` if the operation has
none. -/
theorem C107_exported_operation (ω : Hash) (fuel : Nat) (showDep : Bool) (cfg : TsConfig)
    (hv : ValidDoc doc) (hs : Schema.ofJson doc = .ok schema) (hw : Writable cfg doc)
    (kw : OpKeyword) (pos : Pos) (name : Option String) (vars : List VarDef)
    (dirs : List Directive) (items : List Selection) (op : Operation) (ws : List Warning) (P : String)
    (hP : rootType (.operation kw pos name vars dirs items) = some P)
    (h : Operation.compile ω fuel ⟨schema, showDep, frags⟩ (.operation kw pos name vars dirs items)
      = some (.ok op, ws))
    (hmain : IsBinding op.name)
    (hk : ∀ k ∈ fieldKeys items, IsGqlName k)
    (hkf : ∀ name fd, AMap.get? frags name = some fd → ∀ k ∈ fieldKeys fd.items, IsGqlName k)
    (hvs : VarsWritable schema (op.variables.getD []))
    (c : Compile) (hc : compileIr ω op cfg schema = .ok c) :
    ∃ m node args t, parseModule c.contents = some m ∧
      TsStmt.importType [node] cfg.typedGraphqlDocumentnodeModuleName ∈ m ∧
      TsStmt.declare "graphqlDocument" node args ∈ m ∧ TsStmt.exportDefault "graphqlDocument" ∈ m ∧
      docTy node args = some t ∧ ∀ (sub : TsTy → TsTy → Prop) (D V : TsTy) (u : DocTy TsTy),
        docTy (if kw = .mutation then "MutationDocumentNode" else "QueryDocumentNode") [D, V] = some u →
        (DocAssignable sub t u ↔
          sub V (.ref (if vars = [] then "never" else op.name ++ "Variables")) ∧ sub (.ref op.name) D) := by
  obtain ⟨_, hfile, hok, _, hparse⟩ := module_of_compile (Q := fun _ => True) hv hs hw hP h hmain hk hkf hvs
    (fun _ _ => trivial) hc
  obtain ⟨d1, d2, d3⟩ := tsFile_doc (cfg := cfg) (loaded_consistent hv hs) h
  have hn : op.name = dataName (.operation kw pos name vars dirs items) :=
    name_of_compiled (loaded_consistent hv hs) h
  generalize tsFile ω cfg schema op = f at *
  have key : ∃ t, docTy f.docNode (f.args.map TsTy.ref) = some t ∧ ∀ (sub : TsTy → TsTy → Prop) (D V : TsTy)
      (u : DocTy TsTy),
        docTy (if kw = .mutation then "MutationDocumentNode" else "QueryDocumentNode") [D, V] = some u →
        (DocAssignable sub t u ↔
          sub V (.ref (if vars = [] then "never" else op.name ++ "Variables")) ∧ sub (.ref op.name) D) := by
    rw [d2, d3, hn]
    cases kw with
    | mutation =>
      exact ⟨_, rfl, fun sub D V u hu => C107_operation_documents sub .mutation _ _ _ _ _ _ rfl hu⟩
    | query => exact ⟨_, rfl, fun sub D V u hu => C107_operation_documents sub .query _ _ _ _ _ _ rfl hu⟩
    | subscription => exact ⟨_, rfl, fun sub D V u hu => C107_operation_documents sub .query _ _ _ _ _ _ rfl hu⟩
  obtain ⟨t, h1, h2⟩ := key
  refine ⟨_, f.docNode, f.args.map TsTy.ref, t, hparse, ?_, ?_, ?_, h1, h2⟩
  · rw [← hfile.docModule]; simp [TsFile.stmts]
  · simp [TsFile.stmts]
  · simp [TsFile.stmts]

/-- **C107 for a generated file, fragments.** The document that the file of a fragment exports is accepted where a
fragment document is expected exactly if the file's data type is. -/
theorem C107_exported_fragment (ω : Hash) (fuel : Nat) (showDep : Bool) (cfg : TsConfig)
    (hv : ValidDoc doc) (hs : Schema.ofJson doc = .ok schema) (hw : Writable cfg doc) (f : FragmentDef)
    (op : Operation) (ws : List Warning)
    (h : Operation.compile ω fuel ⟨schema, showDep, frags⟩ (.fragment f) = some (.ok op, ws))
    (hmain : IsBinding f.name) (hk : ∀ k ∈ fieldKeys f.items, IsGqlName k)
    (hkf : ∀ name fd, AMap.get? frags name = some fd → ∀ k ∈ fieldKeys fd.items, IsGqlName k)
    (c : Compile) (hc : compileIr ω op cfg schema = .ok c) :
    ∃ m node args t, parseModule c.contents = some m ∧
      TsStmt.importType [node] cfg.typedGraphqlDocumentnodeModuleName ∈ m ∧
      TsStmt.declare "graphqlDocument" node args ∈ m ∧ TsStmt.exportDefault "graphqlDocument" ∈ m ∧
      docTy node args = some t ∧ ∀ (sub : TsTy → TsTy → Prop) (D : TsTy) (u : DocTy TsTy),
        docTy "FragmentDocumentNode" [D] = some u → (DocAssignable sub t u ↔ sub (.ref f.name) D) := by
  have hcon := loaded_consistent hv hs
  have hn : op.name = f.name := name_of_compiled hcon h
  have hvar : op.variables = none := (variables_none_iff (finish_ok (compiled_finish hcon h)).2.2).2 rfl
  have hvs : VarsWritable schema (op.variables.getD []) := by
    rw [hvar]; intro v hm; simp at hm
  obtain ⟨_, hfile, hok, _, hparse⟩ := module_of_compile (Q := fun _ => True) hv hs hw rfl h (hn ▸ hmain) hk hkf hvs
    (fun _ _ => trivial) hc
  obtain ⟨d1, d2, d3⟩ := tsFile_doc (cfg := cfg) hcon h
  generalize tsFile ω cfg schema op = g at *
  have key : ∃ t, docTy g.docNode (g.args.map TsTy.ref) = some t ∧ ∀ (sub : TsTy → TsTy → Prop) (D : TsTy)
      (u : DocTy TsTy), docTy "FragmentDocumentNode" [D] = some u →
        (DocAssignable sub t u ↔ sub (.ref f.name) D) := by
    rw [d2, d3]
    exact ⟨_, rfl, fun sub D u hu => C107_fragment_documents sub _ _ _ _ rfl hu⟩
  obtain ⟨t, h1, h2⟩ := key
  refine ⟨_, g.docNode, g.args.map TsTy.ref, t, hparse, ?_, ?_, ?_, h1, h2⟩
  · rw [← hfile.docModule]; simp [TsFile.stmts]
  · simp [TsFile.stmts]
  · simp [TsFile.stmts]

/-- The hypotheses hold of the demo query: its document is accepted where one is expected that takes its variables, and
not where one is expected that takes a text. -/
theorem C107_demo : ∃ op ws c, Operation.compile .inOrder 9 ⟨Demo.respSchema, true, Demo.ctx.fragments⟩
      Demo.query = some (.ok op, ws) ∧ compileIr .inOrder op Demo.tsCfg Demo.respSchema = .ok c ∧
    ∃ m node args t u u', parseModule c.contents = some m ∧ TsStmt.declare "graphqlDocument" node args ∈ m ∧
      docTy node args = some t ∧
      docTy "QueryDocumentNode" [.ref "Q", .ref "QVariables"] = some u ∧ DocAssignable (· = ·) t u ∧
      docTy "QueryDocumentNode" [.ref "Q", .ref "string"] = some u' ∧ ¬ DocAssignable (· = ·) t u' := by
  obtain ⟨op, ws, c, h, hc, _, _, _, _, _, _, _, hname⟩ := respChecks_sound resp_checks
  have hmain : IsBinding op.name := by rw [hname]; decide
  have hk : ∀ k ∈ fieldKeys (itemsOf Demo.query), IsGqlName k := by decide
  have hkf : ∀ name fd, AMap.get? Demo.ctx.fragments name = some fd → ∀ k ∈ fieldKeys fd.items, IsGqlName k := by
    intro name fd hg; obtain rfl := demo_frag hg; decide
  have hch := module_checks
  unfold moduleChecks at hch
  rw [h] at hch
  simp only [hc, Bool.and_eq_true, decide_eq_true_eq] at hch
  have hvs : VarsWritable Demo.respSchema (op.variables.getD []) := varsWritableB_sound hch.1.1
  obtain ⟨m, node, args, t, h1, _, h3, _, h5, h6⟩ := C107_exported_operation .inOrder 9 true Demo.tsCfg resp_valid
    resp_loads demo_writable .query _ _ _ _ _ op ws "Query" rfl h hmain hk hkf hvs c hc
  rw [hname] at h6
  refine ⟨op, ws, c, h, hc, m, node, args, t, _, _, h1, h3, h5, rfl, ?_, rfl, ?_⟩
  · exact (h6 (· = ·) _ _ _ rfl).2 ⟨rfl, rfl⟩
  · intro h'
    have := ((h6 (· = ·) (.ref "Q") (.ref "string") _ rfl).1 h').1
    revert this
    decide

/-- The hypotheses hold of the demo fragment: its document is accepted where a document of its data is expected, and not
where other data is. -/
theorem C107_fragment_demo : ∃ op ws c, Operation.compile .inOrder 9 ⟨Demo.respSchema, true, []⟩
      (.fragment Demo.fragF) = some (.ok op, ws) ∧ compileIr .inOrder op Demo.tsCfg Demo.respSchema = .ok c ∧
    ∃ m node args t u u', parseModule c.contents = some m ∧ TsStmt.declare "graphqlDocument" node args ∈ m ∧
      docTy node args = some t ∧
      docTy "FragmentDocumentNode" [.ref "F"] = some u ∧ DocAssignable (· = ·) t u ∧
      docTy "FragmentDocumentNode" [.ref "string"] = some u' ∧ ¬ DocAssignable (· = ·) t u' := by
  have hch : (match Operation.compile .inOrder 9 ⟨Demo.respSchema, true, []⟩ (.fragment Demo.fragF) with
      | some (.ok op, _) => (compileIr .inOrder op Demo.tsCfg Demo.respSchema).toOption.isSome
      | _ => false) = true := by decide +kernel
  cases h : Operation.compile .inOrder 9 ⟨Demo.respSchema, true, []⟩ (.fragment Demo.fragF) with
  | none => rw [h] at hch; cases hch
  | some x =>
    obtain ⟨r, ws⟩ := x
    cases r with
    | error e => rw [h] at hch; cases hch
    | ok op =>
      rw [h] at hch
      simp only at hch
      cases hc : compileIr .inOrder op Demo.tsCfg Demo.respSchema with
      | error e => rw [hc] at hch; cases hch
      | ok c =>
        have hk : ∀ k ∈ fieldKeys Demo.fragF.items, IsGqlName k := by decide
        obtain ⟨m, node, args, t, h1, _, h3, _, h5, h6⟩ := C107_exported_fragment .inOrder 9 true Demo.tsCfg
          resp_valid resp_loads demo_writable Demo.fragF op ws h (by decide) hk
          (by intro name fd hg; simp [AMap.get?] at hg) c hc
        refine ⟨op, ws, c, rfl, hc, m, node, args, t, _, _, h1, h3, h5, rfl, ?_, rfl, ?_⟩
        · exact (h6 (· = ·) (.ref "F") _ rfl).2 rfl
        · intro h'
          have := (h6 (· = ·) (.ref "string") _ rfl).1 h'
          revert this
          decide

end Qlc
