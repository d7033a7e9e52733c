import Mathlib.Data.List.Perm.Basic
import Verif.Spec.VariableOrder
import Verif.Props.Same
import Verif.Props.Globals
import Verif.Props.Files
/-
C146: the order in which an operation declares its variables does not matter.
-/
set_option autoImplicit false

namespace Qlc
open Spec

section
variable {schema : Schema}

theorem buildVariable_declared {v v' : VarDef} (h : declared v = declared v') {x : Variable}
    (hx : buildVariable schema v = .ok x) : buildVariable schema v' = .ok x := by
  obtain ⟨p, n, t, dv⟩ := v
  obtain ⟨p', n', t', dv'⟩ := v'
  simp only [declared, Prod.mk.injEq] at h
  obtain ⟨rfl, rfl⟩ := h
  have hu : ∀ m b, unwrapVarDef ⟨p, n, t, dv⟩ = .ok (m, b) → unwrapVarDef ⟨p', n, t, dv'⟩ = .ok (m, b) := by
    intro m b hh
    unfold unwrapVarDef at hh ⊢
    simp only at hh ⊢
    repeat' split at hh
    all_goals first | exact hh | simp_all
  have ho : ∀ b y, VariableType.ofName schema b p = .ok y → VariableType.ofName schema b p' = .ok y := by
    intro b y hh
    unfold VariableType.ofName at hh ⊢
    repeat' split at hh
    all_goals first | exact hh | simp_all
  unfold buildVariable at hx ⊢
  split at hx
  · simp at hx
  · rename_i m b hb
    rw [hu m b hb]
    simp only
    split at hx
    · simp at hx
    · rename_i y hy
      rw [ho b y hy]
      exact hx

/-- The variables of an operation, reordered. -/
theorem tryBuild_perm {vars vars' : List VarDef} (hp : (vars.map declared).Perm (vars'.map declared))
    {o : Option (List Variable)} (h : tryBuildVariableIr schema vars = .ok o) :
    (o = none ∧ tryBuildVariableIr schema vars' = .ok none) ∨
    ∃ vs vs', o = some vs ∧ tryBuildVariableIr schema vars' = .ok (some vs') ∧ vs.Perm vs' := by
  have hlen : vars.length = vars'.length := by simpa using hp.length_eq
  unfold tryBuildVariableIr at h ⊢
  by_cases he : vars.isEmpty = true
  · have he' : vars'.isEmpty = true := by
      rw [List.isEmpty_iff_length_eq_zero] at he ⊢
      omega
    rw [if_pos he] at h
    rw [if_pos he']
    exact .inl ⟨(Except.ok.inj h).symm, rfl⟩
  · have he' : ¬ vars'.isEmpty = true := by
      rw [List.isEmpty_iff_length_eq_zero] at he ⊢
      omega
    rw [if_neg he] at h
    rw [if_neg he']
    split at h
    · simp at h
    · rename_i vs hs
      have h2 := forall₂_of_map_ok _ _ _ ((seqE_ok_iff _ _).1 hs)
      have h3 : List.Forall₂ (fun d x => ∀ v, declared v = d → buildVariable schema v = .ok x)
          (vars.map declared) vs := by
        rw [List.forall₂_map_left_iff]
        exact h2.imp (fun a x hx v hv => buildVariable_declared hv.symm hx)
      obtain ⟨vs', h4, h5⟩ := List.perm_comp_forall₂ hp.symm h3
      rw [List.forall₂_map_left_iff] at h4
      have h6 : seqE (vars'.map (buildVariable schema)) = .ok vs' := by
        rw [seqE_ok_iff]
        clear h5 he' hlen hp
        induction h4 with
        | nil => rfl
        | cons hab _ ih => rw [List.map_cons, List.map_cons, hab _ rfl, ih]
      refine .inr ⟨vs, vs', (Except.ok.inj h).symm, by rw [h6], h5.symm⟩

/-- Adding a name, if there is one. -/
def addName (g : List String) : Option String → List String
  | none => g
  | some n => setInsert g n

theorem mem_addName {g : List String} {o : Option String} {x : String} : x ∈ addName g o ↔ x ∈ g ∨ o = some x := by
  cases o with
  | none => simp [addName]
  | some n =>
    unfold addName setInsert
    by_cases h : n ∈ g
    · simp only [h, if_true, Option.some.injEq]
      exact ⟨.inl, fun hh => hh.elim id (fun e => e ▸ h)⟩
    · simp only [h, if_false, List.mem_append, List.mem_singleton, Option.some.injEq]
      exact ⟨fun hh => hh.imp id Eq.symm, fun hh => hh.imp id Eq.symm⟩

/-- What the type of a variable adds to the globals does not depend on which are there. -/
theorem variableTypeName_cases (cfg : TsConfig) (v : Variable) :
    (∃ e, ∀ g, compileVariableTypeName cfg schema v g = .error e) ∨
    ∃ tn o, ∀ g, compileVariableTypeName cfg schema v g = .ok (tn, addName g o) := by
  unfold compileVariableTypeName
  cases v.type with
  | id => exact .inr ⟨_, none, fun _ => rfl⟩
  | string => exact .inr ⟨_, none, fun _ => rfl⟩
  | float => exact .inr ⟨_, none, fun _ => rfl⟩
  | int => exact .inr ⟨_, none, fun _ => rfl⟩
  | boolean => exact .inr ⟨_, none, fun _ => rfl⟩
  | custom name =>
    simp only
    cases schema.getType name with
    | none => exact .inl ⟨_, fun _ => rfl⟩
    | some t =>
      simp only
      cases t.definition
      case scalar s => exact .inr ⟨_, none, fun _ => rfl⟩
      all_goals exact .inr ⟨_, some name, fun _ => rfl⟩

/-- The type of a variable and the global type that it uses. -/
def typeOfVariable (cfg : TsConfig) (schema : Schema) (v : Variable) : String × Option String :=
  match compileVariableTypeName cfg schema v [] with
  | .ok (tn, g) => (tn, g.head?)
  | .error _ => ("", none)

theorem variableTypeName_of (cfg : TsConfig) (v : Variable) :
    (∃ e, ∀ g, compileVariableTypeName cfg schema v g = .error e) ∨
    ∀ g, compileVariableTypeName cfg schema v g =
      .ok ((typeOfVariable cfg schema v).1, addName g (typeOfVariable cfg schema v).2) := by
  rcases variableTypeName_cases (schema := schema) cfg v with h | ⟨tn, o, ho⟩
  · exact .inl h
  · have e : typeOfVariable cfg schema v = (tn, o) := by
      unfold typeOfVariable
      rw [ho]
      cases o <;> simp [addName, setInsert]
    rw [e]
    exact .inr ho

/-- The types of all variables: each by itself, and the names that they add. -/
theorem variableTypes_iff (cfg : TsConfig) : ∀ (vars : List Variable) (g : List String) (vs : List (Variable × String))
    (g' : List String), compileVariableTypes cfg schema vars g = .ok (vs, g') ↔
      (∀ v ∈ vars, ∀ g, compileVariableTypeName cfg schema v g =
        .ok ((typeOfVariable cfg schema v).1, addName g (typeOfVariable cfg schema v).2)) ∧
      vs = vars.map (fun v => (v, propTypeDef [] v.modifier (typeOfVariable cfg schema v).1)) ∧
      g' = (vars.map (fun v => (typeOfVariable cfg schema v).2)).foldl addName g := by
  intro vars
  induction vars with
  | nil =>
    intro g vs g'
    unfold compileVariableTypes
    simp only [Except.ok.injEq, Prod.mk.injEq, List.not_mem_nil, false_implies, implies_true, List.map_nil,
      List.foldl_nil, true_and]
    exact ⟨fun h => ⟨h.1.symm, h.2.symm⟩, fun h => ⟨h.1.symm, h.2.symm⟩⟩
  | cons v rest ih =>
    intro g vs g'
    unfold compileVariableTypes
    rcases variableTypeName_of (schema := schema) cfg v with ⟨e, he⟩ | ho
    · rw [he]
      simp only
      constructor
      · intro h; simp at h
      · rintro ⟨h, _⟩
        have := h v (List.mem_cons_self ..) []
        rw [he] at this
        simp at this
    · rw [ho]
      simp only
      constructor
      · intro h
        split at h
        · simp at h
        · rename_i vs1 g1 h1
          simp only [Except.ok.injEq, Prod.mk.injEq] at h
          obtain ⟨a, b, c⟩ := (ih _ _ _).1 h1
          refine ⟨fun x hx => ?_, by rw [← h.1, b]; rfl, by rw [← h.2, c]; rfl⟩
          rcases List.mem_cons.1 hx with rfl | hx
          · exact ho
          · exact a x hx
      · rintro ⟨h, rfl, rfl⟩
        rw [(ih _ _ _).2 ⟨fun x hx => h x (List.mem_cons_of_mem _ hx), rfl, rfl⟩]
        rfl

theorem fold_suffix (os : List (Option String)) : ∀ g : List String, ∃ new : List String,
    os.foldl addName g = g ++ new ∧ new.Nodup ∧ ∀ x, x ∈ new ↔ x ∉ g ∧ some x ∈ os := by
  induction os with
  | nil => intro g; exact ⟨[], by simp, by simp, by simp⟩
  | cons o os ih =>
    intro g
    obtain ⟨new, a, b, c⟩ := ih (addName g o)
    rw [List.foldl_cons, a]
    cases o with
    | none =>
      refine ⟨new, rfl, b, fun x => ?_⟩
      rw [c]
      simp [addName]
    | some n =>
      by_cases hn : n ∈ g
      · have e : addName g (some n) = g := by simp [addName, setInsert, hn]
        rw [e] at c ⊢
        refine ⟨new, rfl, b, fun x => ?_⟩
        rw [c]
        simp only [List.mem_cons, Option.some.injEq]
        constructor
        · rintro ⟨h1, h2⟩; exact ⟨h1, .inr h2⟩
        · rintro ⟨h1, rfl | h2⟩
          · exact absurd hn h1
          · exact ⟨h1, h2⟩
      · have e : addName g (some n) = g ++ [n] := by simp [addName, setInsert, hn]
        rw [e] at c ⊢
        refine ⟨n :: new, by simp, ?_, fun x => ?_⟩
        · rw [List.nodup_cons]
          refine ⟨fun h => ?_, b⟩
          have := ((c n).1 h).1
          simp at this
        · simp only [List.mem_cons, c, List.mem_append, Option.some.injEq, List.mem_singleton, List.not_mem_nil, or_false]
          constructor
          · rintro (rfl | ⟨h1, h2⟩)
            · exact ⟨hn, .inl rfl⟩
            · exact ⟨fun h => h1 (.inl h), .inr h2⟩
          · rintro ⟨h1, h2⟩
            by_cases hx : x = n
            · exact .inl hx
            · rcases h2 with h2 | h2
              · exact absurd h2 hx
              · exact .inr ⟨fun h => h.elim h1 hx, h2⟩

theorem fold_perm {os os' : List (Option String)} (h : os.Perm os') (g : List String) :
    (os.foldl addName g).Perm (os'.foldl addName g) := by
  obtain ⟨new, a, b, c⟩ := fold_suffix os g
  obtain ⟨new', a', b', c'⟩ := fold_suffix os' g
  rw [a, a']
  refine List.Perm.append_left _ ((List.perm_ext_iff_of_nodup b b').2 (fun x => ?_))
  rw [c, c', h.mem_iff]

/-- The text of an operation does not depend on the order of its variables. -/
theorem compileIr_variables_perm (ω : Hash) (cfg : TsConfig) (op : Operation) {vs vs' : List Variable}
    (ho : op.variables = some vs) (hp : vs.Perm vs') (hn : (vs.map Variable.propName).Nodup) {c : Compile}
    (hc : compileIr ω op cfg schema = .ok c) :
    ∃ c', compileIr ω { op with «variables» := some vs' } cfg schema = .ok c' ∧ c'.contents = c.contents ∧
      c'.globalTypesUsed.Perm c.globalTypesUsed := by
  unfold compileIr at hc ⊢
  simp only
  cases hg : genCollection ω (possOf ω cfg op.collection) op.name [] with
  | error e => rw [hg] at hc; simp at hc
  | ok r =>
    obtain ⟨defs, g⟩ := r
    rw [hg] at hc
    simp only at hc ⊢
    unfold compileVariablesTypeDefinition at hc ⊢
    rw [ho] at hc
    simp only at hc ⊢
    cases hv : compileVariableTypes cfg schema vs g with
    | error e => rw [hv] at hc; simp at hc
    | ok r =>
      obtain ⟨xs, g'⟩ := r
      rw [hv] at hc
      simp only [Except.ok.injEq] at hc
      obtain ⟨a, b, d⟩ := (variableTypes_iff cfg vs g xs g').1 hv
      have hv' := (variableTypes_iff cfg vs' g _ _).2 ⟨fun v hm => a v (hp.mem_iff.2 hm), rfl, rfl⟩
      rw [hv']
      have hxs : xs.Perm (vs'.map (fun v => (v, propTypeDef [] v.modifier (typeOfVariable cfg schema v).1))) := by
        rw [b]; exact hp.map _
      have hgs : g'.Perm ((vs'.map (fun v => (typeOfVariable cfg schema v).2)).foldl addName g) := by
        rw [d]; exact fold_perm (hp.map _) g
      have hsort : sortBy (fun (e : Variable × String) => e.1.propName) (ω.perm ["typescript.rs:511"]
            (vs'.map (fun v => (v, propTypeDef [] v.modifier (typeOfVariable cfg schema v).1)))) =
          sortBy (fun (e : Variable × String) => e.1.propName) (ω.perm ["typescript.rs:511"] xs) := by
        symm
        apply sortBy_eq_of_perm
        · exact ((ω.isPerm _ xs).trans hxs).trans (ω.isPerm _ _).symm
        · refine ((ω.isPerm _ xs).map _).nodup_iff.2 ?_
          rw [b, List.map_map]
          exact hn
      have himp : ∀ docNode, compileImports ω cfg docNode
            ((vs'.map (fun v => (typeOfVariable cfg schema v).2)).foldl addName g) =
          compileImports ω cfg docNode g' := by
        intro docNode
        unfold compileImports
        have e1 : ((vs'.map (fun v => (typeOfVariable cfg schema v).2)).foldl addName g).isEmpty = g'.isEmpty := by
          rw [Bool.eq_iff_iff, List.isEmpty_iff_length_eq_zero, List.isEmpty_iff_length_eq_zero, hgs.length_eq]
        rw [e1, sortStr_eq_of_perm (((ω.isPerm _ _).trans hgs.symm).trans (ω.isPerm _ g').symm)]
      refine ⟨_, rfl, ?_, ?_⟩
      · rw [← hc]
        simp only [hsort, himp]
      · rw [← hc]
        exact hgs.symm

/-- **C146.** If an operation is compiled, then so is every operation that declares the same variables in another order, with
other default values or directives: it generates the same text and uses the same global types. -/
theorem C146_order_of_variables_does_not_matter (ω ω' : Hash) (fuel : Nat) (ctx : Ctx) (cfg : TsConfig) {d d' : Definition}
    (hd : ReordersVariables d d') (hn : ((varsOf d).map VarDef.name).Nodup) {op : Operation} {ws : List Warning}
    (h : Operation.compile ω fuel ctx d = some (.ok op, ws)) {c : Compile}
    (hc : compileIr ω' op cfg ctx.schema = .ok c) :
    ∃ op' c', Operation.compile ω fuel ctx d' = some (.ok op', ws) ∧ compileIr ω' op' cfg ctx.schema = .ok c' ∧
      c'.contents = c.contents ∧ ∀ g, g ∈ c'.globalTypesUsed ↔ g ∈ c.globalTypesUsed := by
  cases hd with
  | @operation kw pos name vars vars' dirs dirs' items hp =>
    unfold Operation.compile at h ⊢
    simp only at h ⊢
    split at h
    · simp at h
    rename_i parent hpar
    try rw [hpar]
    try simp only
    split at h
    · simp at h
    rename_i col hcol
    try rw [hcol]
    try simp only
    split at h
    · simp at h
    rename_i hres
    try rw [hres]
    try simp only
    split at h
    · simp at h
    rename_i coll hir
    try rw [hir]
    try simp only
    split at h
    · simp at h
    rename_i o hvar
    simp only [Option.some.injEq, Prod.mk.injEq, Except.ok.injEq] at h
    obtain ⟨rfl, rfl⟩ := h
    rcases tryBuild_perm hp hvar with ⟨rfl, e⟩ | ⟨vs, vs', rfl, e, hvp⟩
    · rw [e]
      exact ⟨_, c, rfl, hc, rfl, fun _ => Iff.rfl⟩
    · rw [e]
      have hnod : (vs.map Variable.propName).Nodup := by
        have hf : finish ctx.schema (.operation kw pos name vars dirs items) coll =
            .ok ⟨nameOf (.operation kw pos name vars dirs items), coll, some vs,
              kindOf (.operation kw pos name vars dirs items)⟩ := by
          unfold finish
          rw [show varsOf (.operation kw pos name vars dirs items) = vars from rfl, hvar]
        exact compile_finish_variables hf hn vs rfl
      obtain ⟨c', a, b, k⟩ := compileIr_variables_perm ω' cfg _ rfl hvp hnod hc
      exact ⟨_, c', rfl, a, b, fun g => k.mem_iff⟩

end

/-- **C146, a file.** If a file is generated from a document, then the same file is generated after the order of the
variables, their default values or the directives of the operation have been changed, if the imports stay as they are. -/
theorem C146_file_stays {ext : Ext} {cfg : CompileConfig} {schema : Schema} {w w' : World} {p : Path} (ω : Hash) (fuel : Nat)
    {contents contents' : String} {d d' : Definition} {st : ImportSt} {op : Operation} {ws : List Warning} {c : Compile}
    (G : Generates ω fuel ext cfg schema w p contents d st op ws c)
    (hr : w'.read p = .ok contents') (hd : ext.parse contents' = .ok [d']) (hi : importsOf contents' = importsOf contents)
    (hsame : ∀ il q q', Imports cfg p contents il q → Spec.Reads w cfg q q' → w'.read q' = w.read q')
    (hv : ReordersVariables d d') (hn : ((varsOf d).map VarDef.name).Nodup) :
    ∃ op' c', Generates ω fuel ext cfg schema w' p contents' d' st op' ws c' ∧ c'.contents = c.contents ∧
      ∀ g, g ∈ c'.globalTypesUsed ↔ g ∈ c.globalTypesUsed := by
  have hscan : addImported w' cfg fuel p contents' ⟨[], []⟩ = addImported w cfg fuel p contents ⟨[], []⟩ := by
    cases fuel with
    | zero => rfl
    | succ n =>
      rw [imports_are_the_leading_block, imports_are_the_leading_block, hi]
      apply handleAll_congr
      intro il hil s
      unfold handleImport
      dsimp only
      cases ht : getFilePathOfFragment cfg il.after p.pop with
      | none => rfl
      | some q =>
        have hq := fun q' => hsame il q q' ⟨hil, ht⟩
        simp only
        rw [hq q .self]
        cases hrq : w.read q with
        | error e => rfl
        | ok t => simp only; rw [addImported_congr cfg w w' q hq n q t s .self hrq]
  obtain ⟨op', c', a, b, e, k⟩ := C146_order_of_variables_does_not_matter ω ω fuel _ cfg.toTsConfig hv hn G.valid G.generated
  exact ⟨op', c', ⟨hr, hd, hscan.trans G.scanned, a, b⟩, e, k⟩

/-! ### Examples -/

namespace Demo

/-- `query P(vars) { count }`. -/
def varsQuery (vars : List VarDef) : Definition := .operation .query ⟨1, 1⟩ (some "P") vars [] [leaf 2 3 "count"]

/-- `$p: Page`. -/
def pageVar : VarDef := ⟨⟨1, 9⟩, "p", .named "Page", none⟩

/-- `$n: Int!`. -/
def intVar : VarDef := ⟨⟨1, 19⟩, "n", .nonNull (.named "Int"), none⟩

end Demo

/-- The text that is generated for a definition. -/
def textFor (d : Definition) : Option String :=
  match Operation.compile .inOrder 9 ⟨Demo.respSchema, true, []⟩ d with
  | some (.ok op, _) => (match compileIr .inOrder op Demo.cfg.toTsConfig Demo.respSchema with
    | .ok c => some c.contents
    | .error _ => none)
  | _ => none

theorem textFor_some {d : Definition} {t : String} (h : textFor d = some t) : ∃ op ws c,
    Operation.compile .inOrder 9 ⟨Demo.respSchema, true, []⟩ d = some (.ok op, ws) ∧
    compileIr .inOrder op Demo.cfg.toTsConfig Demo.respSchema = .ok c ∧ c.contents = t := by
  unfold textFor at h
  split at h
  · rename_i op ws hop
    split at h
    · rename_i c hc
      exact ⟨op, ws, c, hop, hc, Option.some.inj h⟩
    · cases h
  · cases h

/-- A query with two variables, one of them of an input type, and the same query with the variables the other way round and
a default value. -/
theorem C146_demo : ∃ op op' ws c c',
    Operation.compile .inOrder 9 ⟨Demo.respSchema, true, []⟩ (Demo.varsQuery [Demo.pageVar, Demo.intVar]) =
      some (.ok op, ws) ∧
    Operation.compile .inOrder 9 ⟨Demo.respSchema, true, []⟩
      (Demo.varsQuery [Demo.intVar, { Demo.pageVar with default := some (.other "null") }]) = some (.ok op', ws) ∧
    op ≠ op' ∧ compileIr .inOrder op Demo.cfg.toTsConfig Demo.respSchema = .ok c ∧
    compileIr .inOrder op' Demo.cfg.toTsConfig Demo.respSchema = .ok c' ∧ c'.contents = c.contents ∧
    ∀ g, g ∈ c'.globalTypesUsed ↔ g ∈ c.globalTypesUsed := by
  have a1 : (textFor (Demo.varsQuery [Demo.pageVar, Demo.intVar])).isSome = true := by decide +kernel
  obtain ⟨t, b1⟩ := Option.isSome_iff_exists.1 a1
  obtain ⟨op, ws, c, h, hc, _⟩ := textFor_some b1
  have hd : ReordersVariables (Demo.varsQuery [Demo.pageVar, Demo.intVar])
      (Demo.varsQuery [Demo.intVar, { Demo.pageVar with default := some (.other "null") }]) :=
    .operation (List.Perm.swap _ _ _)
  obtain ⟨op', c', h', hc', e, hg⟩ := C146_order_of_variables_does_not_matter .inOrder .inOrder 9
    ⟨Demo.respSchema, true, []⟩ Demo.cfg.toTsConfig hd (by decide) h hc
  have hne : (match Operation.compile .inOrder 9 ⟨Demo.respSchema, true, []⟩
        (Demo.varsQuery [Demo.pageVar, Demo.intVar]) with
      | some (.ok op, _) => op.variables | _ => none) ≠
    (match Operation.compile .inOrder 9 ⟨Demo.respSchema, true, []⟩
        (Demo.varsQuery [Demo.intVar, { Demo.pageVar with default := some (.other "null") }]) with
      | some (.ok op, _) => op.variables | _ => none) := by decide +kernel
  rw [h, h'] at hne
  exact ⟨op, op', ws, c, c', h, h', fun e => hne (by rw [e]), hc, hc', e, hg⟩

namespace Demo

/-- A stand-in for the parser: two versions of a query. -/
def varsExt : Ext where
  parse := fun t =>
    if t = "query P1" then .ok [varsQuery [pageVar, intVar]]
    else .ok [varsQuery [intVar, { pageVar with default := some (.other "null") }]]
  dist := ext.dist

/-- A file with one of the versions. -/
def varsWorld (text : String) : World where
  resolve := Path.display
  disk := fun id => if id = "/r/q.graphql" then .ok text else .error "missing"
  writeErr := fun _ => none

end Demo

/-- The file of the query above is the same for both versions. -/
theorem C146_file_demo : ∃ d d' st op op' ws c c',
    Generates .inOrder 9 Demo.varsExt Demo.cfg Demo.respSchema (Demo.varsWorld "query P1") Demo.qPath "query P1"
      d st op ws c ∧
    Generates .inOrder 9 Demo.varsExt Demo.cfg Demo.respSchema (Demo.varsWorld "query P2") Demo.qPath "query P2"
      d' st op' ws c' ∧ d ≠ d' ∧ c'.contents = c.contents := by
  have a1 : (match generateFile .inOrder 9 Demo.varsExt Demo.cfg Demo.respSchema (Demo.varsWorld "query P1") Demo.qPath with
    | some (.done (.ok _)) => true | _ => false) = true := by decide +kernel
  have i1 : importsOf "query P1" = [] := by
    have : (importsOf "query P1").length = 0 := by decide +kernel
    exact List.length_eq_zero_iff.1 this
  have i2 : importsOf "query P2" = [] := by
    have : (importsOf "query P2").length = 0 := by decide +kernel
    exact List.length_eq_zero_iff.1 this
  split at a1
  case h_2 => cases a1
  rename_i r h
  obtain ⟨contents, d, st, op, ws, G, _⟩ := (generateFile_ok _ _ _ _ _ _ _ r.1 r.2).1 h
  have e1 := G.readable
  rw [show (Demo.varsWorld "query P1").read Demo.qPath = .ok "query P1" from rfl] at e1
  have e1 := Except.ok.inj e1
  subst e1
  have e2 := G.parses
  rw [show Demo.varsExt.parse "query P1" = .ok [Demo.varsQuery [Demo.pageVar, Demo.intVar]] from rfl] at e2
  have e2 := (List.cons.inj (Except.ok.inj e2)).1
  subst e2
  obtain ⟨op', c', G', e, _⟩ := C146_file_stays (w' := Demo.varsWorld "query P2") .inOrder 9 G (contents' := "query P2") rfl
    (d' := Demo.varsQuery [Demo.intVar, { Demo.pageVar with default := some (.other "null") }]) rfl (by rw [i1, i2])
    (by
      rintro il q q' ⟨h1, _⟩
      rw [i1] at h1
      cases h1)
    (.operation (List.Perm.swap _ _ _)) (by decide)
  exact ⟨_, _, st, op, op', ws, _, c', G, G', fun e => absurd (congrArg varsOf e) (by decide), e⟩

/-- **C146, repeated names (negation witness).** Variables of one name, which GraphQL forbids, are accepted, and then their
order does matter. -/
theorem C146_repeated_names_witness : ∃ d d' t t', ReordersVariables d d' ∧ textFor d = some t ∧ textFor d' = some t' ∧
    t ≠ t' := by
  have a1 : (textFor (Demo.varsQuery [Demo.pageVar, { Demo.intVar with name := "p" }])).isSome = true := by
    decide +kernel
  have a2 : (textFor (Demo.varsQuery [{ Demo.intVar with name := "p" }, Demo.pageVar])).isSome = true := by
    decide +kernel
  have a3 : textFor (Demo.varsQuery [Demo.pageVar, { Demo.intVar with name := "p" }]) ≠
      textFor (Demo.varsQuery [{ Demo.intVar with name := "p" }, Demo.pageVar]) := by decide +kernel
  obtain ⟨t, b1⟩ := Option.isSome_iff_exists.1 a1
  obtain ⟨t', b2⟩ := Option.isSome_iff_exists.1 a2
  rw [b1, b2] at a3
  have hd : ReordersVariables (Demo.varsQuery [Demo.pageVar, { Demo.intVar with name := "p" }])
      (Demo.varsQuery [{ Demo.intVar with name := "p" }, Demo.pageVar]) := .operation (List.Perm.swap _ _ _)
  exact ⟨_, _, t, t', hd, b1, b2, fun e => a3 (by rw [e])⟩

end Qlc
