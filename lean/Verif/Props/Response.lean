import Verif.Lemmas.Inhabit
import Verif.Lemmas.RespCheck
import Verif.Props.Emit
/-
Properties C22 and C23: which JSON values the generated types admit, compared with what a server may answer.
-/
set_option autoImplicit false

namespace Qlc
open Spec

variable {schema : Schema} {frags : Frags} {doc : JSchema}

theorem root_of_server {d : Definition} {P : String} (hns : isSubscription d = false)
    (hP : serverRoot d = some P) {ω : Hash} {fuel : Nat} {ctx : Ctx} {op : Operation} {ws : List Warning}
    (h : Operation.compile ω fuel ctx d = some (.ok op, ws)) : rootType d = some P := by
  cases d with
  | selectionSet pos items => simp [Operation.compile] at h
  | operation kw pos name vars dirs items =>
    cases kw with
    | subscription => simp [isSubscription] at hns
    | _ => exact hP
  | fragment f => exact hP

/-! ### C22 -/

/-- **C22.** Whatever a server may answer to the definition inhabits the generated type.

The schema is loaded from the introspection document `doc`, which describes a valid GraphQL schema without
nullable lists of non-null lists (C01).  The definition is a query, mutation or fragment (C28: subscriptions
are compiled against the query type) that compiles; imported fragments are valid (C12); no selection is left
out by a directive (C27); every response key has one named type (C21); object types with the same property
names have the same bodies (C23).  The names are GraphQL names, and the names of enums and scalars do not
clash with the names the file declares.  `env` gives the meaning of enums and scalars. -/
theorem C22_responses_inhabit (ω : Hash) (fuel : Nat) (showDep : Bool) (cfg : TsConfig)
    (hv : ValidDoc doc) (hs : Schema.ofJson doc = .ok schema) (hbad : NoNonNullListInNullableList doc)
    (hfr : FragsValid schema frags) (d : Definition) (op : Operation) (ws : List Warning) (P : String)
    (hns : isSubscription d = false) (hP : serverRoot d = some P)
    (h : Operation.compile ω fuel ⟨schema, showDep, frags⟩ d = some (.ok op, ws))
    (hone : OneTypePerKey schema frags P [itemsOf d]) (hsame : SameBodies op.collection)
    (applies : List Directive → Prop) (hu : Unconditional applies (itemsOf d))
    (huf : FragsApply applies frags)
    (hmain : IsTypeName op.name)
    (hT : ∀ P, ∀ T ∈ objectTypes doc P, IsName T)
    (hk : ∀ k ∈ compositeKeys (itemsOf d), IsName k)
    (hkf : ∀ name fd, AMap.get? frags name = some fd → ∀ k ∈ compositeKeys fd.items, IsName k)
    (hout : ∀ n, Outside cfg doc n → IsTypeName n ∧ ¬ Generated op.name n)
    (scalars env : String → JVal → Prop) (he : EnvFor cfg doc scalars env)
    (c : Compile) (hc : compileIr ω op cfg schema = .ok c) :
    ∃ f : TsFile, c.contents = f.text cfg.useReadonlyTypes ∧ FileFor cfg schema op f ∧
      ∀ T ∈ objectTypes doc P, ∀ v, (∀ n, AnswersTo doc frags applies scalars n T [itemsOf d] v) →
        ∀ n, Inhabits f.decls env n f.name v := by
  have hcon := loaded_consistent hv hs
  have hP' := root_of_server hns hP h
  obtain ⟨_, _, htx, _⟩ := compiled_tree hcon hP' h
  have ht := C10_generated_tree ω fuel showDep hcon hfr d op ws P hP' h
  have hal := altsNodup_of_tree (fun n => ⟨_, _, htx n⟩)
  have hfile := fileFor_tsFile hal hc
  have hread : Readable cfg op.name op.collection := by
    refine readable_of_tree hv hs hT hkf hout (fun n => ⟨_, _, htx n, ?_⟩) (fun n => ⟨_, _, ht n⟩)
    intro s hs
    rw [List.mem_singleton] at hs; subst hs
    exact hk
  have hno := namesOk_of_compile hc hmain hread
  refine ⟨tsFile ω cfg schema op, (compileIr_agrees hc).1, hfile, ?_⟩
  intro T hT v hans n
  have hd := C21_properties_listed_once ω fuel showDep hcon hfr d op ws P hP' h hone
  refine tree_inhabits hno env n _ _ (hfile.tree n) hread hsame v ?_
  refine answers_tree hv hs hbad huf he n P _ _ (ht n) hd ?_ T hT v (hans n)
  intro s hs
  rw [List.mem_singleton] at hs; subst hs
  exact hu

/-! ### C23 -/

/-- **C23.** When object types with the same property names have the same bodies, nothing is lost and
nothing is gained by merging them: the generated type admits exactly the values of the alternatives, each
kept apart from the others.  This is for every collection of alternatives with usable names. -/
theorem C23_merging_preserves (ω : Hash) (cfg : TsConfig) (op : Operation) (c : Compile)
    (hc : compileIr ω op cfg schema = .ok c) (hmain : IsTypeName op.name)
    (hal : AltsNodup op.collection) (hpn : PropsNodup op.collection) (hpl : PlainNames op.collection)
    (hread : Readable cfg op.name op.collection) (hsame : SameBodies op.collection)
    (htn : OneTypename op.collection) (env : String → JVal → Prop) :
    ∃ f : TsFile, c.contents = f.text cfg.useReadonlyTypes ∧ FileFor cfg schema op f ∧
      ∀ n v, Inhabits f.decls env n f.name v ↔ TreeAdmits cfg env n op.collection v := by
  have hfile := fileFor_tsFile hal hc
  have hno := namesOk_of_compile hc hmain hread
  refine ⟨tsFile ω cfg schema op, (compileIr_agrees hc).1, hfile, ?_⟩
  intro n v
  exact ⟨inhabits_tree hno (coll_nodup cfg _ op.collection (Nat.le_refl _) hpl hpn hal op.name) env n _ _
      (hfile.tree n) hread hsame htn v,
    tree_inhabits hno env n _ _ (hfile.tree n) hread hsame v⟩

/-- **C23.** Without the proviso about two `__typename`s and without plain names one direction remains: no
value of an alternative is lost. -/
theorem C23_merging_loses_nothing (ω : Hash) (cfg : TsConfig) (op : Operation) (c : Compile)
    (hc : compileIr ω op cfg schema = .ok c) (hmain : IsTypeName op.name)
    (hal : AltsNodup op.collection)
    (hread : Readable cfg op.name op.collection) (hsame : SameBodies op.collection)
    (env : String → JVal → Prop) :
    ∃ f : TsFile, c.contents = f.text cfg.useReadonlyTypes ∧ FileFor cfg schema op f ∧
      ∀ n v, TreeAdmits cfg env n op.collection v → Inhabits f.decls env n f.name v := by
  have hfile := fileFor_tsFile hal hc
  have hno := namesOk_of_compile hc hmain hread
  refine ⟨tsFile ω cfg schema op, (compileIr_agrees hc).1, hfile, ?_⟩
  intro n v
  exact tree_inhabits hno env n _ _ (hfile.tree n) hread hsame v

/-! ### A concrete case -/

theorem leastEnv_for (cfg : TsConfig) (doc : JSchema) (scalars : String → JVal → Prop) :
    EnvFor cfg doc scalars (leastEnv cfg doc scalars) where
  string := fun s => .inl ⟨rfl, s, rfl⟩
  number := fun s => .inr (.inl ⟨rfl, s, rfl⟩)
  boolean := fun b => .inr (.inr (.inl ⟨rfl, b, rfl⟩))
  any := fun _ => .inr (.inr (.inr (.inl rfl)))
  enum := fun _ j vs h1 h2 h3 s hs => .inr (.inr (.inr (.inr (.inl ⟨j, vs, s, h1, h2, h3, hs, rfl⟩))))
  custom := fun n v _ h => by
    unfold leastEnv
    cases hb : cfg.bottomTypeConfig with
    | defaultBottomType => trivial
    | realName => exact .inr (.inr (.inr (.inr (.inr ⟨n, h, rfl⟩))))
    | realNameWithPrefix p => exact .inr (.inr (.inr (.inr (.inr ⟨n, h, rfl⟩))))

def isOkB {α β : Type} : Except α β → Bool
  | .ok _ => true
  | .error _ => false

theorem loads_of_check {doc : JSchema} (h : isOkB (Schema.ofJson doc) = true) :
    Schema.ofJson doc = .ok (match Schema.ofJson doc with | .ok s => s | .error _ => []) := by
  cases hd : Schema.ofJson doc with
  | ok s => rfl
  | error e => rw [hd] at h; simp [isOkB] at h

theorem resp_loads : Schema.ofJson Demo.respJson = .ok Demo.respSchema :=
  loads_of_check (by decide +kernel)

theorem resp_valid : ValidDoc Demo.respJson := validDocB_sound (by decide +kernel)

/-- All the checks on a compiled operation that examples need. -/
def respChecks (cfg : TsConfig) (schema : Schema) (frags : Frags) (d : Definition) : Bool :=
  match Operation.compile .inOrder 9 ⟨schema, true, frags⟩ d with
  | some (.ok op, _) =>
    distinctPossB op.collection && everywhere sameHere 9 op.collection &&
    everywhere oneTypenameHere 9 op.collection && everywhere propsHere 9 op.collection &&
    everywhere altsHere 9 op.collection && everywhere plainHere 9 op.collection &&
    everywhere (readableHere cfg op.name) 9 op.collection && decide (op.name = "Q") &&
    isOkB (compileIr .inOrder op cfg schema)
  | _ => false

theorem respChecks_sound {cfg : TsConfig} {schema : Schema} {frags : Frags} {d : Definition}
    (h : respChecks cfg schema frags d = true) :
    ∃ op ws c, Operation.compile .inOrder 9 ⟨schema, true, frags⟩ d = some (.ok op, ws) ∧
      compileIr .inOrder op cfg schema = .ok c ∧ DistinctPoss op.collection ∧ SameBodies op.collection ∧
      OneTypename op.collection ∧ PropsNodup op.collection ∧ AltsNodup op.collection ∧
      PlainNames op.collection ∧ Readable cfg op.name op.collection ∧ op.name = "Q" := by
  unfold respChecks at h
  split at h
  · rename_i op ws e
    simp only [Bool.and_eq_true, decide_eq_true_eq] at h
    obtain ⟨⟨⟨⟨⟨⟨⟨⟨h1, h2⟩, h3⟩, h4⟩, h5⟩, h6⟩, h7⟩, h8⟩, h9⟩ := h
    cases hc : compileIr .inOrder op cfg schema with
    | error e => rw [hc] at h9; simp [isOkB] at h9
    | ok c =>
      exact ⟨op, ws, c, e, hc, (distinctPoss_iff _).1 h1, sameBodies_of_check h2, oneTypename_of_check h3,
        propsNodup_of_check h4, altsNodup_of_check h5, plainNames_of_check h6, readable_of_check h7, h8⟩
  · simp at h

theorem resp_checks : respChecks Demo.tsCfg Demo.respSchema Demo.ctx.fragments Demo.query = true := by
  decide +kernel

theorem demo_frag {name : String} {fd : FragmentDef} (h : AMap.get? Demo.ctx.fragments name = some fd) :
    fd = Demo.fragF := by
  unfold Demo.ctx at h
  simp only [AMap.get?] at h
  split at h
  · injection h with e; exact e.symm
  · simp at h

theorem resp_frags_valid : FragsValid Demo.respSchema Demo.ctx.fragments := by
  intro name fd h
  obtain rfl := demo_frag h
  refine ⟨by decide +kernel, (valid_iff _ _).2 ?_⟩
  have : (invalidSelections Demo.respSchema Demo.ctx.fragments Demo.fragF.typeCond
    Demo.fragF.items).length = 0 := by decide +kernel
  exact List.length_eq_zero_iff.1 this

/-- An answer to the demo query. -/
def respValue : JVal := .obj [
  ("node", .obj [("__typename", .str "User"), ("id", .str "7"), ("name", .null), ("role", .str "ADMIN"),
    ("old", .str "2020-01-01")]),
  ("me", .obj [("friends", .arr [.obj [("id", .str "1")], .obj [("id", .str "2")]])])]

/-- It is an answer. -/
theorem resp_answers : ∀ n, AnswersTo Demo.respJson Demo.ctx.fragments (fun d => d.isEmpty = true)
    stringScalars n "Query" [itemsOf Demo.query] respValue :=
  answersB_sound Demo.respJson Demo.ctx.fragments (fun d => d.isEmpty) 9 "Query" _ _ (by decide +kernel)

/-- Some JSON that is not an answer: the name is not nullable-or-string, or a key is missing. -/
example : answersB Demo.respJson Demo.ctx.fragments (fun d => d.isEmpty) 9 "Query" [itemsOf Demo.query]
    (.obj [("node", .null)]) = false := by decide +kernel

/-- **C22 for the demo query**: all hypotheses are met, and the answer inhabits the generated type. -/
theorem C22_demo : ∃ op ws c, Operation.compile .inOrder 9 ⟨Demo.respSchema, true, Demo.ctx.fragments⟩
      Demo.query = some (.ok op, ws) ∧ compileIr .inOrder op Demo.tsCfg Demo.respSchema = .ok c ∧
    ∃ f : TsFile, c.contents = f.text true ∧ FileFor Demo.tsCfg Demo.respSchema op f ∧
      ∀ n, Inhabits f.decls (leastEnv Demo.tsCfg Demo.respJson stringScalars) n f.name respValue := by
  obtain ⟨op, ws, c, h, hc, hd, hsame, _, _, _, _, _, hname⟩ := respChecks_sound resp_checks
  refine ⟨op, ws, c, h, hc, ?_⟩
  have hone := (C21_listed_once_iff .inOrder 9 true (loaded_consistent resp_valid resp_loads)
    resp_frags_valid Demo.query op ws "Query" rfl h).1 hd
  obtain ⟨f, h1, h2, h3⟩ := C22_responses_inhabit .inOrder 9 true Demo.tsCfg resp_valid resp_loads
    (noBadListB_sound (by decide +kernel)) resp_frags_valid Demo.query op ws "Query" rfl rfl h hone hsame
    (fun d => d.isEmpty = true) (by unfold Unconditional; decide)
    (by intro name fd hg; obtain rfl := demo_frag hg; unfold Unconditional; decide)
    (by rw [hname]; decide)
    (fun P T hT => by
      have := objectTypesB_sound (q := fun T => decide (IsName T)) (doc := Demo.respJson) (by decide +kernel) P T hT
      simpa using this)
    (by decide)
    (by intro name fd hg; obtain rfl := demo_frag hg; decide)
    (by
      intro n hn
      have := outsideB_sound (q := fun n => decide (IsTypeName n) && !generatedB "Q" n) (cfg := Demo.tsCfg)
        (doc := Demo.respJson) (by decide +kernel) n hn
      rw [Bool.and_eq_true, decide_eq_true_eq, Bool.not_eq_true'] at this
      rw [hname]
      exact ⟨this.1, generatedB_sound this.2⟩)
    stringScalars _ (leastEnv_for _ _ _) c hc
  exact ⟨f, h1, h2, h3 "Query" (by decide +kernel) _ resp_answers⟩

/-- The hypotheses of C23 are met by the demo query, in which `User` and `Bot` are kept apart. -/
example : ∃ op ws c, Operation.compile .inOrder 9 ⟨Demo.respSchema, true, Demo.ctx.fragments⟩
      Demo.query = some (.ok op, ws) ∧ compileIr .inOrder op Demo.tsCfg Demo.respSchema = .ok c ∧
    ∃ f : TsFile, c.contents = f.text true ∧ FileFor Demo.tsCfg Demo.respSchema op f ∧
      ∀ env n v, Inhabits f.decls env n f.name v ↔ TreeAdmits Demo.tsCfg env n op.collection v := by
  obtain ⟨op, ws, c, h, hc, _, hsame, hone, hp, hal, hpl, hread, hname⟩ := respChecks_sound resp_checks
  refine ⟨op, ws, c, h, hc, ?_⟩
  have hmain : IsTypeName op.name := by rw [hname]; decide
  refine ⟨tsFile .inOrder Demo.tsCfg Demo.respSchema op, (compileIr_agrees hc).1, fileFor_tsFile hal hc, ?_⟩
  intro env n v
  have hno := namesOk_of_compile hc hmain hread
  have hfile := fileFor_tsFile hal hc
  exact ⟨inhabits_tree hno (coll_nodup _ _ op.collection (Nat.le_refl _) hpl hp hal op.name) env n _ _
      (hfile.tree n) hread hsame hone v,
    tree_inhabits hno env n _ _ (hfile.tree n) hread hsame v⟩

/-! ### Where the provisos fail -/

/-- What inhabiting a declared object type says about one property whose type is another declared type. -/
theorem inhabits_below {decls : List TsDecl} (hn : (decls.map TsDecl.name).Nodup)
    {env : String → JVal → Prop} {k : Nat} {n : String} {props : List TsProp} {v : JVal}
    (hd : TsDecl.object n props ∈ decls) (h : Inhabits decls env (k + 1) n v) {p : TsProp} (hp : p ∈ props)
    {m : String} (ht : parseTs p.typeText = some (.ref m)) (hm : m ∈ decls.map TsDecl.name) :
    ∃ fs x, v = .obj fs ∧ (p.name, x) ∈ fs ∧ Inhabits decls env k m x := by
  obtain ⟨objs, hr, o, ho, fs, rfl, _, _, h3⟩ := h
  have := resolves_unique hn hr (.inl ⟨props, hd, rfl⟩)
  subst this
  rw [List.mem_singleton] at ho
  subst ho
  obtain ⟨x, hx, t, ht', ha⟩ := h3 p hp
  rw [ht] at ht'
  injection ht' with ht'
  subst ht'
  refine ⟨fs, x, rfl, hx, ?_⟩
  have ha : scope decls (Inhabits decls env k) env m x := ha
  rw [scope_own hm] at ha
  exact ha

/-- What inhabiting a declared object type says about the keys. -/
theorem inhabits_keys {decls : List TsDecl} (hn : (decls.map TsDecl.name).Nodup)
    {env : String → JVal → Prop} {k : Nat} {n : String} {props : List TsProp} {fs : List (String × JVal)}
    (hd : TsDecl.object n props ∈ decls) (h : Inhabits decls env (k + 1) n (.obj fs)) :
    ∀ key, key ∈ fs.map Prod.fst ↔ key ∈ props.map TsProp.name := by
  obtain ⟨objs, hr, o, ho, fs', e, _, h2, _⟩ := h
  injection e with e
  subst e
  have := resolves_unique hn hr (.inl ⟨props, hd, rfl⟩)
  subst this
  rw [List.mem_singleton] at ho
  subst ho
  exact h2

/-- The file generated for `mergeQuery`. -/
def mergeFile : TsFile := {
  docNode := "QueryDocumentNode", docModule := "doc", globals := [], globalsModule := "globals", name := "Q"
  decls := [
    .object "Q_node_link" [⟨"id", none, false, .none, [], .builtin "string"⟩],
    .object "Q_node" [⟨"link", none, false, .none, [], .declared "Q_node_link"⟩],
    .object "Q" [⟨"node", none, false, .none, [], .declared "Q_node"⟩]]
  vars := none, args := ["Q", "never"] }

/-- **C23, unsound when the bodies differ.** The schema and the query are valid GraphQL, the query
compiles, `mergeFile` is what is printed, and a server may answer with a `User` that has `link { name }`.
That answer does not inhabit the generated type, which only knows the body chosen for `Bot`. -/
theorem C23_merging_unsound :
    ValidDoc Demo.mergeJson ∧ Schema.ofJson Demo.mergeJson = .ok Demo.mergeSchema ∧
    Demo.textOf Demo.tsCfg Demo.mergeSchema [] Demo.mergeQuery = some (mergeFile.text true) ∧
    ∃ v, (∀ n, AnswersTo Demo.mergeJson [] (fun d => d.isEmpty = true) stringScalars n "Query"
        [itemsOf Demo.mergeQuery] v) ∧
      ∀ env, ¬ Inhabits mergeFile.decls env 3 mergeFile.name v := by
  refine ⟨validDocB_sound (by decide +kernel), loads_of_check (by decide +kernel), by decide +kernel,
    .obj [("node", .obj [("link", .obj [("name", .str "x")])])],
    answersB_sound _ _ (fun d => d.isEmpty) 9 "Query" _ _ (by decide +kernel), ?_⟩
  intro env h
  have hn : (mergeFile.decls.map TsDecl.name).Nodup := by decide
  have h : Inhabits mergeFile.decls env 3 "Q" _ := h
  obtain ⟨fs, x, e, hx, h⟩ := inhabits_below hn (k := 2)
    (props := [⟨"node", none, false, .none, [], .declared "Q_node"⟩]) (by simp [mergeFile]) h
    (List.mem_singleton.2 rfl) (m := "Q_node") (by decide +kernel) (by decide)
  injection e with e
  subst e
  simp only [List.mem_singleton, Prod.mk.injEq, true_and] at hx
  subst hx
  obtain ⟨fs, x, e, hx, h⟩ := inhabits_below hn (k := 1)
    (props := [⟨"link", none, false, .none, [], .declared "Q_node_link"⟩]) (by simp [mergeFile]) h
    (List.mem_singleton.2 rfl) (m := "Q_node_link") (by decide +kernel) (by decide)
  injection e with e
  subst e
  simp only [List.mem_singleton, Prod.mk.injEq, true_and] at hx
  subst hx
  have := inhabits_keys hn (props := [⟨"id", none, false, .none, [], .builtin "string"⟩])
    (by simp [mergeFile]) h "id"
  simp at this

/-- The file generated for `skippedQuery`. -/
def skipFile : TsFile := {
  docNode := "QueryDocumentNode", docModule := "doc", globals := [], globalsModule := "globals", name := "Q"
  decls := [
    .object "Q_node" [⟨"id", none, false, .none, [], .builtin "string"⟩],
    .object "Q" [⟨"node", none, false, .none, [], .declared "Q_node"⟩]]
  vars := none, args := ["Q", "never"] }

/-- Directives with `@skip(if: true)` do not apply. -/
def notSkipped (dirs : List Directive) : Bool :=
  dirs.all (fun d => !(decide (d.name = "skip") && decide (("if", Value.bool true) ∈ d.args)))

/-- **C27, its consequence.** For a field under `@skip(if: true)` the answer lacks the key, and does not
inhabit the generated type. -/
theorem C27_skipped_answer_not_admitted :
    ValidDoc Demo.mergeJson ∧ Schema.ofJson Demo.mergeJson = .ok Demo.mergeSchema ∧
    Demo.textOf Demo.tsCfg Demo.mergeSchema [] Demo.skippedQuery = some (skipFile.text true) ∧
    ∃ v, (∀ n, AnswersTo Demo.mergeJson [] (fun d => notSkipped d = true) stringScalars n "Query"
        [itemsOf Demo.skippedQuery] v) ∧
      ∀ env, ¬ Inhabits skipFile.decls env 2 skipFile.name v := by
  refine ⟨validDocB_sound (by decide +kernel), loads_of_check (by decide +kernel), by decide +kernel,
    .obj [("node", .obj [])],
    answersB_sound _ _ notSkipped 9 "Query" _ _ (by decide +kernel), ?_⟩
  intro env h
  have hn : (skipFile.decls.map TsDecl.name).Nodup := by decide
  have h : Inhabits skipFile.decls env 2 "Q" _ := h
  obtain ⟨fs, x, e, hx, h⟩ := inhabits_below hn (k := 1)
    (props := [⟨"node", none, false, .none, [], .declared "Q_node"⟩]) (by simp [skipFile]) h
    (List.mem_singleton.2 rfl) (m := "Q_node") (by decide +kernel) (by decide)
  injection e with e
  subst e
  simp only [List.mem_singleton, Prod.mk.injEq, true_and] at hx
  subst hx
  have := inhabits_keys hn (props := [⟨"id", none, false, .none, [], .builtin "string"⟩])
    (by simp [skipFile]) h "id"
  simp at this

end Qlc
