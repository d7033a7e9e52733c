import Verif.Lemmas.Exact
import Verif.Props.EndToEnd
/-
Property C92: the generated data type admits exactly the possible responses.
-/
set_option autoImplicit false

namespace Qlc
open Spec

variable {doc : JSchema} {schema : Schema} {frags : Frags}

/-- In the globals module an enum admits its values only. -/
theorem enum_of_module {cfg : TsConfig} {G : String → Prop} {g : List TsStmt} (hm : GlobalsModule cfg doc G g)
    {env : String → JVal → Prop} {n : String} (hk : kindNamed doc n = some "ENUM") {k : Nat} {v : JVal}
    (h : ModuleAdmits g env (k + 1) n v) : ∃ s ∈ enumValuesOf doc n, v = .str s := by
  rcases h with ⟨ms, h1, e, he, rfl⟩ | ⟨body, hb, _⟩
  · obtain ⟨n', _, hst⟩ := hm.only _ h1
    have := globalStmt_name hst (n' := n) (by simp [TsStmt.exports])
    subst this
    rcases hst with ⟨_, vs, hp, _, e1⟩ | ⟨hk', _⟩
    · injection e1 with _ e2
      subst e2
      obtain ⟨s, hs, rfl⟩ := List.mem_map.1 he
      exact ⟨s, hp.mem_iff.1 hs, rfl⟩
    · rw [hk] at hk'; simp at hk'
  · obtain ⟨n', _, hst⟩ := hm.only _ hb
    have := globalStmt_name hst (n' := n) (by simp [TsStmt.exports])
    subst this
    rcases hst with ⟨_, vs, _, _, e1⟩ | ⟨hk', _⟩
    · exact TsStmt.noConfusion e1
    · rw [hk] at hk'; simp at hk'

theorem leaf_of_enum {scalars : String → JVal → Prop} {n : String} {v : JVal}
    (h : ∃ s ∈ enumValuesOf doc n, v = .str s) : LeafValue doc scalars "ENUM" n v := by
  obtain ⟨s, hs, rfl⟩ := h
  unfold LeafValue
  rw [if_pos rfl]
  unfold enumValuesOf at hs
  cases hj : typeNamed doc n with
  | none => rw [hj] at hs; simp at hs
  | some j =>
    rw [hj] at hs
    cases hvs : j.enumValues with
    | none => simp [hvs] at hs
    | some vs => exact ⟨j, vs, s, rfl, hvs, by simpa [hvs] using hs, rfl⟩

/-- **C92.** The exported data type of the text written for an operation, read as TypeScript together with the
globals text that it imports, admits nothing but what a server may answer to the operation. -/
theorem C92_admits_only_answers (ω ω' : Hash) (fuel fuel' : Nat) (showDep : Bool) (cfg : TsConfig)
    (hv : ValidDoc doc) (hvi : ValidInputs doc) (hs : Schema.ofJson doc = .ok schema)
    (hbad : NoNonNullListInNullableList doc) (hnn : NoNarrowing doc)
    (hw : Writable cfg doc) (hgw : GlobalsWritable cfg doc) (hsa : ScalarsApart cfg doc)
    (hfr : FragsValid schema frags) (d : Definition) (op : Operation) (ws : List Warning) (P : String)
    (hns : isSubscription d = false) (hP : serverRoot d = some P)
    (h : Operation.compile ω fuel ⟨schema, showDep, frags⟩ d = some (.ok op, ws))
    (hone : OneTypePerKey schema frags P [itemsOf d]) (hagree : LookAlikesAgree schema frags P [itemsOf d])
    (htn : OneTypenameKey schema frags P [itemsOf d])
    (applies : List Directive → Prop) (hu : Unconditional applies (itemsOf d))
    (huf : FragsApply applies frags)
    (hT : ∀ P, ∀ T ∈ objectTypes doc P, Plain T)
    (hpk : ∀ k ∈ compositeKeys (itemsOf d), Plain k)
    (hpkf : ∀ name fd, AMap.get? frags name = some fd → ∀ k ∈ compositeKeys fd.items, Plain k)
    (hmain : IsBinding op.name)
    (hk : ∀ k ∈ fieldKeys (itemsOf d), IsGqlName k)
    (hkf : ∀ name fd, AMap.get? frags name = some fd → ∀ k ∈ fieldKeys fd.items, IsGqlName k)
    (hvs : VarsWritable schema (op.variables.getD []))
    (hout : ∀ n, Outside cfg doc n → ¬ Generated op.name n ∧ n ≠ op.name ++ "Variables")
    (scalars env : String → JVal → Prop) (ht : TightScalars cfg doc scalars env)
    (c : Compile) (hc : compileIr ω op cfg schema = .ok c)
    (used : List String) (hused : ∀ n ∈ c.globalTypesUsed, n ∈ used)
    (text : String) (hg : compileGlobals ω' fuel' cfg schema used = some (.ok text)) :
    ∃ m g, parseModule c.contents = some m ∧ parseModule text = some g ∧
      ∀ v, (∀ n, ModuleAdmits m (linked g env) n (dataName d) v) →
        ∃ T ∈ objectTypes doc P, ∀ n, AnswersTo doc frags applies scalars n T [itemsOf d] v := by
  have hcon := loaded_consistent hv hs
  obtain ⟨names, g, hpg, _, g3, g4⟩ := C78_globals_are_a_module ω' fuel' used hs hvi hgw text hg
  have hm := globalsModule_of hs hvi g3 g4
  have hP' := root_of_server hns hP h
  obtain ⟨_, _, _, hrefs, hparse⟩ := module_of_compile (Q := FromSchema cfg doc) hv hs hw hP' h hmain hk
    hkf hvs (fun _ h => h) hc
  have hsame := (C23_same_bodies_iff ω fuel showDep hcon hfr d op ws P hP' h hone).2 hagree
  have htree := C10_generated_tree ω fuel showDep hcon hfr d op ws P hP' h
  have hdist := C21_properties_listed_once ω fuel showDep hcon hfr d op ws P hP' h hone
  have htn' : OneTypename op.collection := oneTypename_of_key hv hs ⟨htree, hdist⟩ htn
  -- the enums as the schema has them
  let env2 : String → JVal → Prop := fun n v =>
    if kindNamed doc n = some "ENUM" then ∃ s ∈ enumValuesOf doc n, v = .str s else linked g env n v
  obtain ⟨m, hpm, hall⟩ := C76_text_admits_exactly ω fuel showDep cfg hv hs hw hfr d op ws P hP' h hone hsame htn'
    (fun Q T hTQ => hT Q T (by rw [← loaded_possible hs]; exact hTQ)) hpk hpkf hmain hk hkf hvs hout env2 c hc
  rw [hparse] at hpm
  injection hpm with hpm
  subst hpm
  refine ⟨_, g, hparse, hpg, ?_⟩
  intro v hadm
  have htight2 : TightScalars cfg doc scalars env2 := by
    intro n v hn hev
    have h1 := (hsa n hn).1
    change if _ then _ else _ at hev
    rw [if_neg h1] at hev
    unfold linked at hev
    rw [if_neg] at hev
    · exact ht n v hn hev
    · rw [hm.exports]
      intro hG
      rcases hm.kind hG with h | h
      · exact h1 h
      · exact (hsa n hn).2.1 h
  have hte2 : ∀ n v, kindNamed doc n = some "ENUM" → env2 n v → LeafValue doc scalars "ENUM" n v := by
    intro n v hn hev
    change if _ then _ else _ at hev
    rw [if_pos hn] at hev
    exact leaf_of_enum hev
  have htr := (hall v).1 (fun n => by
    refine moduleAdmits_env ?_ n _ v (hadm n)
    intro n body hb r hr hnot v hev
    show if _ then _ else _
    split
    · rename_i hkr
      have hnd : r ∉ (tsFile ω cfg schema op).declared := by rwa [mem_exports] at hnot
      have hur := alias_enum_used hs hw hsa hc hrefs hb hr hkr hnd
      have hG : GlobalName schema used r := .used (hused r hur)
      unfold linked at hev
      rw [if_pos ((hm.exports r).2 hG)] at hev
      exact enum_of_module hm hkr (hev 1)
    · exact hev)
  refine one_for_all (p := fun k T => AnswersTo doc frags applies scalars k T [itemsOf d] v)
    (fun k n T hkn h => answers_le hkn h) _ ?_
  intro k
  refine tree_answers hv hs hbad hnn huf htight2 hte2 k P [itemsOf d] op.collection (htree (k + 1)) hdist ?_ v
    (htr (k + 1))
  intro s hs'
  rw [List.mem_singleton] at hs'
  subst hs'
  exact hu

/-- **C92.** Under the additional conditions of C81, the type admits exactly what a server may answer. -/
theorem C92_admits_exactly (ω ω' : Hash) (fuel fuel' : Nat) (showDep : Bool) (cfg : TsConfig)
    (hs : Schema.ofJson doc = .ok schema) (S : SchemaFit cfg doc) (hfr : FragsValid schema frags)
    (d : Definition) (op : Operation) (ws : List Warning) (P : String) (applies : List Directive → Prop)
    (h : Operation.compile ω fuel ⟨schema, showDep, frags⟩ d = some (.ok op, ws))
    (D : DocumentFit cfg doc schema frags d applies P)
    (scalars env : String → JVal → Prop) (he : ScalarEnv cfg doc scalars env)
    (E : ExactFit cfg doc schema frags d P scalars env)
    (c : Compile) (hc : compileIr ω op cfg schema = .ok c)
    (used : List String) (hused : ∀ n ∈ c.globalTypesUsed, n ∈ used)
    (text : String) (hg : compileGlobals ω' fuel' cfg schema used = some (.ok text)) :
    ∃ m g, parseModule c.contents = some m ∧ parseModule text = some g ∧
      ∀ v, (∀ n, ModuleAdmits m (linked g env) n (dataName d) v) ↔
        ∃ T ∈ objectTypes doc P, ∀ n, AnswersTo doc frags applies scalars n T [itemsOf d] v := by
  have hcon := loaded_consistent S.valid hs
  have hname := name_of_compiled hcon h
  have hmain : IsBinding op.name := by rw [hname]; exact D.name
  have hvs := fit_variables hs S D h
  have hP := root_of_server D.notSubscription D.root h
  have hout : ∀ n, Outside cfg doc n → ¬ Generated op.name n ∧ n ≠ op.name ++ "Variables" :=
    fun n hn => by rw [hname]; exact D.apart n (.inl hn)
  obtain ⟨m, g, hm, hgp, honly⟩ := C92_admits_only_answers ω ω' fuel fuel' showDep cfg S.valid S.validInputs hs
    S.lists E.noNarrowing S.writable S.globalsWritable S.scalarsApart hfr d op ws P D.notSubscription D.root h
    D.oneType D.lookAlikes E.oneTypename applies D.unconditional D.fragsApply E.plainTypes E.plainKeys
    E.plainFragmentKeys hmain D.keys D.fragmentKeys hvs hout scalars env E.tight c hc used hused text hg
  have hsame := (C23_same_bodies_iff ω fuel showDep hcon hfr d op ws P hP h D.oneType).2 D.lookAlikes
  obtain ⟨m', g', hm', hgp', hall⟩ := C81_responses_inhabit_both_texts ω ω' fuel fuel' showDep cfg S.valid
    S.validInputs hs S.lists S.writable S.globalsWritable S.scalarsApart hfr d op ws P D.notSubscription D.root h
    D.oneType hsame applies D.unconditional D.fragsApply hmain D.keys D.fragmentKeys hvs hout scalars env he c hc
    used hused text hg
  rw [hm] at hm'
  rw [hgp] at hgp'
  cases hm'
  cases hgp'
  exact ⟨m, g, hm, hgp, fun v => ⟨honly v, fun ⟨T, hT, hans⟩ => hall T hT v hans⟩⟩

/-- The printed names of the scalars admit exactly their values. -/
theorem scalars_iff {cfg : TsConfig} {scalars env : String → JVal → Prop} (he : ScalarEnv cfg doc scalars env)
    (ht : TightScalars cfg doc scalars env) (n : String) (v : JVal) (hn : kindNamed doc n = some "SCALAR") :
    env (scalarSpelling cfg n) v ↔ LeafValue doc scalars "SCALAR" n v :=
  ⟨ht n v hn, scalarEnv_leaf he hn⟩

section
variable {ω : Path → Hash} {ω' : Hash} {fuel : Nat} {ext : Ext} {cfg : CompileConfig}
  {rootPath : Path} {root : Entry} {threads : Nat} {w w' : World} {s : PoolSt World} {ms : List Msg}

/-- **C92, end to end.** After a complete run with exit status 0, however the threads were scheduled: the data
type in the output file of a document that is fit (C89) and exactly so admits exactly what a server may answer,
and its variables type exactly the objects of variables that a server takes, when imported names mean what the
globals file on the disk says. -/
theorem C92_successful_run (hr : NoOutputRead w cfg root) (hd : OutputsDistinct w root)
    (hg : GlobalsApart w cfg rootPath root)
    (R : RunsTo ω ω' fuel ext cfg schema rootPath root threads w s ms w') (paint : Paint)
    (h0 : (printExitInfo paint ms).code = 0)
    (hs : Schema.ofJson doc = .ok schema) (S : SchemaFit cfg.toTsConfig doc)
    (scalars env : String → JVal → Prop) (he : ScalarEnv cfg.toTsConfig doc scalars env) :
    ∃ g : List TsStmt,
      ((∃ n, UsedGlobal ω fuel ext cfg schema w root n) → HoldsModule w' (globalsId w cfg rootPath) g) ∧
      ((¬ ∃ n, UsedGlobal ω fuel ext cfg schema w root n) → g = []) ∧
      ∀ p, FoundIn root p → ∃ contents d st op ws c,
        Generates (ω p) fuel ext cfg schema w p contents d st op ws c ∧
        w'.disk (w.resolve (outputPath p)) = .ok c.contents ∧
        (ImportsInTree w cfg root p contents → ∀ applies P, DocumentFit cfg.toTsConfig doc schema
            (parseForeignFragments (ω p) ext p st.imports st.messages).1 d applies P →
          ExactFit cfg.toTsConfig doc schema
            (parseForeignFragments (ω p) ext p st.imports st.messages).1 d P scalars env →
          ∃ m, HoldsModule w' (w.resolve (outputPath p)) m ∧
            (∀ v, (∀ n, ModuleAdmits m (linked g env) n (dataName d) v) ↔ ∃ T ∈ objectTypes doc P,
              ∀ n, AnswersTo doc (parseForeignFragments (ω p) ext p st.imports st.messages).1 applies
                scalars n T [itemsOf d] v) ∧
            (varsOf d ≠ [] → ∀ v, (∀ n, ModuleAdmits m (linked g env) n (dataName d ++ "Variables") v) ↔
              VariablesOf doc scalars (varsOf d) v)) := by
  have hcon := loaded_consistent S.valid hs
  obtain ⟨ω₂, fuel₂, text, g, hgc, hgp, g1, g2, hfiles⟩ := run_texts hr hd hg R paint h0 hs S
  refine ⟨g, g1, g2, ?_⟩
  intro p hp
  obtain ⟨contents, d, st, op, ws, c, G, hdisk, hsub⟩ := hfiles p hp
  refine ⟨contents, d, st, op, ws, c, G, hdisk, ?_⟩
  intro hin applies P D E
  have hfr := C90_imported_fragments_valid hr hd hg R paint h0 hcon p contents d st op ws c G hin
  obtain ⟨m, g', hm, hg', hiff⟩ := C92_admits_exactly (ω p) ω₂ fuel fuel₂ cfg.showDeprecationWarnings
    cfg.toTsConfig hs S hfr d op ws P applies G.valid D scalars env he E c G.generated s.aggregate.2 hsub text hgc
  rw [hgp] at hg'
  cases hg'
  refine ⟨m, ⟨_, hdisk, hm⟩, hiff, ?_⟩
  intro hne
  have hname := name_of_compiled hcon G.valid
  obtain ⟨m', g', hm', hg', hvars⟩ := C80_variables_admit_exactly (ω p) ω₂ fuel fuel₂
    cfg.showDeprecationWarnings cfg.toTsConfig S.valid S.validInputs S.inputLists hs S.writable S.globalsWritable
    S.scalarsApart d op ws P (root_of_server D.notSubscription D.root G.valid) G.valid
    (by rw [hname]; exact D.name) D.keys D.fragmentKeys hne D.variablesValid D.variableNames
    (fun n hn => by rw [hname]; exact D.apart n hn) scalars env (scalars_iff he E.tight) c G.generated
    s.aggregate.2 hsub text hgc
  rw [hm] at hm'
  rw [hgp] at hg'
  cases hm'
  cases hg'
  exact hvars

end

/-! ### A concrete case -/

/-- Meanings for the scalars of the demo schema. -/
def tightEnv (n : String) (v : JVal) : Prop :=
  match n with
  | "string" => ∃ s, v = .str s
  | "number" => ∃ s, v = .num s
  | "boolean" => ∃ b, v = .bool b
  | "any" => True
  | _ => ∃ s, v = .str s

theorem demo_scalars {n : String} (hn : kindNamed Demo.respJson n = some "SCALAR") :
    n ∈ ["Date", "Int", "String", "ID"] := by
  have : (Demo.respJson.types.map JType.name).all (fun n => if kindNamed Demo.respJson n = some "SCALAR" then
      decide (n ∈ ["Date", "Int", "String", "ID"]) else true) = true := by decide +kernel
  have := (List.all_eq_true.1 this) n (kindNamed_mem hn)
  rw [if_pos hn, decide_eq_true_eq] at this
  exact this

theorem tightEnv_for : ScalarEnv Demo.tsCfg Demo.respJson stringScalars tightEnv where
  string := fun s => ⟨s, rfl⟩
  number := fun s => ⟨s, rfl⟩
  boolean := fun b => ⟨b, rfl⟩
  any := fun _ => trivial
  custom := by
    intro n v hn hv
    have := demo_scalars hn
    simp only [List.mem_cons, List.not_mem_nil, or_false] at this
    rcases this with rfl | rfl | rfl | rfl <;> exact hv

theorem tightEnv_tight : TightScalars Demo.tsCfg Demo.respJson stringScalars tightEnv := by
  intro n v hn h
  have := demo_scalars hn
  simp only [List.mem_cons, List.not_mem_nil, or_false] at this
  rcases this with rfl | rfl | rfl | rfl
  · have h : ∃ s, v = .str s := h
    exact show (∃ s, v = .str s) ∧ v ≠ .null from ⟨h, by obtain ⟨s, rfl⟩ := h; simp⟩
  · exact h
  · exact h
  · exact h

theorem lastNamed_mem_names {α : Type} {name : α → String} {n : String} {l : List α} {a : α}
    (h : lastNamed name n l = some a) : n ∈ l.map name :=
  List.mem_map.2 ⟨a, (lastNamed_name h).1, (lastNamed_name h).2⟩

/-- A check of `NoNarrowing`. -/
def noNarrowingB (doc : JSchema) : Bool :=
  (doc.types.map JType.name).all (fun P => (objectTypes doc P).all (fun T =>
    ((declaredFields doc P).map JField.name).all (fun f =>
      (fieldType doc P f).isNone || decide (fieldType doc T f = fieldType doc P f))))

theorem noNarrowingB_sound (h : noNarrowingB doc = true) : NoNarrowing doc := by
  intro P T hT name k t hf
  unfold noNarrowingB at h
  simp only [List.all_eq_true, Bool.or_eq_true, decide_eq_true_eq] at h
  have hm : name ∈ (declaredFields doc P).map JField.name := by
    unfold fieldType at hf
    cases hl : lastNamed JField.name name (declaredFields doc P) with
    | none => rw [hl] at hf; simp at hf
    | some j => exact lastNamed_mem_names hl
  rcases h P (objectTypes_mem hT) T hT name hm with h | h
  · rw [hf] at h; simp at h
  · rw [h]; exact hf

theorem demo_exact {ws : List Warning} {op : Operation}
    (h : Operation.compile .inOrder 9 ⟨Demo.respSchema, true, Demo.ctx.fragments⟩ Demo.query
      = some (.ok op, ws)) :
    ExactFit Demo.tsCfg Demo.respJson Demo.respSchema Demo.ctx.fragments Demo.query "Query" stringScalars
      tightEnv := by
  obtain ⟨op', ws', c, h', hc, hd, hsame, htn, _⟩ := respChecks_sound resp_checks
  rw [h] at h'
  cases h'
  exact
    { noNarrowing := noNarrowingB_sound (by decide +kernel)
      oneTypename := key_of_oneTypename resp_valid resp_loads
        ⟨C10_generated_tree .inOrder 9 true (loaded_consistent resp_valid resp_loads) resp_frags_valid
          Demo.query op ws "Query" rfl h, hd⟩ htn
      tight := tightEnv_tight
      plainTypes := fun P T hT => by
        have := objectTypesB_sound (q := fun T => decide (Plain T)) (doc := Demo.respJson) (by decide +kernel) P T hT
        simpa using this
      plainKeys := by decide
      plainFragmentKeys := by intro name fd hg; obtain rfl := demo_frag hg; decide }

/-- The demo query, with an interface, inline fragments, a spread, an enum and a custom scalar: the type in the
two texts admits exactly the answers, one of which is `respValue`. -/
theorem C92_demo : ∃ op ws c text, Operation.compile .inOrder 9 ⟨Demo.respSchema, true, Demo.ctx.fragments⟩
      Demo.query = some (.ok op, ws) ∧ compileIr .inOrder op Demo.tsCfg Demo.respSchema = .ok c ∧
    compileGlobals .reversed 9 Demo.tsCfg Demo.respSchema ["Role", "Filter"] = some (.ok text) ∧
    ∃ m g, parseModule c.contents = some m ∧ parseModule text = some g ∧
      (∀ v, (∀ n, ModuleAdmits m (linked g tightEnv) n "Q" v) ↔ ∃ T ∈ objectTypes Demo.respJson "Query",
        ∀ n, AnswersTo Demo.respJson Demo.ctx.fragments (fun d => d.isEmpty = true) stringScalars n T
          [itemsOf Demo.query] v) ∧
      ∀ n, ModuleAdmits m (linked g tightEnv) n "Q" respValue := by
  obtain ⟨op, ws, c, h, hc, _⟩ := respChecks_sound resp_checks
  obtain ⟨text, hg⟩ := demo_globals
  refine ⟨op, ws, c, text, h, hc, hg, ?_⟩
  have hch := module_checks
  unfold moduleChecks at hch
  rw [h] at hch
  simp only [hc, Bool.and_eq_true, decide_eq_true_eq] at hch
  have hused : ∀ n ∈ c.globalTypesUsed, n ∈ ["Role", "Filter"] := by rw [hch.2]; exact fun _ h => h
  obtain ⟨m, g, hm, hg', hiff⟩ := C92_admits_exactly .inOrder .reversed 9 9 true Demo.tsCfg resp_loads full_schema
    resp_frags_valid Demo.query op ws "Query" _ h (full_document h) stringScalars tightEnv tightEnv_for
    (demo_exact h) c hc _ hused text hg
  exact ⟨m, g, hm, hg', hiff, (hiff _).2 ⟨"Query", by decide +kernel, resp_answers⟩⟩

/-! ### Why the conditions are needed -/

/-- Introspection data in which `User` narrows the type of a field of the interface `Node`, with a custom scalar. -/
def Demo.exactJson : JSchema := ⟨[
  ⟨"OBJECT", "Query", none, none, none, some [Demo.fld "node" (Demo.nn (Demo.t "INTERFACE" "Node")),
    Demo.fld "when" (Demo.nn (Demo.t "SCALAR" "Date"))], none⟩,
  ⟨"INTERFACE", "Node", none, some ["User"], none, some [Demo.fld "name" (Demo.t "SCALAR" "String")], none⟩,
  ⟨"INTERFACE", "Actor", none, some ["User", "Bot"], none, some [Demo.fld "id" (Demo.t "SCALAR" "String")], none⟩,
  ⟨"OBJECT", "User", none, none, none, some [Demo.fld "name" (Demo.nn (Demo.t "SCALAR" "String")),
    Demo.fld "id" (Demo.t "SCALAR" "String")], none⟩,
  ⟨"OBJECT", "Bot", none, none, none, some [Demo.fld "id" (Demo.t "SCALAR" "String")], none⟩,
  ⟨"OBJECT", "Mutation", none, none, none, some [Demo.fld "actor" (Demo.nn (Demo.t "INTERFACE" "Actor"))], none⟩,
  ⟨"SCALAR", "String", none, none, none, none, none⟩,
  ⟨"SCALAR", "Date", none, none, none, none, none⟩]⟩

/-- The schema loaded from it. -/
def Demo.exactSchema : Schema := match Schema.ofJson Demo.exactJson with | .ok s => s | .error _ => []

/-- `query Q { node { name } }`. -/
def Demo.exactQuery : Definition := .operation .query ⟨1, 1⟩ (some "Q") [] []
  [.field ⟨1, 11⟩ none "node" [] [] [Demo.leaf 1 18 "name"]]

/-- `query Q { when }`. -/
def Demo.anyQuery : Definition := .operation .query ⟨1, 1⟩ (some "Q") [] [] [Demo.leaf 1 11 "when"]

/-- `mutation Q { actor { a: __typename b: __typename } }`. -/
def Demo.twiceQuery : Definition := .operation .mutation ⟨1, 1⟩ (some "Q") [] []
  [.field ⟨1, 14⟩ none "actor" [] [] [.field ⟨1, 22⟩ (some "a") "__typename" [] [] [],
    .field ⟨1, 36⟩ (some "b") "__typename" [] [] []]]

theorem narrow_valid : ValidDoc Demo.exactJson := validDocB_sound (by decide +kernel)

/-- What is collected from fields only. -/
theorem collect_fields {T : String} {items : List Selection} (ho : OnlyFields items) : ∀ {L : List Wanted},
    Collect doc frags (fun _ => True) T items L →
    L = items.filterMap (fun
      | .field _ al name _ _ sub => some ⟨al.getD name, name, sub⟩
      | _ => none) := by
  induction ho with
  | nil => intro L h; cases h; rfl
  | cons _ _ _ ih =>
    intro L h
    cases h with
    | leftOutField hn _ => exact absurd trivial hn
    | field _ h => rw [ih h]; rfl

/-- The value under a key that is asked for by one field. -/
theorem answer_field {scalars : String → JVal → Prop} {k : Nat} {T : String} {items : List Selection}
    (ho : OnlyFields items) {fs : List (String × JVal)}
    (h : AnswersTo doc frags (fun _ => True) scalars (k + 1) T [items] (.obj fs)) (w : Wanted)
    (hw : (items.filterMap (fun
      | .field _ al name _ _ sub => some (⟨al.getD name, name, sub⟩ : Wanted)
      | _ => none)).filter (fun w' => decide (w'.key = w.key)) = [w]) :
    ∃ x, (w.key, x) ∈ fs ∧ ValueFor (AnswersTo doc frags (fun _ => True) scalars k) doc scalars T w [] x := by
  obtain ⟨L, ⟨Ls, hF, rfl⟩, fs', e, _, _, hvals⟩ := h
  cases e
  cases hF with
  | cons a rest =>
    cases rest
    have e := collect_fields ho a
    subst e
    rw [List.flatten_cons, List.flatten_nil, List.append_nil] at hvals
    have hin : w ∈ items.filterMap (fun
      | .field _ al name _ _ sub => some (⟨al.getD name, name, sub⟩ : Wanted)
      | _ => none) := by
      have : w ∈ [w] := by simp
      rw [← hw] at this
      exact (List.mem_filter.1 this).1
    obtain ⟨x, hx, r, rest, hr, hval⟩ := hvals w hin
    rw [hw] at hr
    injection hr with h1 h2
    subst h1 h2
    exact ⟨x, hx, hval⟩

theorem onlyFields_leaf {pos : Pos} {al : Option String} {name : String} {rest : List Selection}
    (h : OnlyFields rest) : OnlyFields (.field pos al name [] [] [] :: rest) := .cons .nil h

/-- The module that is read from a generated text. -/
theorem module_of_text {o : Option String} {m : List TsStmt}
    (h : o.any (fun t => decide (parseModule t = some m)) = true) : ∃ t, o = some t ∧ parseModule t = some m := by
  obtain ⟨t, h1, h2⟩ := of_text h
  exact ⟨t, h1, of_decide_eq_true h2⟩

/-- A type alias of an object type admits an object whose properties have the types of the members. -/
theorem admits_object {m : List TsStmt} {env : String → JVal → Prop} {n : String} {ms : List TsMember}
    (hm : TsStmt.typeAlias n (.object ms) ∈ m) {fs : List (String × JVal)} (hnd : (fs.map Prod.fst).Nodup)
    (hk : ∀ key ∈ fs.map Prod.fst, key ∈ ms.map TsMember.name) {k : Nat}
    (h : ∀ p ∈ ms, ∃ x, (p.name, x) ∈ fs ∧ TsAdmits (fun n' v' =>
      if n' ∈ m.flatMap TsStmt.exports then ModuleAdmits m env k n' v' else env n' v') p.type x) :
    ModuleAdmits m env (k + 1) n (.obj fs) :=
  .inr ⟨_, hm, fs, rfl, hnd, hk, fun p hp => .inl (h p hp)⟩

/-- **C92, why interfaces must not be narrowed.** The type of a field is taken from the interface on which it
is selected: when every implementation makes the field non-null, the generated type still admits null, which no
server answers. -/
theorem C92_narrowing_witness : ValidDoc Demo.exactJson ∧
    ∃ text m v, Demo.textOf Demo.tsCfg Demo.exactSchema [] Demo.exactQuery = some text ∧
      parseModule text = some m ∧ (∀ env k, ModuleAdmits m env k "Q" v) ∧
      ∀ scalars, ¬ ∀ n, AnswersTo Demo.exactJson [] (fun _ => True) scalars n "Query"
        [itemsOf Demo.exactQuery] v := by
  refine ⟨narrow_valid, ?_⟩
  obtain ⟨t, h1, h2⟩ := module_of_text (o := Demo.textOf Demo.tsCfg Demo.exactSchema [] Demo.exactQuery)
    (m := [.importType ["QueryDocumentNode"] "doc",
      .typeAlias "Q_node" (.object [⟨true, "name", false, .union (.ref "string") .null⟩]),
      .typeAlias "Q" (.object [⟨true, "node", false, .ref "Q_node"⟩]),
      .declare "graphqlDocument" "QueryDocumentNode" [.ref "Q", .ref "never"],
      .exportDefault "graphqlDocument"]) (by decide +kernel)
  refine ⟨t, _, .obj [("node", .obj [("name", .null)])], h1, h2, ?_, ?_⟩
  · intro env k
    have hin : ∀ k, ModuleAdmits [.importType ["QueryDocumentNode"] "doc",
      .typeAlias "Q_node" (.object [⟨true, "name", false, .union (.ref "string") .null⟩]),
      .typeAlias "Q" (.object [⟨true, "node", false, .ref "Q_node"⟩]),
      .declare "graphqlDocument" "QueryDocumentNode" [.ref "Q", .ref "never"],
      .exportDefault "graphqlDocument"] env k "Q_node" (.obj [("name", .null)]) := by
      rintro (_ | k)
      · trivial
      · refine admits_object (ms := [⟨true, "name", false, .union (.ref "string") .null⟩]) (by simp) (by simp)
          (by simp) ?_
        intro p hp
        obtain rfl := List.mem_singleton.1 hp
        exact ⟨.null, by simp, .inr rfl⟩
    cases k with
    | zero => trivial
    | succ k =>
      refine admits_object (ms := [⟨true, "node", false, .ref "Q_node"⟩]) (by simp) (by simp) (by simp) ?_
      intro p hp
      obtain rfl := List.mem_singleton.1 hp
      refine ⟨_, List.mem_singleton.2 rfl, ?_⟩
      rw [TsAdmits]
      rw [if_pos (by decide)]
      exact hin k
  · intro scalars h
    obtain ⟨x, hx, hval⟩ := answer_field (.cons (onlyFields_leaf .nil) .nil) (h 2)
      ⟨"node", "node", [Demo.leaf 1 18 "name"]⟩ (by rfl)
    simp only [List.mem_singleton, Prod.mk.injEq, true_and] at hx
    subst hx
    rcases hval with ⟨hn, _⟩ | ⟨_, kind, t, hf, hadm⟩
    · exact absurd hn (by decide)
    · have e : fieldType Demo.exactJson "Query" "node" = some ("INTERFACE", .nonNull (.named "Node")) := by
        decide +kernel
      change fieldType Demo.exactJson "Query" "node" = _ at hf
      rw [e] at hf
      cases hf
      obtain ⟨_, hadm | hadm⟩ := hadm
      · exact JVal.noConfusion hadm
      · rw [if_pos (by decide)] at hadm
        obtain ⟨T, hT, hans⟩ := hadm
        have eT : objectTypes Demo.exactJson "Node" = ["User"] := by decide +kernel
        have hT : T ∈ objectTypes Demo.exactJson "Node" := hT
        rw [eT, List.mem_singleton] at hT
        subst hT
        obtain ⟨x, hx, hval⟩ := answer_field (onlyFields_leaf .nil) hans ⟨"name", "name", []⟩ (by rfl)
        simp only [List.mem_singleton, Prod.mk.injEq, true_and] at hx
        subst hx
        rcases hval with ⟨hn, _⟩ | ⟨_, kind, t, hf, hadm⟩
        · exact absurd hn (by decide)
        · have e : fieldType Demo.exactJson "User" "name" = some ("SCALAR", .nonNull (.named "String")) := by
            decide +kernel
          change fieldType Demo.exactJson "User" "name" = _ at hf
          rw [e] at hf
          cases hf
          exact hadm.1 rfl

/-- The default configuration for scalars. -/
def Demo.anyCfg : TsConfig := { Demo.tsCfg with bottomTypeConfig := .defaultBottomType }

/-- **C92, why scalars must be tight.** Without the option for custom scalars, a non-null field of a custom
scalar has the type `any`, which admits null. -/
theorem C92_any_witness : ∃ text m v, Demo.textOf Demo.anyCfg Demo.exactSchema [] Demo.anyQuery = some text ∧
      parseModule text = some m ∧ (∀ env : String → JVal → Prop, (∀ v, env "any" v) → ∀ k, ModuleAdmits m env k "Q" v) ∧
      ∀ scalars, ¬ ∀ n, AnswersTo Demo.exactJson [] (fun _ => True) scalars n "Query"
        [itemsOf Demo.anyQuery] v := by
  obtain ⟨t, h1, h2⟩ := module_of_text (o := Demo.textOf Demo.anyCfg Demo.exactSchema [] Demo.anyQuery)
    (m := [.importType ["QueryDocumentNode"] "doc",
      .typeAlias "Q" (.object [⟨true, "when", false, .ref "any"⟩]),
      .declare "graphqlDocument" "QueryDocumentNode" [.ref "Q", .ref "never"],
      .exportDefault "graphqlDocument"]) (by decide +kernel)
  refine ⟨t, _, .obj [("when", .null)], h1, h2, ?_, ?_⟩
  · intro env henv k
    cases k with
    | zero => trivial
    | succ k =>
      refine admits_object (ms := [⟨true, "when", false, .ref "any"⟩]) (by simp) (by simp) (by simp) ?_
      intro p hp
      obtain rfl := List.mem_singleton.1 hp
      refine ⟨_, List.mem_singleton.2 rfl, ?_⟩
      rw [TsAdmits]
      rw [if_neg (by decide)]
      exact henv _
  · intro scalars h
    obtain ⟨x, hx, hval⟩ := answer_field (onlyFields_leaf .nil) (h 1) ⟨"when", "when", []⟩ (by rfl)
    simp only [List.mem_singleton, Prod.mk.injEq, true_and] at hx
    subst hx
    rcases hval with ⟨hn, _⟩ | ⟨_, kind, t, hf, hadm⟩
    · exact absurd hn (by decide)
    · have e : fieldType Demo.exactJson "Query" "when" = some ("SCALAR", .nonNull (.named "Date")) := by
        decide +kernel
      change fieldType Demo.exactJson "Query" "when" = _ at hf
      rw [e] at hf
      cases hf
      exact hadm.1 rfl

/-- **C92, why `__typename` must be asked for once.** Object types with the same properties share a printed
type with a union of their names; a second `__typename` gets a union of its own, so that the two may disagree. -/
theorem C92_two_typenames_witness :
    ∃ text m v, Demo.textOf Demo.tsCfg Demo.exactSchema [] Demo.twiceQuery = some text ∧
      parseModule text = some m ∧ (∀ env k, ModuleAdmits m env k "Q" v) ∧
      ∀ scalars, ¬ ∀ n, AnswersTo Demo.exactJson [] (fun _ => True) scalars n "Mutation"
        [itemsOf Demo.twiceQuery] v := by
  obtain ⟨t, h1, h2⟩ := module_of_text (o := Demo.textOf Demo.tsCfg Demo.exactSchema [] Demo.twiceQuery)
    (m := [.importType ["MutationDocumentNode"] "doc",
      .typeAlias "Q_actor" (.object [⟨true, "a", false, .union (.lit "Bot") (.lit "User")⟩,
        ⟨true, "b", false, .union (.lit "Bot") (.lit "User")⟩]),
      .typeAlias "Q" (.object [⟨true, "actor", false, .ref "Q_actor"⟩]),
      .declare "graphqlDocument" "MutationDocumentNode" [.ref "Q", .ref "never"],
      .exportDefault "graphqlDocument"]) (by decide +kernel)
  refine ⟨t, _, .obj [("actor", .obj [("a", .str "Bot"), ("b", .str "User")])], h1, h2, ?_, ?_⟩
  · intro env k
    have hin : ∀ k, ModuleAdmits [.importType ["MutationDocumentNode"] "doc",
      .typeAlias "Q_actor" (.object [⟨true, "a", false, .union (.lit "Bot") (.lit "User")⟩,
        ⟨true, "b", false, .union (.lit "Bot") (.lit "User")⟩]),
      .typeAlias "Q" (.object [⟨true, "actor", false, .ref "Q_actor"⟩]),
      .declare "graphqlDocument" "MutationDocumentNode" [.ref "Q", .ref "never"],
      .exportDefault "graphqlDocument"] env k "Q_actor" (.obj [("a", .str "Bot"), ("b", .str "User")]) := by
      rintro (_ | k)
      · trivial
      · refine admits_object (ms := [⟨true, "a", false, .union (.lit "Bot") (.lit "User")⟩,
          ⟨true, "b", false, .union (.lit "Bot") (.lit "User")⟩]) (by simp) (by simp) (by simp) ?_
        intro p hp
        simp only [List.mem_cons, List.not_mem_nil, or_false] at hp
        rcases hp with rfl | rfl
        · exact ⟨_, List.mem_cons_self .., .inl rfl⟩
        · exact ⟨_, List.mem_cons_of_mem _ (List.mem_cons_self ..), .inr rfl⟩
    cases k with
    | zero => trivial
    | succ k =>
      refine admits_object (ms := [⟨true, "actor", false, .ref "Q_actor"⟩]) (by simp) (by simp) (by simp) ?_
      intro p hp
      obtain rfl := List.mem_singleton.1 hp
      refine ⟨_, List.mem_singleton.2 rfl, ?_⟩
      rw [TsAdmits]
      rw [if_pos (by decide)]
      exact hin k
  · intro scalars h
    have ho : OnlyFields [.field ⟨1, 22⟩ (some "a") "__typename" [] [] [],
      .field ⟨1, 36⟩ (some "b") "__typename" [] [] []] := onlyFields_leaf (onlyFields_leaf .nil)
    obtain ⟨x, hx, hval⟩ := answer_field (.cons ho .nil) (h 2)
      ⟨"actor", "actor", _⟩ (by rfl)
    simp only [List.mem_singleton, Prod.mk.injEq, true_and] at hx
    subst hx
    rcases hval with ⟨hn, _⟩ | ⟨_, kind, t, hf, hadm⟩
    · exact absurd hn (by decide)
    · have e : fieldType Demo.exactJson "Mutation" "actor" = some ("INTERFACE", .nonNull (.named "Actor")) := by
        decide +kernel
      change fieldType Demo.exactJson "Mutation" "actor" = _ at hf
      rw [e] at hf
      cases hf
      obtain ⟨_, hadm | hadm⟩ := hadm
      · exact JVal.noConfusion hadm
      · rw [if_pos (by decide)] at hadm
        obtain ⟨T, _, hans⟩ := hadm
        obtain ⟨x, hx, hval⟩ := answer_field ho hans ⟨"a", "__typename", []⟩ (by rfl)
        obtain ⟨y, hy, hval'⟩ := answer_field ho hans ⟨"b", "__typename", []⟩ (by rfl)
        simp at hx hy
        subst hx hy
        rcases hval with ⟨_, h1⟩ | ⟨hn, _⟩
        · rcases hval' with ⟨_, h2⟩ | ⟨hn, _⟩
          · injection h1 with h1
            injection h2 with h2
            rw [← h1] at h2
            exact absurd h2 (by decide)
          · exact hn rfl
        · exact hn rfl

end Qlc
